import Verif.Spec.FloatFades
import Verif.Proofs.EngineFade
import Verif.Proofs.RFloat

/-! Rounding errors of fades. -/

open Zones.Model Zones.Spec

namespace Zones.Proofs

variable {g : GainArith} {u : ℝ}

/-- one more rounding -/
theorem step_err {a x y e E : ℝ} (hu : 0 ≤ u) (h : |x - a| ≤ e) (ha : |a| ≤ E) (hy : |y - x| ≤ u * |x|) :
    |y - a| ≤ (1 + u) * e + u * E := by
  have h1 : |x| ≤ E + e := by
    have := abs_add_le a (x - a)
    rw [add_sub_cancel] at this
    linarith
  have h2 : |y - a| ≤ |y - x| + |x - a| := by
    have := abs_add_le (y - x) (x - a)
    rwa [sub_add_sub_cancel] at this
  have h3 : u * |x| ≤ u * (E + e) := mul_le_mul_of_nonneg_left h1 hu
  nlinarith

/-- the step of a fade in -/
theorem stepIn_err (hg : AccurateGains g u) {n : ℕ} (hn : 0 < n) (hn2 : n ≤ 2 ^ 24) :
    |g.div (g.sub 1 0) n - 1 / n| ≤ ((1 + u) ^ 2 - 1) / n := by
  have hn' : (0:ℝ) < n := by exact_mod_cast hn
  have h1 := hg.sub 1 0
  have h2 := hg.div (g.sub 1 0) n hn hn2
  norm_num at h1
  have h3 : |g.sub 1 0 / n - 1 / n| ≤ u / n := by
    rw [← sub_div, abs_div, abs_of_pos hn']
    exact div_le_div_of_nonneg_right h1 hn'.le
  have h4 := step_err (a := 1 / (n:ℝ)) (E := 1 / n) hg.u_nonneg h3 (by rw [abs_of_pos (by positivity)]) h2
  refine h4.trans (le_of_eq ?_)
  ring

/-- the step of a fade out -/
theorem stepOut_err (hg : AccurateGains g u) {n : ℕ} (hn : 0 < n) (hn2 : n ≤ 2 ^ 24) :
    |g.div (g.sub 0 1) n - -1 / n| ≤ ((1 + u) ^ 2 - 1) / n := by
  have hn' : (0:ℝ) < n := by exact_mod_cast hn
  have h1 := hg.sub 0 1
  have h2 := hg.div (g.sub 0 1) n hn hn2
  norm_num at h1
  have h3 : |g.sub 0 1 / n - -1 / n| ≤ u / n := by
    rw [← sub_div, abs_div, abs_of_pos hn', sub_neg_eq_add]
    exact div_le_div_of_nonneg_right h1 hn'.le
  have h4 := step_err (a := -1 / (n:ℝ)) (E := 1 / n) hg.u_nonneg h3 (by rw [neg_div, abs_neg, abs_of_pos (by positivity)]) h2
  refine h4.trans (le_of_eq ?_)
  ring

theorem rampIn_err (hg : AccurateGains g u) {n : ℕ} (hn : 0 < n) (hn2 : n ≤ 2 ^ 24) (j : ℕ) :
    |rampAt g 0 1 n j - j / n| ≤ j / n * ((1 + u) ^ (j + 2) - 1) := by
  have hn' : (0:ℝ) < n := by exact_mod_cast hn
  have hu := hg.u_nonneg
  induction j with
  | zero => simp [rampAt]
  | succ j ih =>
    have hs := stepIn_err hg hn hn2
    have hp : (1 + u) ^ 2 ≤ (1 + u) ^ (j + 2) := pow_le_pow_right₀ (by linarith) (by omega)
    have h1 : |rampAt g 0 1 n j + g.div (g.sub 1 0) n - ((j + 1 : ℕ) : ℝ) / n| ≤ ((j + 1 : ℕ) : ℝ) / n * ((1 + u) ^ (j + 2) - 1) := by
      have e : rampAt g 0 1 n j + g.div (g.sub 1 0) n - ((j + 1 : ℕ) : ℝ) / n =
          (rampAt g 0 1 n j - j / n) + (g.div (g.sub 1 0) n - 1 / n) := by
        push_cast; ring
      rw [e]
      refine (abs_add_le _ _).trans ((add_le_add ih (hs.trans (div_le_div_of_nonneg_right (sub_le_sub_right hp 1) hn'.le))).trans (le_of_eq ?_))
      push_cast
      ring
    have h2 := step_err (E := ((j + 1 : ℕ) : ℝ) / n) hu h1 (by rw [abs_of_nonneg (by positivity)]) (hg.add (rampAt g 0 1 n j) (g.div (g.sub 1 0) n))
    refine h2.trans (le_of_eq ?_)
    ring

theorem rampOut_err (hg : AccurateGains g u) {n : ℕ} (hn : 0 < n) (hn2 : n ≤ 2 ^ 24) {j : ℕ} (hj : j ≤ n) :
    |rampAt g 1 0 n j - (1 - j / n)| ≤ (1 + u) ^ (j + 2) - 1 := by
  have hn' : (0:ℝ) < n := by exact_mod_cast hn
  have hu := hg.u_nonneg
  have hη : 0 ≤ (1 + u) ^ 2 - 1 := by nlinarith
  have key : |rampAt g 1 0 n j - (1 - j / n)| ≤ (1 + u) ^ j * (1 + j / n * ((1 + u) ^ 2 - 1)) - 1 := by
    induction j with
    | zero => simp [rampAt]
    | succ j ih =>
      have ih := ih (by omega)
      have hs := stepOut_err hg hn hn2
      have h1 : |rampAt g 1 0 n j + g.div (g.sub 0 1) n - (1 - ((j + 1 : ℕ) : ℝ) / n)| ≤
          ((1 + u) ^ j * (1 + j / n * ((1 + u) ^ 2 - 1)) - 1) + ((1 + u) ^ 2 - 1) / n := by
        have e : rampAt g 1 0 n j + g.div (g.sub 0 1) n - (1 - ((j + 1 : ℕ) : ℝ) / n) =
            (rampAt g 1 0 n j - (1 - j / n)) + (g.div (g.sub 0 1) n - -1 / n) := by
          push_cast; ring
        rw [e]
        exact (abs_add_le _ _).trans (add_le_add ih hs)
      have hle : ((j + 1 : ℕ) : ℝ) / n ≤ 1 := by rw [div_le_one hn']; exact_mod_cast hj
      have hnn : 0 ≤ ((j + 1 : ℕ) : ℝ) / n := by positivity
      have h2 := step_err (E := 1) hu h1 (by rw [abs_le]; constructor <;> linarith) (hg.add (rampAt g 1 0 n j) (g.div (g.sub 0 1) n))
      refine h2.trans ?_
      have hp : 1 ≤ (1 + u) ^ j := one_le_pow₀ (by linarith)
      have h3 : ((1 + u) ^ 2 - 1) / n ≤ (1 + u) ^ j * (((1 + u) ^ 2 - 1) / n) := le_mul_of_one_le_left (by positivity) hp
      have h4 : (1 + u) ^ (j + 1) * (1 + ((j + 1 : ℕ) : ℝ) / n * ((1 + u) ^ 2 - 1)) =
          (1 + u) * ((1 + u) ^ j * (1 + j / n * ((1 + u) ^ 2 - 1)) + (1 + u) ^ j * (((1 + u) ^ 2 - 1) / n)) := by
        push_cast; ring
      rw [h4]
      nlinarith
  refine key.trans ?_
  have hle : (j : ℝ) / n ≤ 1 := by rw [div_le_one hn']; exact_mod_cast hj
  have h1 : 1 + (j : ℝ) / n * ((1 + u) ^ 2 - 1) ≤ (1 + u) ^ 2 := by nlinarith
  have h2 := mul_le_mul_of_nonneg_left h1 (show 0 ≤ (1 + u) ^ j by positivity)
  rw [pow_add]
  linarith

theorem fadeGain_lt {n t : ℕ} (h : t + 1 < n) : fadeGain n t = ((t + 1 : ℕ) : ℝ) / n := by
  have hn' : (0 : ℝ) < n := by exact_mod_cast (by omega : 0 < n)
  unfold fadeGain
  rw [min_eq_right]
  · push_cast; rfl
  · rw [div_le_one hn']; exact_mod_cast h.le

theorem fadeGain_range {n t : ℕ} : 0 ≤ fadeGain n t ∧ fadeGain n t ≤ 1 := by
  unfold fadeGain
  exact ⟨le_min zero_le_one (by positivity), min_le_left _ _⟩

/-- the gain of the new response -/
theorem gainIn_err (hg : AccurateGains g u) {n : ℕ} (hn : 0 < n) (hn2 : n ≤ 2 ^ 24) (t : ℕ) :
    |gainAt g 0 1 n t - fadeGain n t| ≤ fadeGain n t * ((1 + u) ^ (n + 2) - 1) := by
  have hu := hg.u_nonneg
  unfold gainAt
  split
  · next h =>
    rw [fadeGain_lt h]
    refine (rampIn_err hg hn hn2 _).trans (mul_le_mul_of_nonneg_left (sub_le_sub_right ?_ 1) (by positivity))
    exact pow_le_pow_right₀ (by linarith) (by omega)
  · next h =>
    rw [fadeGain_one hn (by omega)]
    have : 1 ≤ (1 + u) ^ (n + 2) := one_le_pow₀ (by linarith)
    simp; linarith

/-- the gain of the old response -/
theorem gainOut_err (hg : AccurateGains g u) {n : ℕ} (hn : 0 < n) (hn2 : n ≤ 2 ^ 24) (t : ℕ) :
    |gainAt g 1 0 n t - (1 - fadeGain n t)| ≤ (1 + u) ^ (n + 2) - 1 := by
  have hu := hg.u_nonneg
  unfold gainAt
  split
  · next h =>
    rw [fadeGain_lt h]
    refine (rampOut_err hg hn hn2 (by omega)).trans (sub_le_sub_right ?_ 1)
    exact pow_le_pow_right₀ (by linarith) (by omega)
  · next h =>
    rw [fadeGain_one hn (by omega)]
    have : 1 ≤ (1 + u) ^ (n + 2) := one_le_pow₀ (by linarith)
    simp; linarith

theorem mulIn_err (hg : AccurateGains g u) {n : ℕ} (hn : 0 < n) (hn2 : n ≤ 2 ^ 24) (t : ℕ) (x : ℝ) :
    |g.mul x (gainAt g 0 1 n t) - fadeGain n t * x| ≤ ((1 + u) ^ (n + 3) - 1) * |fadeGain n t * x| := by
  have h1 : |x * gainAt g 0 1 n t - fadeGain n t * x| ≤ |fadeGain n t * x| * ((1 + u) ^ (n + 2) - 1) := by
    rw [mul_comm (fadeGain n t), ← mul_sub, abs_mul, abs_mul, abs_of_nonneg fadeGain_range.1, mul_assoc]
    exact mul_le_mul_of_nonneg_left (gainIn_err hg hn hn2 t) (abs_nonneg x)
  have h2 := step_err hg.u_nonneg h1 le_rfl (hg.mul x (gainAt g 0 1 n t))
  refine h2.trans (le_of_eq ?_)
  ring

theorem mulOut_err (hg : AccurateGains g u) {n : ℕ} (hn : 0 < n) (hn2 : n ≤ 2 ^ 24) (t : ℕ) (x : ℝ) :
    |g.mul x (gainAt g 1 0 n t) - (1 - fadeGain n t) * x| ≤ (1 + u) * |x| * ((1 + u) ^ (n + 2) - 1) + u * ((1 - fadeGain n t) * |x|) := by
  have h1 : |x * gainAt g 1 0 n t - (1 - fadeGain n t) * x| ≤ |x| * ((1 + u) ^ (n + 2) - 1) := by
    rw [mul_comm (1 - fadeGain n t), ← mul_sub, abs_mul]
    exact mul_le_mul_of_nonneg_left (gainOut_err hg hn hn2 t) (abs_nonneg x)
  have h2 := step_err (E := (1 - fadeGain n t) * |x|) hg.u_nonneg h1
    (by rw [abs_mul, abs_of_nonneg (by linarith [fadeGain_range (n := n) (t := t)])]) (hg.mul x (gainAt g 1 0 n t))
  refine h2.trans (le_of_eq ?_)
  ring

theorem mul_zero_gain (hg : AccurateGains g u) (x : ℝ) : g.mul x 0 = 0 := by
  have := hg.mul x 0
  rw [mul_zero, sub_zero, abs_zero, mul_zero] at this
  exact abs_nonpos_iff.1 this

/-- Accurate arithmetic makes nearly linear fades. -/
theorem implements_accurate (hg : AccurateGains g u) : Implements g (nearlyLinearFades u) := by
  have hu := hg.u_nonneg
  refine ⟨fun n t old new hn hn2 => ⟨?_, fun ht => ?_⟩, fun n t old hn hn2 => ⟨?_, fun ht => ?_⟩,
    fun n t new hn hn2 => ⟨mulIn_err hg hn hn2 t new, fun ht => ?_⟩, fun n t old new hn ht hn2 => ⟨?_, fun _ => ?_⟩⟩
  · have h1 := mulOut_err hg hn hn2 t old
    have h2 := mulIn_err hg hn hn2 t new
    obtain ⟨g0, g1⟩ := fadeGain_range (n := n) (t := t)
    generalize fadeGain n t = γ at *
    generalize g.mul old (gainAt g 1 0 n t) = p at *
    generalize g.mul new (gainAt g 0 1 n t) = q at *
    have hE : 1 ≤ (1 + u) ^ (n + 2) := one_le_pow₀ (by linarith)
    have e3 : (1 + u) ^ (n + 3) = (1 + u) * (1 + u) ^ (n + 2) := by ring
    have e6 : (1 + u) ^ (2 * n + 6) = (1 + u) ^ 2 * ((1 + u) ^ (n + 2)) ^ 2 := by ring
    rw [e3] at h2
    rw [e6]
    generalize (1 + u) ^ (n + 2) = Q at *
    have hm1 : |old| ≤ max |old| |new| := le_max_left _ _
    have hm2 : |new| ≤ max |old| |new| := le_max_right _ _
    have hm0 : 0 ≤ max |old| |new| := le_trans (abs_nonneg _) hm1
    generalize max |old| |new| = m at *
    rw [abs_mul, abs_of_nonneg g0] at h2
    have k1 : |p - (1 - γ) * old| ≤ (1 + u) * m * (Q - 1) + u * ((1 - γ) * m) := by
      refine h1.trans (add_le_add ?_ ?_)
      · exact mul_le_mul_of_nonneg_right (mul_le_mul_of_nonneg_left hm1 (by linarith)) (by linarith)
      · exact mul_le_mul_of_nonneg_left (mul_le_mul_of_nonneg_left hm1 (by linarith)) hu
    have k2 : |q - γ * new| ≤ ((1 + u) * Q - 1) * (γ * m) := by
      refine h2.trans (mul_le_mul_of_nonneg_left (mul_le_mul_of_nonneg_left hm2 g0) ?_)
      nlinarith
    have k3 : |p + q - ((1 - γ) * old + γ * new)| ≤ ((1 + u) * (1 + 2 * (Q - 1)) - 1) * m := by
      have e : p + q - ((1 - γ) * old + γ * new) = (p - (1 - γ) * old) + (q - γ * new) := by ring
      rw [e]
      refine (abs_add_le _ _).trans ((add_le_add k1 k2).trans ?_)
      have hx : 0 ≤ (1 + u) * (Q - 1) * m * (1 - γ) := by
        apply mul_nonneg (mul_nonneg (mul_nonneg _ _) hm0) <;> linarith
      nlinarith
    have k4 : |(1 - γ) * old + γ * new| ≤ m := by
      refine (abs_add_le _ _).trans ?_
      rw [abs_mul, abs_mul, abs_of_nonneg g0, abs_of_nonneg (by linarith : (0:ℝ) ≤ 1 - γ)]
      have := mul_le_mul_of_nonneg_left hm1 (by linarith : (0:ℝ) ≤ 1 - γ)
      have := mul_le_mul_of_nonneg_left hm2 g0
      linarith
    have k5 := step_err hu k3 k4 (hg.add p q)
    refine k5.trans ?_
    have hQ : 1 + 2 * (Q - 1) ≤ Q ^ 2 := by nlinarith
    have := mul_le_mul_of_nonneg_left hQ (show 0 ≤ (1 + u) ^ 2 * m by positivity)
    nlinarith
  · have e1 : gainAt g 1 0 n t = 0 := by unfold gainAt; rw [if_neg (by omega)]
    have e2 : gainAt g 0 1 n t = 1 := by unfold gainAt; rw [if_neg (by omega)]
    rw [e1, e2, mul_zero_gain hg]
    have h1 := hg.mul new 1
    rw [mul_one] at h1
    have h2 := hg.add 0 (g.mul new 1)
    rw [zero_add] at h2
    have h3 := step_err hu h1 le_rfl h2
    refine h3.trans (le_of_eq ?_)
    ring
  · refine (mulOut_err hg hn hn2 t old).trans ?_
    obtain ⟨g0, g1⟩ := fadeGain_range (n := n) (t := t)
    have e3 : (1 + u) ^ (n + 3) = (1 + u) * (1 + u) ^ (n + 2) := by ring
    rw [e3]
    have : u * ((1 - fadeGain n t) * |old|) ≤ u * |old| := by
      refine mul_le_mul_of_nonneg_left ?_ hu
      have := mul_nonneg g0 (abs_nonneg old)
      linarith
    linarith
  · have e1 : gainAt g 1 0 n t = 0 := by unfold gainAt; rw [if_neg (by omega)]
    rw [e1, mul_zero_gain hg]
  · have e2 : gainAt g 0 1 n t = 1 := by unfold gainAt; rw [if_neg (by omega)]
    have h1 := hg.mul new 1
    rw [mul_one] at h1
    rw [e2]
    exact h1
  · rw [fadeGain_one hn ht]
    have : 1 ≤ (1 + u) ^ (2 * n + 6) := one_le_pow₀ (by linarith)
    have h2 : 0 ≤ max |old| |new| := le_trans (abs_nonneg _) (le_max_left _ _)
    have h3 : new - ((1 - 1) * old + 1 * new) = 0 := by ring
    rw [h3, abs_zero]
    exact mul_nonneg (by linarith) h2
  · rw [sub_self, abs_zero]
    have : 1 ≤ (1 + u) ^ 2 := one_le_pow₀ (by linarith)
    exact mul_nonneg (by linarith) (abs_nonneg _)

/-- Numbers of at most 24 bits are not rounded. -/
theorem round24_nat {n : ℕ} (hn : n ≤ 2 ^ 24) : round24 n = n := by
  unfold round24
  split
  · next h => exact h.symm
  · next h =>
    have hn0 : 0 < n := Nat.pos_of_ne_zero (fun h0 => h (by rw [h0]; simp))
    have hlog : Int.log 2 |(n:ℝ)| = (Nat.log 2 n : ℤ) := by
      rw [abs_of_nonneg (by positivity), Int.log_natCast]
    rw [hlog]
    have hk : Nat.log 2 n ≤ 24 := by
      have := Nat.log_mono_right (b := 2) hn
      rwa [Nat.log_pow (by norm_num)] at this
    have hexp : ∀ k : ℕ, k ≤ 23 → (n : ℝ) / (2:ℝ) ^ ((k : ℤ) - 23) = ((n * 2 ^ (23 - k) : ℕ) : ℤ) := by
      intro k hk
      have : (k : ℤ) - 23 = -((23 - k : ℕ) : ℤ) := by omega
      rw [this, zpow_neg, zpow_natCast]
      push_cast
      field_simp
    have hval : ∃ m : ℤ, (n : ℝ) / (2:ℝ) ^ ((Nat.log 2 n : ℤ) - 23) = m := by
      rcases Nat.lt_or_ge (Nat.log 2 n) 24 with h24 | h24
      · exact ⟨_, hexp _ (by omega)⟩
      · have e : Nat.log 2 n = 24 := by omega
        have h3 : 2 ^ 24 ≤ n := by
          have := Nat.pow_log_le_self 2 hn0.ne'
          rwa [e] at this
        have h4 : n = 2 ^ 24 := le_antisymm hn h3
        refine ⟨2 ^ 23, ?_⟩
        rw [e, h4]
        norm_num
    obtain ⟨m, hm⟩ := hval
    have hpos : (0:ℝ) < (2:ℝ) ^ ((Nat.log 2 n : ℤ) - 23) := by positivity
    simp only [hm, Int.floor_intCast, sub_self]
    rw [if_pos (by norm_num), ← hm]
    field_simp

/-- binary32 arithmetic is accurate -/
theorem accurateGains_single : AccurateGains (.rounded round24) (2⁻¹ ^ 24) where
  u_nonneg := by positivity
  add a b := R.round24_err _
  sub a b := R.round24_err _
  mul a b := R.round24_err _
  div a n _ h := by
    show |round24 (a / round24 n) - _| ≤ _
    rw [round24_nat h]
    exact R.round24_err _

end Zones.Proofs
