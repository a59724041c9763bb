import Verif.Model.Engine
import Verif.Proofs.Float

/-! Linear ramps and fade lengths. -/

open Zones.Model

namespace Zones.Proofs

variable {g : GainArith}

/-- The value of a smoother on its way from `a` to `b` in `n` steps, after `j` of them, unless it has arrived. -/
noncomputable def rampAt (g : GainArith) (a b : ℝ) (n : ℕ) : ℕ → ℝ
  | 0 => a
  | j + 1 => g.add (rampAt g a b n j) (g.div (g.sub b a) n)

/-- The gain applied to sample `t` of a fade from `a` to `b` over `n` samples. -/
noncomputable def gainAt (g : GainArith) (a b : ℝ) (n t : ℕ) : ℝ := if t + 1 < n then rampAt g a b n (t + 1) else b

/-- A smoother on its way from `a` to `b` in `n` steps, after `j` of them. -/
noncomputable def ramp (g : GainArith) (a b : ℝ) (n j : ℕ) : Smooth where
  current := if j < n then rampAt g a b n j else b
  target := b
  step := g.div (g.sub b a) n
  countdown := n - j
  steps := n

theorem ramp_smoothing {a b : ℝ} {n j : ℕ} : (ramp g a b n j).isSmoothing = decide (j < n) := by
  unfold Smooth.isSmoothing ramp
  simp

theorem ramp_next {a b : ℝ} {n j : ℕ} (hj : j ≤ n) :
    (ramp g a b n j).next g = (gainAt g a b n j, ramp g a b n (min n (j + 1))) := by
  unfold Smooth.next gainAt
  by_cases h0 : n - j = 0
  · have : j = n := by omega
    subst this
    simp [ramp]
  · by_cases h1 : n - j = 1
    · have : n = j + 1 := by omega
      subst this
      simp [ramp]
    · have hlt : j < n := by omega
      have hlt1 : j + 1 < n := by omega
      have hm : min n (j + 1) = j + 1 := by omega
      simp only [ramp, h0, h1, if_false, hlt, hlt1, if_true, hm, rampAt, Prod.mk.injEq, true_and]
      congr 1

theorem ramp_advance {a b : ℝ} {n j : ℕ} (hj : j ≤ n) (m : ℕ) :
    (ramp g a b n j).advance g m = ramp g a b n (min n (j + m)) := by
  induction m with
  | zero => simp [Smooth.advance, hj]
  | succ m ih =>
    rw [Smooth.advance, ih, ramp_next (by omega)]
    show ramp g a b n (min n (min n (j + m) + 1)) = _
    rw [show min n (min n (j + m) + 1) = min n (j + (m + 1)) by omega]

theorem ramp_value {a b : ℝ} {n j : ℕ} (hj : j ≤ n) (i : ℕ) :
    (ramp g a b n j).value g i = gainAt g a b n (j + i) := by
  unfold Smooth.value
  rw [ramp_advance hj, ramp_next (by omega)]
  unfold gainAt
  by_cases h : j + i + 1 < n
  · rw [show min n (j + i) = j + i by omega]
  · rw [if_neg (by omega), if_neg h]

/-- `multiplyBy` with a ramp, smoothing or not. -/
theorem multiplyBy_ramp {a b : ℝ} {n j : ℕ} (hj : j ≤ n) (blk : Buf) :
    blk.multiplyBy g (ramp g a b n j) =
      (blk.scale g fun i => gainAt g a b n (j + i), ramp g a b n (min n (j + blk.n))) := by
  unfold Buf.multiplyBy
  rw [ramp_smoothing]
  by_cases h : j < n
  · rw [decide_eq_true h, if_pos rfl, ramp_advance hj]
    congr 2
    funext i
    exact ramp_value hj i
  · have : j = n := by omega
    subst this
    rw [decide_eq_false h, if_neg (by simp), Nat.min_eq_left (by omega)]
    congr 2
    funext i
    unfold gainAt
    rw [if_neg (by omega)]
    rfl

/-! ## f32 -/

theorem log_le_self {x : ℚ} (hx : 0 < x) : (2:ℚ) ^ (Int.log 2 |x|) ≤ x := by
  rw [abs_of_pos hx]
  exact_mod_cast Int.zpow_log_le_self (b := 2) (by norm_num) hx

theorem lt_log_succ {x : ℚ} (hx : 0 < x) : x < (2:ℚ) ^ (Int.log 2 |x| + 1) := by
  rw [abs_of_pos hx]
  exact_mod_cast Int.lt_zpow_succ_log_self (b := 2) (by norm_num) x

theorem ulp_le {x : ℚ} (hx : 0 < x) : ulp x ≤ x / 2^23 := by
  unfold ulp
  rw [zpow_sub₀ (by norm_num)]
  have := log_le_self hx
  exact div_le_div_of_nonneg_right this (by norm_num)

theorem lt_ulp {x : ℚ} (hx : 0 < x) : x / 2^24 < ulp x := by
  have h := lt_log_succ hx
  unfold ulp
  rw [zpow_sub₀ (by norm_num)]
  rw [zpow_add₀ (by norm_num)] at h
  norm_num at h ⊢
  linarith

theorem f32_pos_bounds {x : ℚ} (hx : 0 < x) : x / 2 ≤ f32 x ∧ f32 x ≤ 2 * x := by
  have h1 := f32_err x
  have h2 := ulp_le hx
  rw [abs_le] at h1
  norm_num at h2
  constructor <;> linarith

theorem roundEven_near {y : ℚ} {j : ℤ} (h : |y - j| < 1/2) : roundEven y = j := by
  have h1 := roundEven_err y
  have h2 : |(roundEven y : ℚ) - j| < 1 := by
    calc |(roundEven y : ℚ) - j| = |((roundEven y : ℚ) - y) + (y - j)| := by ring_nf
      _ ≤ |(roundEven y : ℚ) - y| + |y - j| := abs_add_le _ _
      _ < 1 := by linarith
  have h3 : |roundEven y - j| < 1 := by exact_mod_cast h2
  have := Int.abs_lt_one_iff.mp h3
  omega

/-- `ceil (k * n)` in floats is exact when `k` approximates `a / b` well from above. -/
theorem ceilTimes_eq {k : ℚ} {a b n : ℕ} (hb : 0 < b) (ha : 0 < a) (hn : 0 < n) (hn24 : n ≤ 2^24)
    (h1 : (a : ℚ) / b ≤ k) (h2 : (k - a / b) ≤ k / 2^25) (h3 : (b:ℚ) * ((k - a / b) * n + k * n / 2^24) < 1)
    (h4 : k * n < 2^23) :
    ceilTimes k n = ⌈((a : ℚ) * n) / b⌉ := by
  have hn' : (0:ℚ) < n := by exact_mod_cast hn
  have hb' : (0:ℚ) < b := by exact_mod_cast hb
  have ha' : (0:ℚ) < a := by exact_mod_cast ha
  have hk : 0 < k := lt_of_lt_of_le (by positivity) h1
  unfold ceilTimes
  rw [f32_nat hn24]
  set x : ℚ := k * n with hx
  have hx0 : 0 < x := by positivity
  have hu := ulp_le hx0
  have hu' := lt_ulp hx0
  have herr := f32_err x
  set y : ℚ := (a : ℚ) * n / b with hy
  have hyx : x - y = (k - a / b) * n := by rw [hx, hy]; ring
  have hd0 : 0 ≤ x - y := by rw [hyx]; exact mul_nonneg (by linarith) hn'.le
  have hd : x - y ≤ x / 2^25 := by
    rw [hyx, hx]
    have := mul_le_mul_of_nonneg_right h2 hn'.le
    calc _ ≤ _ := this
      _ = _ := by ring
  have h3' : (x - y) + x / 2^24 < 1 / b := by
    rw [lt_div_iff₀ hb', hyx, hx]
    linarith
  by_cases hint : ∃ m : ℤ, y = m
  · obtain ⟨m, hm⟩ := hint
    rw [hm, Int.ceil_intCast]
    -- `m` is a multiple of the unit in the last place
    have hlog : Int.log 2 |x| < 23 := by
      rw [abs_of_pos hx0]
      have : x < ((2:ℕ):ℚ) ^ (23:ℤ) := by rw [hx]; norm_num at h4 ⊢; linarith
      exact (Int.lt_zpow_iff_log_lt (b := 2) (by norm_num) hx0).mp this
    obtain ⟨t, ht⟩ : ∃ t : ℕ, Int.log 2 |x| - 23 = -(t:ℤ) := ⟨(23 - Int.log 2 |x|).toNat, by omega⟩
    have hut : ulp x = ((2:ℚ) ^ t)⁻¹ := by unfold ulp; rw [ht, zpow_neg, zpow_natCast]
    have hre : roundEven (x / ulp x) = m * 2^t := by
      apply roundEven_near
      have : x / ulp x - ((m * 2^t : ℤ) : ℚ) = (x - y) / ulp x := by
        rw [hm, hut]; push_cast; field_simp
      rw [this, abs_of_nonneg (div_nonneg hd0 (ulp_pos x).le), div_lt_iff₀ (ulp_pos x)]
      have : x / 2^25 < 1/2 * ulp x := by
        have e : x / 2^25 = 1/2 * (x / 2^24) := by ring
        rw [e]; linarith
      linarith
    have hf : f32 x = m := by
      have : f32 x = roundEven (x / ulp x) * ulp x := by
        unfold f32
        rw [if_neg hx0.ne']
        rfl
      rw [this, hre, hut]
      push_cast
      field_simp
    rw [hf, Int.ceil_intCast]
  · push Not at hint
    rw [abs_le] at herr
    -- `y` is at least `1 / b` away from its neighbours
    have hlo : ((⌈y⌉ : ℤ) : ℚ) - 1 + 1 / b ≤ y := by
      have hlt : ((⌈y⌉ : ℤ) : ℚ) - 1 < y := by have := Int.ceil_lt_add_one y; linarith
      have : (((⌈y⌉ - 1) * b : ℤ) : ℚ) < ((a * n : ℕ) : ℚ) := by
        push_cast
        calc _ < y * b := by exact mul_lt_mul_of_pos_right hlt hb'
          _ = _ := by rw [hy]; field_simp
      have h' : (⌈y⌉ - 1) * b + 1 ≤ ((a * n : ℕ) : ℤ) := by exact_mod_cast this
      have h'' : (((⌈y⌉ - 1) * b + 1 : ℤ) : ℚ) ≤ (((a * n : ℕ) : ℤ) : ℚ) := by exact_mod_cast h'
      push_cast at h''
      rw [hy, le_div_iff₀ hb']
      have e : ((⌈y⌉ : ℚ) - 1 + 1 / b) * b = ((⌈y⌉ : ℚ) - 1) * b + 1 := by field_simp
      rw [e]; linarith
    have hhi : y + 1 / b ≤ ⌈y⌉ := by
      have hlt : y < (⌈y⌉ : ℚ) := lt_of_le_of_ne (Int.le_ceil y) (hint _)
      have : ((a * n : ℕ) : ℚ) < ((⌈y⌉ * b : ℤ) : ℚ) := by
        push_cast
        calc _ = y * b := by rw [hy]; field_simp
          _ < _ := mul_lt_mul_of_pos_right hlt hb'
      have h' : ((a * n : ℕ) : ℤ) + 1 ≤ ⌈y⌉ * b := by exact_mod_cast this
      have h'' : ((((a * n : ℕ) : ℤ) + 1 : ℤ) : ℚ) ≤ ((⌈y⌉ * b : ℤ) : ℚ) := by exact_mod_cast h'
      push_cast at h''
      have e : y + 1 / b = ((a:ℚ) * n + 1) / b := by rw [hy]; field_simp
      rw [e, div_le_iff₀ hb']
      exact h''
    have hu2 : ulp x / 2 ≤ x / 2^24 := by
      have e : x / 2^24 = (x / 2^23) / 2 := by ring
      rw [e]; linarith
    rw [Int.ceil_eq_iff]
    constructor
    · have : x / 2^24 < 1 / b := by linarith
      linarith [herr.1]
    · linarith [herr.2]

end Zones.Proofs
