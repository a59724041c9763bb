import Verif.Spec.Signal
import Verif.Model.FFT

/-! # One butterfly level: closed form of the loops -/

open Finset Zones.Spec Zones.Model

namespace Zones.Proofs

theorem twiddleFwd_eq (n : ℕ) : twiddleFwd n = omega n := by
  unfold twiddleFwd omega
  congr 1
  apply Complex.ext <;> simp [Complex.div_re, Complex.div_im, Complex.mul_re, Complex.mul_im]
  by_cases h : (n:ℝ) = 0
  · simp [h]
  · field_simp

theorem twiddleInv_eq (n : ℕ) : twiddleInv n = (omega n)⁻¹ := by
  unfold omega
  rw [← Complex.exp_neg]
  unfold twiddleInv
  congr 1
  apply Complex.ext <;> simp [Complex.div_re, Complex.div_im, Complex.mul_re, Complex.mul_im]
  by_cases h : (n:ℝ) = 0
  · simp [h]
  · field_simp

theorem omega_ne_zero (n : ℕ) : omega n ≠ 0 := Complex.exp_ne_zero _

theorem omega_pow_self (n : ℕ) (hn : 0 < n) : omega n ^ n = 1 := by
  unfold omega
  rw [← Complex.exp_nat_mul]
  have : (n:ℂ) ≠ 0 := by exact_mod_cast hn.ne'
  have e : (n:ℂ) * (-(2 * Real.pi * Complex.I) / n) = -(2 * Real.pi * Complex.I) := by field_simp
  rw [e, Complex.exp_neg, Complex.exp_two_pi_mul_I, inv_one]

theorem omega_mul (m n : ℕ) (hm : 0 < m) : omega (m * n) ^ m = omega n := by
  unfold omega
  rw [← Complex.exp_nat_mul]
  congr 1
  have : (m:ℂ) ≠ 0 := by exact_mod_cast hm.ne'
  push_cast
  by_cases hn : (n:ℂ) = 0
  · simp [hn]
  · field_simp

theorem omega_two : omega 2 = -1 := by
  unfold omega
  have e : (-(2 * (Real.pi:ℂ) * Complex.I) / (2:ℕ)) = -(Real.pi * Complex.I) := by
    push_cast; ring
  rw [e, Complex.exp_neg, Complex.exp_pi_mul_I]; norm_num

theorem omega_half (h : ℕ) (hh : 0 < h) : omega (2 * h) ^ h = -1 := by
  rw [mul_comm, omega_mul h 2 hh, omega_two]

/-- lower partner of `x` in a butterfly level of half-size `h` -/
def low (h x : ℕ) : ℕ := if x % (2 * h) < h then x else x - h

/-- forward butterfly level of half-size `h`, on all aligned groups at once -/
noncomputable def lev (h : ℕ) (d : ℕ → ℂ) (x : ℕ) : ℂ :=
  if x % (2 * h) < h then d (low h x) + d (low h x + h)
  else (d (low h x) - d (low h x + h)) * omega (2 * h) ^ (low h x % (2 * h))

/-- inverse butterfly level -/
noncomputable def ilev (h : ℕ) (d : ℕ → ℂ) (x : ℕ) : ℂ :=
  if x % (2 * h) < h then
    (d (low h x) + d (low h x + h) * (omega (2 * h))⁻¹ ^ (low h x % (2 * h))) * (1 / 2)
  else (d (low h x) - d (low h x + h) * (omega (2 * h))⁻¹ ^ (low h x % (2 * h))) * (1 / 2)

theorem low_mod {h : ℕ} (hh : 0 < h) (x : ℕ) : low h x % (2 * h) < h := by
  unfold low
  split
  · assumption
  · rename_i hx
    have h2 : x % (2*h) < 2*h := Nat.mod_lt _ (by omega)
    have : x = 2*h*(x/(2*h)) + x % (2*h) := (Nat.div_add_mod x (2*h)).symm
    have e : x - h = (x % (2*h) - h) + 2*h*(x/(2*h)) := by omega
    rw [e, Nat.add_mul_mod_self_left, Nat.mod_eq_of_lt (by omega)]
    omega

theorem low_of_lt {h x : ℕ} (hx : x % (2 * h) < h) : low h x = x := by simp [low, hx]

theorem mod_le_self' (h x : ℕ) : x % (2*h) ≤ x := Nat.mod_le _ _

theorem low_of_ge {h x : ℕ} (hx : ¬ x % (2 * h) < h) : low h x + h = x := by
  have := Nat.mod_le x (2*h)
  simp only [low, hx, if_false]; omega

theorem add_half_mod {h : ℕ} {x : ℕ} (hx : x % (2 * h) < h) :
    (x + h) % (2 * h) = x % (2 * h) + h := by
  rw [Nat.add_mod, Nat.mod_eq_of_lt (a := h) (by omega), Nat.mod_eq_of_lt]
  omega

theorem low_add {h : ℕ} {x : ℕ} (hx : x % (2 * h) < h) : low h (x + h) = x := by
  unfold low
  rw [add_half_mod hx]
  simp

theorem low_low {h : ℕ} (hh : 0 < h) (x : ℕ) : low h (low h x) = low h x :=
  low_of_lt (low_mod hh x)

theorem low_low_add {h : ℕ} (hh : 0 < h) (x : ℕ) : low h (low h x + h) = low h x :=
  low_add (low_mod hh x)

theorem ilev_lev {h : ℕ} (hh : 0 < h) (d : ℕ → ℂ) : ilev h (lev h d) = d := by
  funext x
  have hl := low_mod hh x
  have hw : omega (2*h) ≠ 0 := omega_ne_zero _
  have h1 : lev h d (low h x) = d (low h x) + d (low h x + h) := by
    unfold lev; rw [if_pos hl, low_low hh]
  have h2 : lev h d (low h x + h)
      = (d (low h x) - d (low h x + h)) * omega (2 * h) ^ (low h x % (2 * h)) := by
    unfold lev
    rw [if_neg (by rw [add_half_mod hl]; omega), low_low_add hh]
  have hp : omega (2*h) ^ (low h x % (2 * h)) ≠ 0 := pow_ne_zero _ hw
  unfold ilev
  rw [h1, h2]
  split
  · rename_i hx
    rw [inv_pow, mul_assoc (d _ - d _), mul_inv_cancel₀ hp, low_of_lt hx]; ring
  · rename_i hx
    rw [inv_pow, mul_assoc (d _ - d _), mul_inv_cancel₀ hp]
    have := low_of_ge hx
    rw [this]; ring

theorem lev_ilev {h : ℕ} (hh : 0 < h) (d : ℕ → ℂ) : lev h (ilev h d) = d := by
  funext x
  have hl := low_mod hh x
  have hw : omega (2*h) ≠ 0 := omega_ne_zero _
  have hp : omega (2*h) ^ (low h x % (2 * h)) ≠ 0 := pow_ne_zero _ hw
  have h1 : ilev h d (low h x)
      = (d (low h x) + d (low h x + h) * (omega (2 * h))⁻¹ ^ (low h x % (2 * h))) * (1 / 2) := by
    unfold ilev; rw [if_pos hl, low_low hh]
  have h2 : ilev h d (low h x + h)
      = (d (low h x) - d (low h x + h) * (omega (2 * h))⁻¹ ^ (low h x % (2 * h))) * (1 / 2) := by
    unfold ilev
    rw [if_neg (by rw [add_half_mod hl]; omega), low_low_add hh]
  unfold lev
  rw [h1, h2]
  split
  · rename_i hx
    rw [low_of_lt hx]; ring
  · rename_i hx
    rw [inv_pow]
    have e : ∀ a b c : ℂ, c ≠ 0 → ((a + b * c⁻¹) * (1/2) - (a - b * c⁻¹) * (1/2)) * c = b := by
      intro a b c hc; field_simp; ring
    rw [e _ _ _ hp, low_of_ge hx]

/-- the butterfly with lower index `i` in a level of half-size `h` -/
def mkB (h i : ℕ) : Bfly := ⟨i, i + h, i % (2 * h)⟩

theorem applyFwd_mkB {h : ℕ} (hh : 0 < h) (d : ℕ → ℂ) {i : ℕ} (hi : i % (2*h) < h) (x : ℕ) :
    applyFwd (omega (2*h)) d (mkB h i) x = if low h x = i then lev h d x else d x := by
  have hne : i + h ≠ i := by omega
  unfold applyFwd mkB
  simp only [Complex.cpow_natCast]
  by_cases hx : low h x = i
  · rw [if_pos hx]
    unfold lev
    rw [hx]
    split
    · rename_i hc
      have : x = i := by rw [low_of_lt hc] at hx; exact hx
      subst this
      simp [Function.update_of_ne hne.symm]
    · rename_i hc
      have : x = i + h := by have := low_of_ge hc; rw [hx] at this; exact this.symm
      subst this
      simp [Function.update_of_ne hne]
  · rw [if_neg hx]
    have h1 : x ≠ i := fun e => hx (by rw [e]; exact low_of_lt hi)
    have h2 : x ≠ i + h := fun e => hx (by rw [e]; exact low_add hi)
    simp [Function.update_of_ne h1, Function.update_of_ne h2]

theorem applyInv_mkB {h : ℕ} (hh : 0 < h) (d : ℕ → ℂ) {i : ℕ} (hi : i % (2*h) < h) (x : ℕ) :
    applyInv (omega (2*h))⁻¹ d (mkB h i) x = if low h x = i then ilev h d x else d x := by
  have hne : i + h ≠ i := by omega
  unfold applyInv mkB
  simp only [Complex.cpow_natCast]
  by_cases hx : low h x = i
  · rw [if_pos hx]
    unfold ilev
    rw [hx]
    split
    · rename_i hc
      have : x = i := by rw [low_of_lt hc] at hx; exact hx
      subst this
      simp [Function.update_of_ne hne.symm]
    · rename_i hc
      have : x = i + h := by have := low_of_ge hc; rw [hx] at this; exact this.symm
      subst this
      simp [Function.update_of_ne hne]
  · rw [if_neg hx]
    have h1 : x ≠ i := fun e => hx (by rw [e]; exact low_of_lt hi)
    have h2 : x ≠ i + h := fun e => hx (by rw [e]; exact low_add hi)
    simp [Function.update_of_ne h1, Function.update_of_ne h2]

theorem foldl_local {h : ℕ} (hh : 0 < h) (body : (ℕ → ℂ) → Bfly → (ℕ → ℂ))
    (lv : (ℕ → ℂ) → ℕ → ℂ)
    (hlv : ∀ d d' x, d (low h x) = d' (low h x) → d (low h x + h) = d' (low h x + h) →
      lv d x = lv d' x)
    (hbody : ∀ d i x, i % (2*h) < h →
      body d (mkB h i) x = if low h x = i then lv d x else d x)
    (l : List ℕ) (hnd : l.Nodup) (hl : ∀ i ∈ l, i % (2*h) < h) (d : ℕ → ℂ) (x : ℕ) :
    ((l.map (mkB h)).foldl body d) x = if low h x ∈ l then lv d x else d x := by
  induction l generalizing d with
  | nil => simp
  | cons i l ih =>
    rw [List.map_cons, List.foldl_cons,
      ih (List.nodup_cons.mp hnd).2 (fun j hj => hl j (List.mem_cons_of_mem _ hj))]
    have hi := hl i (List.mem_cons_self)
    by_cases hx : low h x = i
    · have hnot : low h x ∉ l := by rw [hx]; exact (List.nodup_cons.mp hnd).1
      rw [if_neg hnot, hbody d i x hi, if_pos hx, if_pos (by rw [hx]; exact List.mem_cons_self)]
    · have hb : ∀ y, low h y = low h x → body d (mkB h i) y = d y := by
        intro y hy
        rw [hbody d i y hi, if_neg (by rw [hy]; exact hx)]
      rw [hb x rfl]
      by_cases hm : low h x ∈ l
      · rw [if_pos hm, if_pos (List.mem_cons_of_mem _ hm)]
        apply hlv
        · exact hb _ (low_low hh x)
        · exact hb _ (low_low_add hh x)
      · rw [if_neg hm, if_neg]
        simp [hm, hx]

theorem lev_congr {h : ℕ} (d d' : ℕ → ℂ) (x : ℕ) (h1 : d (low h x) = d' (low h x))
    (h2 : d (low h x + h) = d' (low h x + h)) : lev h d x = lev h d' x := by
  unfold lev; rw [h1, h2]

theorem ilev_congr {h : ℕ} (d d' : ℕ → ℂ) (x : ℕ) (h1 : d (low h x) = d' (low h x))
    (h2 : d (low h x + h) = d' (low h x + h)) : ilev h d x = ilev h d' x := by
  unfold ilev; rw [h1, h2]

theorem foldl_fwd {h : ℕ} (hh : 0 < h) (l : List ℕ) (hnd : l.Nodup)
    (hl : ∀ i ∈ l, i % (2*h) < h) (d : ℕ → ℂ) (x : ℕ) :
    ((l.map (mkB h)).foldl (applyFwd (omega (2*h))) d) x
      = if low h x ∈ l then lev h d x else d x :=
  foldl_local hh _ _ (fun d d' x => lev_congr d d' x)
    (fun d _ x hi => applyFwd_mkB hh d hi x) l hnd hl d x

theorem foldl_inv {h : ℕ} (hh : 0 < h) (l : List ℕ) (hnd : l.Nodup)
    (hl : ∀ i ∈ l, i % (2*h) < h) (d : ℕ → ℂ) (x : ℕ) :
    ((l.map (mkB h)).foldl (applyInv (omega (2*h))⁻¹) d) x
      = if low h x ∈ l then ilev h d x else d x :=
  foldl_local hh _ _ (fun d d' x => ilev_congr d d' x)
    (fun d _ x hi => applyInv_mkB hh d hi x) l hnd hl d x

end Zones.Proofs
