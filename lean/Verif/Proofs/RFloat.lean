import Verif.Proofs.RDFT

/-! # Rounded arithmetic meets the assumptions of the error bounds -/

open Finset Zones.Spec Zones.Model

namespace Zones.Proofs.R

theorem round24_err (x : ℝ) : |round24 x - x| ≤ 2⁻¹ ^ 24 * |x| := by
  unfold round24
  split
  · next h => rw [h]; simp
  · next h =>
    have hx : 0 < |x| := abs_pos.mpr h
    have he : (0:ℝ) < (2:ℝ) ^ (Int.log 2 |x| - 23) := zpow_pos (by norm_num) _
    have hle : (2:ℝ) ^ (Int.log 2 |x|) ≤ |x| := by
      have := Int.zpow_log_le_self (R := ℝ) (b := 2) (by norm_num) hx
      exact_mod_cast this
    have hsplit : (2:ℝ) ^ (Int.log 2 |x| - 23) = (2:ℝ) ^ (Int.log 2 |x|) * 2⁻¹ ^ 23 := by
      rw [zpow_sub₀ (by norm_num)]; norm_num [div_eq_mul_inv]
    simp only
    generalize (2:ℝ) ^ (Int.log 2 |x| - 23) = e at he hsplit ⊢
    have h1 := Int.floor_le (x / e)
    have h2 := Int.lt_floor_add_one (x / e)
    set f := ⌊x / e⌋ with hf
    have key : ∀ m : ℤ, |(m : ℝ) - x / e| ≤ 1 / 2 → |m * e - x| ≤ 2⁻¹ ^ 24 * |x| := by
      intro m hm
      have e1 : m * e - x = (m - x / e) * e := by rw [sub_mul, div_mul_cancel₀ _ he.ne']
      rw [e1, abs_mul, abs_of_pos he]
      have : |(m : ℝ) - x / e| * e ≤ 1 / 2 * e := mul_le_mul_of_nonneg_right hm he.le
      have h3 : 1 / 2 * e ≤ 2⁻¹ ^ 24 * |x| := by
        rw [hsplit]; nlinarith
      linarith
    apply key
    split_ifs with h3 h4 h5 <;> rw [abs_le] <;> constructor <;> push_cast <;> linarith

theorem norm_le_of_parts {a b : ℂ} {s : ℝ} (hs : 0 ≤ s) (h1 : |a.re| ≤ s * |b.re|) (h2 : |a.im| ≤ s * |b.im|) :
    ‖a‖ ≤ s * ‖b‖ := by
  rw [Complex.norm_def, Complex.norm_def, ← Real.sqrt_sq hs, ← Real.sqrt_mul (sq_nonneg s)]
  apply Real.sqrt_le_sqrt
  rw [Complex.normSq_apply, Complex.normSq_apply]
  have e1 : a.re * a.re ≤ (s * |b.re|) * (s * |b.re|) := by
    rw [← abs_mul_abs_self a.re]; exact mul_le_mul h1 h1 (abs_nonneg _) (by positivity)
  have e2 : a.im * a.im ≤ (s * |b.im|) * (s * |b.im|) := by
    rw [← abs_mul_abs_self a.im]; exact mul_le_mul h2 h2 (abs_nonneg _) (by positivity)
  have e3 := abs_mul_abs_self b.re
  have e4 := abs_mul_abs_self b.im
  nlinarith

theorem round_two {r : ℝ → ℝ} {v : ℝ} (hv : 0 ≤ v) (hr : ∀ x, |r x - x| ≤ v * |x|) (p q : ℝ) :
    |r (r p + r q) - (p + q)| ≤ (2 * v + v ^ 2) * (|p| + |q|) := by
  have h1 := hr (r p + r q)
  have h2 := hr p
  have h3 := hr q
  have h4 : |r p + r q - (p + q)| ≤ v * (|p| + |q|) := by
    rw [show r p + r q - (p + q) = (r p - p) + (r q - q) by ring]
    refine (abs_add_le _ _).trans ?_
    linarith
  have h5 : |r p + r q| ≤ (1 + v) * (|p| + |q|) := by
    have e : r p + r q = (r p + r q - (p + q)) + (p + q) := by ring
    rw [e]
    refine (abs_add_le _ _).trans ?_
    have := abs_add_le p q
    linarith
  have h6 : |r (r p + r q) - (p + q)| ≤ |r (r p + r q) - (r p + r q)| + |r p + r q - (p + q)| := by
    have := abs_add_le (r (r p + r q) - (r p + r q)) (r p + r q - (p + q))
    simpa using this
  nlinarith

/-- componentwise rounded arithmetic is accurate -/
theorem accurate_rounded {r : ℝ → ℝ} {v τ : ℝ} {L : ℕ} {twF twI : ℕ → ℕ → ℂ} (hv : 0 ≤ v) (hτ : 0 ≤ τ)
    (hr : ∀ x, |r x - x| ≤ v * |x|)
    (hF : ∀ k < L, ∀ e < 2 ^ k, ‖twF (2 * 2 ^ k) e - omega (2 * 2 ^ k) ^ e‖ ≤ τ)
    (hI : ∀ k < L, ∀ e < 2 ^ k, ‖twI (2 * 2 ^ k) e - (omega (2 * 2 ^ k))⁻¹ ^ e‖ ≤ τ) :
    @Accurate (Arith.rounded r twF twI) (√2 * (2 * v + v ^ 2)) τ L := by
  letI := Arith.rounded r twF twI
  have hs2 : 1 ≤ √2 := by rw [Real.one_le_sqrt]; norm_num
  have hu : v ≤ √2 * (2 * v + v ^ 2) := by nlinarith [sq_nonneg v]
  have hu0 : 0 ≤ √2 * (2 * v + v ^ 2) := hv.trans hu
  have hr' : ∀ x, |r x - x| ≤ (√2 * (2 * v + v ^ 2)) * |x| := fun x =>
    (hr x).trans (mul_le_mul_of_nonneg_right hu (abs_nonneg _))
  refine ⟨hu0, hτ, fun a b => hr' _, fun a b => ?_, fun a b => ?_, fun a b => ?_, fun a => ?_, hF, hI⟩
  · exact norm_le_of_parts hu0 (hr' _) (hr' _)
  · exact norm_le_of_parts hu0 (hr' _) (hr' _)
  · have h1 : |r (r (a.re * b.re) - r (a.im * b.im)) - (a.re * b.re - a.im * b.im)| ≤
        (2 * v + v ^ 2) * (|a.re| * |b.re| + |a.im| * |b.im|) := by
      have h2 := hr (a.re * b.re)
      have h3 := hr (a.im * b.im)
      have h4 := hr (r (a.re * b.re) - r (a.im * b.im))
      rw [abs_mul] at h2 h3
      have h5 : |r (a.re * b.re) - r (a.im * b.im) - (a.re * b.re - a.im * b.im)| ≤
          v * (|a.re| * |b.re| + |a.im| * |b.im|) := by
        rw [show r (a.re * b.re) - r (a.im * b.im) - (a.re * b.re - a.im * b.im) =
          (r (a.re * b.re) - a.re * b.re) - (r (a.im * b.im) - a.im * b.im) by ring]
        refine (abs_sub _ _).trans ?_
        linarith
      have h6 : |r (a.re * b.re) - r (a.im * b.im)| ≤ (1 + v) * (|a.re| * |b.re| + |a.im| * |b.im|) := by
        have e : r (a.re * b.re) - r (a.im * b.im) =
          (r (a.re * b.re) - r (a.im * b.im) - (a.re * b.re - a.im * b.im)) + (a.re * b.re - a.im * b.im) := by ring
        rw [e]
        refine (abs_add_le _ _).trans ?_
        have := abs_sub (a.re * b.re) (a.im * b.im)
        rw [abs_mul, abs_mul] at this
        linarith
      have h7 := abs_add_le (r (r (a.re * b.re) - r (a.im * b.im)) - (r (a.re * b.re) - r (a.im * b.im)))
        (r (a.re * b.re) - r (a.im * b.im) - (a.re * b.re - a.im * b.im))
      rw [sub_add_sub_cancel] at h7
      nlinarith
    have h2 := round_two hv hr (a.re * b.im) (a.im * b.re)
    rw [abs_mul, abs_mul] at h2
    set z : ℂ := Arith.mul a b - a * b with hz
    have z1 : |z.re| ≤ (2 * v + v ^ 2) * (|a.re| * |b.re| + |a.im| * |b.im|) := by
      rw [hz, Complex.sub_re, Complex.mul_re]; exact h1
    have z2 : |z.im| ≤ (2 * v + v ^ 2) * (|a.re| * |b.im| + |a.im| * |b.re|) := by
      rw [hz, Complex.sub_im, Complex.mul_im]; exact h2
    rw [norm_mul, Complex.norm_def z, Complex.norm_def a, Complex.norm_def b]
    rw [show √2 * (2 * v + v ^ 2) * (√(Complex.normSq a) * √(Complex.normSq b)) =
      √((2 * v + v ^ 2) ^ 2 * (2 * (Complex.normSq a * Complex.normSq b))) by
        rw [Real.sqrt_mul (sq_nonneg _), Real.sqrt_sq (by positivity), Real.sqrt_mul (by norm_num),
          Real.sqrt_mul (Complex.normSq_nonneg _)]
        ring]
    apply Real.sqrt_le_sqrt
    rw [Complex.normSq_apply, Complex.normSq_apply, Complex.normSq_apply, ← abs_mul_abs_self z.re, ← abs_mul_abs_self z.im,
      ← abs_mul_abs_self a.re, ← abs_mul_abs_self a.im, ← abs_mul_abs_self b.re, ← abs_mul_abs_self b.im]
    have y1 := mul_le_mul z1 z1 (abs_nonneg _) (by positivity)
    have y2 := mul_le_mul z2 z2 (abs_nonneg _) (by positivity)
    generalize |a.re| = p at *
    generalize |a.im| = q at *
    generalize |b.re| = s at *
    generalize |b.im| = t at *
    have key : (p * s + q * t) ^ 2 + (p * t + q * s) ^ 2 ≤ 2 * ((p * p + q * q) * (s * s + t * t)) := by
      nlinarith [sq_nonneg (p * s - q * t), sq_nonneg (p * t - q * s)]
    have := mul_le_mul_of_nonneg_left key (sq_nonneg (2 * v + v ^ 2))
    nlinarith
  · have e : a / 2 = ⟨a.re * (1/2), a.im * (1/2)⟩ := by
      apply Complex.ext <;> simp [div_eq_mul_inv]
    rw [e]
    exact norm_le_of_parts hu0 (hr' _) (hr' _)

/-- single precision with correctly rounded twiddle factors -/
noncomputable def round24C (z : ℂ) : ℂ := ⟨round24 z.re, round24 z.im⟩

theorem round24C_err (z : ℂ) : ‖round24C z - z‖ ≤ 2⁻¹ ^ 24 * ‖z‖ :=
  norm_le_of_parts (by positivity) (round24_err _) (round24_err _)

@[reducible] noncomputable def single : Arith :=
  Arith.rounded round24 (fun n e => round24C (omega n ^ e)) (fun n e => round24C ((omega n)⁻¹ ^ e))

theorem single_accurate (L : ℕ) : @Accurate single (√2 * (2 * 2⁻¹ ^ 24 + (2⁻¹ ^ 24) ^ 2)) (2⁻¹ ^ 24) L := by
  refine accurate_rounded (by positivity) (by positivity) round24_err (fun k _ e _ => ?_) (fun k _ e _ => ?_)
  · refine (round24C_err _).trans (le_of_eq ?_)
    rw [norm_pow, norm_omega, one_pow, mul_one]
  · refine (round24C_err _).trans (le_of_eq ?_)
    rw [norm_pow, norm_inv, norm_omega, inv_one, one_pow, mul_one]

/-- the transforms computed exactly, their results rounded -/
noncomputable def singleFFT : RealFFT where
  fwd o d i := round24 (naturalFFT.fwd o d i)
  inv o d i := round24 (naturalFFT.inv o d i)

theorem singleFFT_approx : Approx singleFFT (2⁻¹ ^ 24) where
  nonneg := by positivity
  fwd o ho d := by
    have h := naturalFFT_approx.fwd o ho d
    rw [zero_mul] at h
    have h0 : ∀ k < 2 ^ o / 2 + 1, bin (naturalFFT.fwd o d) k = dft (2 ^ o) (fun j => (d j : ℂ)) k := by
      intro k hk
      have := (le_l2 (fun k => bin (naturalFFT.fwd o d) k - dft (2 ^ o) (fun j => (d j : ℂ)) k) hk).trans h
      exact sub_eq_zero.mp (norm_le_zero_iff.mp this)
    refine (l2_mono_pt (b := dft (2 ^ o) (fun j => (d j : ℂ))) (s := 2⁻¹ ^ 24) (by positivity) (fun k hk => ?_)).trans
      (mul_le_mul_of_nonneg_left (l2_half_dft ho _) (by positivity))
    rw [← h0 k hk]
    exact round24C_err (bin (naturalFFT.fwd o d) k)
  inv o ho d n hn := by
    have h := naturalFFT_approx.inv o ho d n hn
    rw [zero_mul] at h
    have h1 : naturalFFT.inv o d n = realInv (2 ^ o) (bin d) n := sub_eq_zero.mp (abs_nonpos_iff.mp h)
    simp only [singleFFT]
    rw [h1]
    exact (round24_err _).trans (mul_le_mul_of_nonneg_left (abs_realInv _ _) (by positivity))

end Zones.Proofs.R
