import Verif.Proofs.RFloat
import Verif.Proofs.RIdeal

/-! # Rounded arithmetic with a limited range of exponents meets the assumptions of the error bounds -/

open Finset Zones.Spec Zones.Model

namespace Zones.Proofs.R

/-- a rounding function: relative error `v` and absolute error `η` up to `Ω` -/
structure Rounds (r : ℝ → ℝ) (v η Ω : ℝ) : Prop where
  v_nonneg : 0 ≤ v
  η_nonneg : 0 ≤ η
  zero : r 0 = 0
  err : ∀ x, |x| ≤ Ω → |r x - x| ≤ v * |x| + η

theorem nearestMultiple_err {e : ℝ} (he : 0 < e) (x : ℝ) : |nearestMultiple e x - x| ≤ e / 2 := by
  have h1 := Int.floor_le (x / e)
  have h2 := Int.lt_floor_add_one (x / e)
  have key : ∀ m : ℤ, |(m : ℝ) - x / e| ≤ 1 / 2 → |m * e - x| ≤ e / 2 := by
    intro m hm
    have e1 : m * e - x = (m - x / e) * e := by rw [sub_mul, div_mul_cancel₀ _ he.ne']
    rw [e1, abs_mul, abs_of_pos he]
    have : |(m : ℝ) - x / e| * e ≤ 1 / 2 * e := mul_le_mul_of_nonneg_right hm he.le
    linarith
  unfold nearestMultiple
  simp only
  apply key
  split_ifs with h3 h4 h5 <;> rw [abs_le] <;> constructor <;> push_cast <;> linarith

theorem binary32_rounds (flush : Bool) (infinite : ℝ → ℝ) : Rounds (binary32 flush infinite) (2⁻¹ ^ 24) (2⁻¹ ^ 126) (2 ^ 127) where
  v_nonneg := by positivity
  η_nonneg := by positivity
  zero := by
    unfold binary32 nearestMultiple
    rw [abs_zero, if_neg (by norm_num), if_pos (by positivity)]
    simp
  err x hx := by
    have h0 := abs_nonneg x
    unfold binary32
    rw [if_neg (by rw [not_le]; exact lt_of_le_of_lt hx (by norm_num))]
    split
    · next h =>
      split
      · rw [zero_sub, abs_neg]
        have : 0 ≤ 2⁻¹ ^ 24 * |x| := by positivity
        linarith
      · refine (nearestMultiple_err (by positivity) x).trans ?_
        have : 0 ≤ 2⁻¹ ^ 24 * |x| := by positivity
        have h1 : (2⁻¹ ^ 149 : ℝ) / 2 ≤ 2⁻¹ ^ 126 := by norm_num
        linarith
    · have := round24_err x
      have h1 : (0:ℝ) ≤ 2⁻¹ ^ 126 := by positivity
      linarith

theorem Rounds.mono {r : ℝ → ℝ} {v η Ω Ω' : ℝ} (h : Rounds r v η Ω) (hΩ : Ω' ≤ Ω) : Rounds r v η Ω' :=
  ⟨h.v_nonneg, h.η_nonneg, h.zero, fun x hx => h.err x (hx.trans hΩ)⟩

theorem norm_le_of_sup {a : ℂ} {s : ℝ} (hs : 0 ≤ s) (h1 : |a.re| ≤ s) (h2 : |a.im| ≤ s) : ‖a‖ ≤ √2 * s := by
  rw [Complex.norm_def]
  refine Real.sqrt_le_iff.mpr ⟨by positivity, ?_⟩
  rw [mul_pow, Real.sq_sqrt (by norm_num), Complex.normSq_apply]
  have e1 := mul_le_mul h1 h1 (abs_nonneg _) hs
  have e2 := mul_le_mul h2 h2 (abs_nonneg _) hs
  rw [abs_mul_abs_self] at e1 e2
  nlinarith

/-- componentwise errors, relative and absolute -/
theorem norm_le_of_parts' {a b : ℂ} {s e : ℝ} (hs : 0 ≤ s) (he : 0 ≤ e) (h1 : |a.re| ≤ s * |b.re| + e) (h2 : |a.im| ≤ s * |b.im| + e) :
    ‖a‖ ≤ s * ‖b‖ + √2 * e := by
  have h3 : ‖a‖ ≤ ‖(⟨s * |b.re| + e, s * |b.im| + e⟩ : ℂ)‖ := by
    have := norm_le_of_parts (a := a) (b := ⟨s * |b.re| + e, s * |b.im| + e⟩) (s := 1) (by norm_num)
      (by rw [one_mul, abs_of_nonneg (a := s * |b.re| + e) (by positivity)]; exact h1)
      (by rw [one_mul, abs_of_nonneg (a := s * |b.im| + e) (by positivity)]; exact h2)
    rwa [one_mul] at this
  have h4 : (⟨s * |b.re| + e, s * |b.im| + e⟩ : ℂ) = ⟨s * |b.re|, s * |b.im|⟩ + ⟨e, e⟩ := rfl
  have h5 : ‖(⟨s * |b.re|, s * |b.im|⟩ : ℂ)‖ ≤ s * ‖b‖ :=
    norm_le_of_parts hs (by rw [abs_mul, abs_abs, abs_of_nonneg hs]) (by rw [abs_mul, abs_abs, abs_of_nonneg hs])
  have h6 : ‖(⟨e, e⟩ : ℂ)‖ ≤ √2 * e := norm_le_of_sup he (by rw [abs_of_nonneg he]) (by rw [abs_of_nonneg he])
  rw [h4] at h3
  linarith [norm_add_le (⟨s * |b.re|, s * |b.im|⟩ : ℂ) ⟨e, e⟩]

/-- rounded sum or difference of two rounded products -/
theorem round_prods {r : ℝ → ℝ} {v η Ω : ℝ} (hr : Rounds r v η Ω) {p q S : ℝ} (hp : |p| ≤ Ω) (hq : |q| ≤ Ω) (hS : |p| + |q| ≤ S)
    (hΩ : (1 + v) * S + 2 * η ≤ Ω) :
    |r (r p + r q) - (p + q)| ≤ (2 * v + v ^ 2) * S + (3 + 2 * v) * η ∧
    |r (r p - r q) - (p - q)| ≤ (2 * v + v ^ 2) * S + (3 + 2 * v) * η := by
  have hv := hr.v_nonneg
  have hη := hr.η_nonneg
  have h2 := hr.err p hp
  have h3 := hr.err q hq
  have hS' : v * (|p| + |q|) ≤ v * S := mul_le_mul_of_nonneg_left hS hv
  have main : ∀ s s' : ℝ, |s' - s| ≤ v * S + 2 * η → |s| ≤ S →
      |r s' - s| ≤ (2 * v + v ^ 2) * S + (3 + 2 * v) * η := by
    intro s s' h4 h5
    have h6 : |s'| ≤ (1 + v) * S + 2 * η := by
      have := abs_add_le (s' - s) s
      rw [sub_add_cancel] at this
      linarith
    have h7 := hr.err s' (h6.trans hΩ)
    have h8 := mul_le_mul_of_nonneg_left h6 hv
    have h9 := abs_add_le (r s' - s') (s' - s)
    rw [sub_add_sub_cancel] at h9
    nlinarith
  refine ⟨main (p + q) _ ?_ ((abs_add_le _ _).trans hS), main (p - q) _ ?_ ((abs_sub _ _).trans hS)⟩
  · rw [show r p + r q - (p + q) = (r p - p) + (r q - q) by ring]
    refine (abs_add_le _ _).trans ?_
    linarith
  · rw [show r p - r q - (p - q) = (r p - p) - (r q - q) by ring]
    refine (abs_sub _ _).trans ?_
    linarith

/-- componentwise rounded arithmetic -/
theorem accurateIn_rounded {r : ℝ → ℝ} {v η Ω Ω' τ : ℝ} {L : ℕ} {twF twI : ℕ → ℕ → ℂ} (hr : Rounds r v η Ω) (hτ : 0 ≤ τ)
    (hτΩ : 1 + τ ≤ Ω') (hΩ0 : 0 ≤ Ω') (hΩ : (1 + v) * (2 * Ω') + 2 * η ≤ Ω)
    (hF : ∀ k < L, ∀ e < 2 ^ k, ‖twF (2 * 2 ^ k) e - omega (2 * 2 ^ k) ^ e‖ ≤ τ)
    (hI : ∀ k < L, ∀ e < 2 ^ k, ‖twI (2 * 2 ^ k) e - (omega (2 * 2 ^ k))⁻¹ ^ e‖ ≤ τ) :
    @AccurateIn (Arith.rounded r twF twI) (√2 * (2 * v + v ^ 2)) (√2 * ((3 + 2 * v) * η)) Ω' τ L := by
  letI := Arith.rounded r twF twI
  have hv := hr.v_nonneg
  have hη := hr.η_nonneg
  have hs2 : 1 ≤ √2 := by rw [Real.one_le_sqrt]; norm_num
  have hu : v ≤ √2 * (2 * v + v ^ 2) := by nlinarith [sq_nonneg v]
  have hu0 : 0 ≤ √2 * (2 * v + v ^ 2) := hv.trans hu
  have hη1 : η ≤ (3 + 2 * v) * η := by nlinarith
  have hη2 : √2 * η ≤ √2 * ((3 + 2 * v) * η) := mul_le_mul_of_nonneg_left hη1 (by linarith)
  have hη3 : η ≤ √2 * η := le_mul_of_one_le_left hη hs2
  have hΩ1 : Ω' ≤ Ω := by nlinarith
  have lin : ∀ a b : ℂ, ‖b‖ ≤ Ω' → a.re = r b.re - b.re → a.im = r b.im - b.im →
      ‖a‖ ≤ √2 * (2 * v + v ^ 2) * ‖b‖ + √2 * ((3 + 2 * v) * η) := by
    intro a b hb h1 h2
    have := norm_le_of_parts' hv hη (a := a) (b := b)
      (by rw [h1]; exact hr.err _ ((Complex.abs_re_le_norm b).trans (hb.trans hΩ1)))
      (by rw [h2]; exact hr.err _ ((Complex.abs_im_le_norm b).trans (hb.trans hΩ1)))
    have h3 := mul_le_mul_of_nonneg_right hu (norm_nonneg b)
    linarith
  have hz0 : ∀ z : ℂ, Arith.mul 0 z = 0 := fun z => by
    show (⟨r (r (0 * z.re) - r (0 * z.im)), r (r (0 * z.im) + r (0 * z.re))⟩ : ℂ) = 0
    rw [zero_mul, zero_mul, hr.zero, sub_zero, add_zero, hr.zero]; rfl
  refine ⟨hu0, by positivity, hτ, hτΩ, fun a b _ _ h => ?_, fun a b _ _ h => ?_, fun a b _ _ h => ?_, fun a b _ _ h => ?_, fun a h' => ?_, hF, hI,
    ?_, ?_, ?_, fun z _ => hz0 z, ?_, fun _ _ => hz0 _, fun _ _ => hz0 _⟩
  · have h1 := hr.err (a + b) (h.trans hΩ1)
    have h3 := mul_le_mul_of_nonneg_right hu (abs_nonneg (a + b))
    show |r (a + b) - (a + b)| ≤ _
    linarith
  · exact lin _ _ h rfl rfl
  · exact lin _ _ h rfl rfl
  · set z : ℂ := Arith.mul a b - a * b with hz
    have hab : ‖a‖ * ‖b‖ ≤ Ω' := by rw [← norm_mul]; exact h
    have a1 := Complex.abs_re_le_norm a
    have a2 := Complex.abs_im_le_norm a
    have b1 := Complex.abs_re_le_norm b
    have b2 := Complex.abs_im_le_norm b
    have part : ∀ s t : ℝ, |s| ≤ ‖a‖ → |t| ≤ ‖b‖ → |s * t| ≤ Ω' := by
      intro s t hs ht
      rw [abs_mul]
      exact (mul_le_mul hs ht (abs_nonneg _) (norm_nonneg _)).trans hab
    have q1 := part _ _ a1 b1
    have q2 := part _ _ a2 b2
    have q3 := part _ _ a1 b2
    have q4 := part _ _ a2 b1
    have fit : ∀ S, S ≤ 2 * Ω' → (1 + v) * S + 2 * η ≤ Ω := by
      intro S hS
      have := mul_le_mul_of_nonneg_left hS (show 0 ≤ 1 + v by linarith)
      linarith
    have r1 := (round_prods hr (q1.trans hΩ1) (q2.trans hΩ1) le_rfl (fit _ (by linarith))).2
    have r2 := (round_prods hr (q3.trans hΩ1) (q4.trans hΩ1) le_rfl (fit _ (by linarith))).1
    rw [abs_mul, abs_mul] at r1 r2
    have z1 : |z.re| ≤ (2 * v + v ^ 2) * (|a.re| * |b.re| + |a.im| * |b.im|) + (3 + 2 * v) * η := by
      rw [hz, Complex.sub_re, Complex.mul_re]; exact r1
    have z2 : |z.im| ≤ (2 * v + v ^ 2) * (|a.re| * |b.im| + |a.im| * |b.re|) + (3 + 2 * v) * η := by
      rw [hz, Complex.sub_im, Complex.mul_im]; exact r2
    have w : ‖(⟨|a.re| * |b.re| + |a.im| * |b.im|, |a.re| * |b.im| + |a.im| * |b.re|⟩ : ℂ)‖ ≤ √2 * ‖a * b‖ := by
      rw [norm_mul, Complex.norm_def a, Complex.norm_def b, Complex.norm_def, ← Real.sqrt_mul (Complex.normSq_nonneg _),
        ← Real.sqrt_mul (by norm_num)]
      apply Real.sqrt_le_sqrt
      rw [Complex.normSq_apply, Complex.normSq_apply, Complex.normSq_apply, ← abs_mul_abs_self a.re, ← abs_mul_abs_self a.im,
        ← abs_mul_abs_self b.re, ← abs_mul_abs_self b.im]
      generalize |a.re| = p at *
      generalize |a.im| = q at *
      generalize |b.re| = s at *
      generalize |b.im| = t at *
      nlinarith [sq_nonneg (p * s - q * t), sq_nonneg (p * t - q * s)]
    have h9 := norm_le_of_parts' (a := z)
      (b := ⟨|a.re| * |b.re| + |a.im| * |b.im|, |a.re| * |b.im| + |a.im| * |b.re|⟩) (s := 2 * v + v ^ 2) (e := (3 + 2 * v) * η)
      (by positivity) (by positivity) (by rw [abs_of_nonneg (a := |a.re| * |b.re| + |a.im| * |b.im|) (by positivity)]; exact z1)
      (by rw [abs_of_nonneg (a := |a.re| * |b.im| + |a.im| * |b.re|) (by positivity)]; exact z2)
    have h10 := mul_le_mul_of_nonneg_left w (show 0 ≤ 2 * v + v ^ 2 by positivity)
    have e : √2 * (2 * v + v ^ 2) * ‖a * b‖ = (2 * v + v ^ 2) * (√2 * ‖a * b‖) := by ring
    rw [e]
    linarith
  · have e : a / 2 = ⟨a.re * (1/2), a.im * (1/2)⟩ := by
      apply Complex.ext <;> simp [div_eq_mul_inv]
    have h : ‖a / 2‖ ≤ Ω' := by
      rw [norm_div, Complex.norm_ofNat]
      have := norm_nonneg a
      linarith
    rw [e] at h ⊢
    exact lin _ _ h rfl rfl
  · show r (0 + 0) = 0
    rw [add_zero, hr.zero]
  · show (⟨r (0 + 0), r (0 + 0)⟩ : ℂ) = 0
    rw [add_zero, hr.zero]; rfl
  · show (⟨r (0 - 0), r (0 - 0)⟩ : ℂ) = 0
    rw [sub_zero, hr.zero]; rfl
  · show (⟨r (0 * (1/2)), r (0 * (1/2))⟩ : ℂ) = 0
    rw [zero_mul, hr.zero]; rfl

/-- rounded twiddle factors -/
noncomputable def roundC (r : ℝ → ℝ) (z : ℂ) : ℂ := ⟨r z.re, r z.im⟩

theorem roundC_err {r : ℝ → ℝ} {v η Ω : ℝ} (hr : Rounds r v η Ω) (z : ℂ) (hz : ‖z‖ ≤ Ω) : ‖roundC r z - z‖ ≤ v * ‖z‖ + √2 * η :=
  norm_le_of_parts' hr.v_nonneg hr.η_nonneg (hr.err _ ((Complex.abs_re_le_norm z).trans hz)) (hr.err _ ((Complex.abs_im_le_norm z).trans hz))

/-- the transforms computed exactly, their results rounded -/
noncomputable def roundedFFT (r : ℝ → ℝ) : RealFFT where
  fwd o d i := r (naturalFFT.fwd o d i)
  inv o d i := r (naturalFFT.inv o d i)

theorem roundedFFT_approxIn {r : ℝ → ℝ} {v η Ω φ : ℝ} (hr : Rounds r v η Ω) (hφ : √2 * η ≤ v * φ) :
    ApproxIn (roundedFFT r) (2 * v) φ Ω where
  nonneg := by have := hr.v_nonneg; positivity
  fwd o ho d M hM hfit := by
    have hv := hr.v_nonneg
    have hη := hr.η_nonneg
    have hN2 : 2 ≤ 2^o := by
      calc 2 = 2^1 := rfl
        _ ≤ 2^o := Nat.pow_le_pow_right (by norm_num) ho
    have hM1 : √(2 ^ o) * φ ≤ M := by rw [hM]; exact le_max_left _ _
    have hM2 : l2 (2 ^ o) (fun j => (d j : ℂ)) ≤ M := by rw [hM]; exact le_max_right _ _
    have hM0 : 0 ≤ M := (l2_nonneg _ _).trans hM2
    have h := naturalFFT_approx.fwd o ho d
    rw [zero_mul] at h
    have h0 : ∀ k < 2 ^ o / 2 + 1, bin (naturalFFT.fwd o d) k = dft (2 ^ o) (fun j => (d j : ℂ)) k := by
      intro k hk
      have := (le_l2 (fun k => bin (naturalFFT.fwd o d) k - dft (2 ^ o) (fun j => (d j : ℂ)) k) hk).trans h
      exact sub_eq_zero.mp (norm_le_zero_iff.mp this)
    have hs := l2_half_dft ho (fun j => (d j : ℂ))
    have hsM : l2 (2 ^ o / 2 + 1) (dft (2 ^ o) (fun j => (d j : ℂ))) ≤ √(2 ^ o) * M :=
      hs.trans (mul_le_mul_of_nonneg_left hM2 (Real.sqrt_nonneg _))
    have hsM0 : 0 ≤ √(2 ^ o) * M := by positivity
    have hΩ : √(2 ^ o) * M ≤ Ω := by nlinarith
    have h1 := l2_floor (N := 2 ^ o / 2 + 1) (a := fun k => bin ((roundedFFT r).fwd o d) k - dft (2 ^ o) (fun j => (d j : ℂ)) k)
      (b := dft (2 ^ o) (fun j => (d j : ℂ))) hv (show 0 ≤ √2 * η by positivity) (by
        intro k hk
        rw [← h0 k hk]
        refine roundC_err hr (bin (naturalFFT.fwd o d) k) ?_
        rw [h0 k hk]
        exact (le_l2 _ hk).trans (hsM.trans hΩ))
    refine h1.trans ?_
    have h2 := mul_le_mul_of_nonneg_left hsM hv
    have h3 : √((2 ^ o / 2 + 1 : ℕ) : ℝ) ≤ √(2 ^ o) := Real.sqrt_le_sqrt (by exact_mod_cast (by omega : 2^o / 2 + 1 ≤ 2^o))
    have h4 : φ ≤ M ∨ φ ≤ 0 := by
      by_cases hp : 0 ≤ φ
      · left
        have : 1 ≤ √((2:ℝ) ^ o) := by rw [Real.one_le_sqrt]; exact one_le_pow₀ (by norm_num)
        nlinarith
      · right; linarith
    have h5 : √2 * η ≤ v * M := by
      rcases h4 with h4 | h4
      · exact hφ.trans (mul_le_mul_of_nonneg_left h4 hv)
      · have : v * φ ≤ 0 := mul_nonpos_of_nonneg_of_nonpos hv h4
        have : 0 ≤ v * M := by positivity
        linarith
    have h6 := mul_le_mul h3 h5 (by positivity) (Real.sqrt_nonneg _)
    nlinarith
  inv o ho d M hM hfit n hn := by
    have hv := hr.v_nonneg
    have hη := hr.η_nonneg
    have hs2 : 1 ≤ √2 := by rw [Real.one_le_sqrt]; norm_num
    have hM1 : 2 ^ o * φ ≤ M := by rw [hM]; exact le_max_left _ _
    have hM2 : l1 (2 ^ o / 2 + 1) (bin d) ≤ M := by rw [hM]; exact le_max_right _ _
    have hM0 : 0 ≤ M := (l1_nonneg _ _).trans hM2
    have hpo : (2:ℝ) ≤ 2 ^ o := by
      calc (2:ℝ) = 2^1 := (pow_one _).symm
        _ ≤ 2^o := pow_le_pow_right₀ (by norm_num) ho
    have h := naturalFFT_approx.inv o ho d n hn
    rw [zero_mul] at h
    have h1 : naturalFFT.inv o d n = realInv (2 ^ o) (bin d) n := sub_eq_zero.mp (abs_nonpos_iff.mp h)
    simp only [roundedFFT]
    rw [h1]
    have h2 : |realInv (2 ^ o) (bin d) n| ≤ 2 / 2 ^ o * M :=
      (abs_realInv _ _).trans (mul_le_mul_of_nonneg_left hM2 (by positivity))
    have h3 : 2 / 2 ^ o * M ≤ M := by
      have : 2 / (2:ℝ) ^ o ≤ 1 := by rw [div_le_one (by positivity)]; exact hpo
      nlinarith
    have h4 := hr.err _ (h2.trans (h3.trans (by nlinarith)))
    refine h4.trans ?_
    have h5 := mul_le_mul_of_nonneg_left h2 hv
    have h6 : η ≤ v * (2 / 2 ^ o * M) := by
      have a1 : η ≤ √2 * η := le_mul_of_one_le_left hη hs2
      have a2 : φ ≤ M / 2 ^ o := by rw [le_div_iff₀ (by positivity), mul_comm]; exact hM1
      have a3 : 0 ≤ M / 2 ^ o := by positivity
      have a4 : v * φ ≤ v * (2 / 2 ^ o * M) := by
        refine mul_le_mul_of_nonneg_left ?_ hv
        rw [div_mul_eq_mul_div, mul_div_assoc]
        linarith
      linarith
    linarith

end Zones.Proofs.R
