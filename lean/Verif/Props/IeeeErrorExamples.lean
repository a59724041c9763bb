import Verif.Props.IeeeError
import Verif.Props.IeeeExamples

/-!
# C96 at work: a NaN reaches the convolver of `RoundingExamples`, with transforms that spread it to every value
-/

open Finset Zones.Spec Zones.Model Zones.Proofs Zones.Proofs.R

namespace Zones.Props

open Classical in
/-- binary32 transforms: NaN everywhere when a value of the signal, or of the half spectrum, is an infinity or a NaN, and otherwise the exact
transform, rounded -/
noncomputable def nanFFT : RealFFT where
  fwd o d i := if ∀ j < 2 ^ o, IsFinite (d j) then (roundedFFT (roundIeee true)).fwd o d i else nan
  inv o d i := if ∀ k < 2 ^ o / 2 + 1, IsFinite (d (2 * k)) ∧ IsFinite (d (2 * k + 1)) then (roundedFFT (roundIeee true)).inv o d i else nan

theorem nanFFT_approx : ApproxIn nanFFT (2⁻¹ ^ 23) (2⁻¹ ^ 99) (2 ^ 125) := by
  have hr := (binary32_rounds true infinityLike).mono (Ω' := 2 ^ 125) (by norm_num)
  have hF := roundedFFT_approxIn (φ := 2⁻¹ ^ 99) hr (by
    have h1 := mul_le_mul_of_nonneg_right sqrt2_le (show (0:ℝ) ≤ 2⁻¹ ^ 126 by positivity)
    exact h1.trans (by norm_num))
  rw [show (2:ℝ) * 2⁻¹ ^ 24 = 2⁻¹ ^ 23 by norm_num] at hF
  refine ⟨hF.nonneg, fun o ho d M hM hfit => ?_, fun o ho d M hM hfit n hn => ?_⟩
  · have hM2 : l2 (2 ^ o) (fun j => (d j : ℂ)) ≤ M := by rw [hM]; exact le_max_right _ _
    have hM0 : 0 ≤ M := (l2_nonneg _ _).trans hM2
    have hs : (1:ℝ) ≤ √(2 ^ o) := by rw [Real.one_le_sqrt]; exact one_le_pow₀ (by norm_num)
    have hMΩ : M ≤ 2 ^ 125 := by
      have h1 : M ≤ √(2 ^ o) * M := le_mul_of_one_le_left hM0 hs
      have h2 : √(2 ^ o) * M ≤ (1 + 2⁻¹ ^ 23) * (√(2 ^ o) * M) := le_mul_of_one_le_left (hM0.trans h1) (by norm_num)
      linarith
    have hfin : ∀ j < 2 ^ o, IsFinite (d j) := fun j hj => by
      have h1 := (le_l2 (fun j => (d j : ℂ)) hj).trans (hM2.trans hMΩ)
      rw [Complex.norm_real, Real.norm_eq_abs] at h1
      exact finite_of_le h1 (by norm_num)
    have e : nanFFT.fwd o d = (roundedFFT (roundIeee true)).fwd o d := by
      funext i
      exact if_pos hfin
    rw [e]
    exact hF.fwd o ho d M hM hfit
  · have hM2 : l1 (2 ^ o / 2 + 1) (bin d) ≤ M := by rw [hM]; exact le_max_right _ _
    have hM0 : 0 ≤ M := (l1_nonneg _ _).trans hM2
    have hMΩ : M ≤ 2 ^ 125 := by
      have h2 : M ≤ (1 + 2⁻¹ ^ 23) * M := le_mul_of_one_le_left hM0 (by norm_num)
      linarith
    have hfin : ∀ k < 2 ^ o / 2 + 1, IsFinite (d (2 * k)) ∧ IsFinite (d (2 * k + 1)) := fun k hk => by
      have h1 : ‖bin d k‖ ≤ l1 (2 ^ o / 2 + 1) (bin d) :=
        single_le_sum (f := fun i => ‖bin d i‖) (fun i _ => norm_nonneg _) (mem_range.mpr hk)
      exact parts_finite (h1.trans (hM2.trans hMΩ))
    have e : nanFFT.inv o d n = (roundedFFT (roundIeee true)).inv o d n := if_pos hfin
    rw [e]
    exact hF.inv o ho d M hM hfit n hn

/-- the roots of unity, rounded -/
noncomputable def rootF (n e : ℕ) : ℂ := roundC (roundIeee true) (omega n ^ e)
noncomputable def rootI (n e : ℕ) : ℂ := roundC (roundIeee true) ((omega n)⁻¹ ^ e)

theorem roundC_unit {z : ℂ} (hz : ‖z‖ = 1) : ‖roundC (roundIeee true) z - z‖ ≤ 2⁻¹ ^ 23 := by
  refine (roundC_err (binary32_rounds true infinityLike) z (by rw [hz]; norm_num)).trans ?_
  rw [hz, mul_one]
  have h1 := mul_le_mul_of_nonneg_right sqrt2_le (show (0:ℝ) ≤ 2⁻¹ ^ 126 by positivity)
  have h2 : (2⁻¹ ^ 24 : ℝ) + 1.4143 * 2⁻¹ ^ 126 ≤ 2⁻¹ ^ 23 := by norm_num
  linarith

theorem roundC_bounded {z : ℂ} (hz : ‖z‖ = 1) : |(roundC (roundIeee true) z).re| ≤ 9 / 8 ∧ |(roundC (roundIeee true) z).im| ≤ 9 / 8 := by
  have h1 := (Complex.abs_re_le_norm z).trans_eq hz
  have h2 := (Complex.abs_im_le_norm z).trans_eq hz
  have h3 := roundIeee_le true h1 le_rfl (by norm_num)
  have h4 := roundIeee_le true h2 le_rfl (by norm_num)
  rw [mul_one] at h3 h4
  exact ⟨h3, h4⟩

theorem norm_root (n e : ℕ) : ‖omega n ^ e‖ = 1 := by rw [norm_pow, norm_omega, one_pow]
theorem norm_root_inv (n e : ℕ) : ‖(omega n)⁻¹ ^ e‖ = 1 := by rw [norm_pow, norm_inv, norm_omega, inv_one, one_pow]

/-- binary32 that flushes subnormal numbers, with twiddle factors in binary32 -/
noncomputable local instance ieee96 : Arith := Arith.ieee true (fun _ _ => ⟨nan, nan⟩) rootF rootI

/-- A stereo response of 5000 samples: the first 100 samples may be anything, NaNs and infinities included, and the transforms spread
them; a level of at most `2^64` afterwards gives finite samples from sample `100 + 5575` on, with an error of at most `1e-4` times the
weights. -/
example : ∃ c, Convolver.createR nanFFT exampleIR 64 exampleSpec junk (fun _ _ => 7) = some c ∧
    ∀ x y : ℕ → ℕ → ℝ, (∀ ch i, |y ch i| ≤ 2 ^ 64) →
      ∃ c' outs, feed (Convolver.processR nanFFT) c [⟨2, 100, x⟩, ⟨2, 10000, y⟩] = some (c', outs) ∧
        ∀ o < 2, ∀ n < 10100, 100 + 5575 ≤ n → IsFinite (stream outs o n) ∧
          |stream outs o n - routedConv exampleIR exampleSpec.inputRouting exampleSpec.outputRouting (stream [⟨2, 100, x⟩, ⟨2, 10000, y⟩]) o n| ≤
            1e-4 * outputWeightF (2⁻¹ ^ 49) 64 exampleIR [⟨1, 9⟩, ⟨4, 18⟩] exampleSpec.outputRouting (fun _ => 2 ^ 64) o := by
  obtain ⟨c, e, _, h⟩ := C96_right_after_bad_values true (fun _ _ => ⟨nan, nan⟩) (twF := rootF) (twI := rootI)
    (fun n e => roundC_bounded (norm_root n e)) (fun n e => roundC_bounded (norm_root_inv n e)) (fun k _ e _ => roundC_unit (norm_root _ _))
    (fun k _ e _ => roundC_unit (norm_root_inv _ _)) nanFFT_approx exampleUsable example_block example_scheme example_points (Xmax := 2 ^ 64)
    (by norm_num) (example_factor32.trans (by norm_num)) example_headroom junk (fun _ _ => 7)
  refine ⟨c, e, fun x y hy => ?_⟩
  obtain ⟨c', outs, e1, _, d⟩ := h c (.inl rfl) [⟨2, 100, x⟩, ⟨2, 10000, y⟩]
    (by intro b hb; simp only [List.mem_cons, List.not_mem_nil, or_false] at hb; rcases hb with rfl | rfl <;> rfl)
  refine ⟨c', outs, e1, fun o ho n hn hl => ?_⟩
  have := d o ho n (by rw [len_two]; exact lt_of_lt_of_eq hn (by norm_num)) (fun _ => 2 ^ 64) fun c _ _ =>
    ⟨by norm_num, le_rfl, by positivity, fun m h1 h2 => ?_⟩
  · refine ⟨this.1, this.2.trans (mul_le_mul_of_nonneg_right example_factor32 ?_)⟩
    unfold outputWeightF
    refine sum_nonneg fun c _ => ?_
    have := schemeNormF_nonneg (2⁻¹ ^ 49) 64 (extended exampleIR c) [⟨1, 9⟩, ⟨4, 18⟩] 0
    split <;> positivity
  · have h1' : n < m + (5000 + 2 ^ 9 + 64) := h1
    have hm : ¬ m < 100 := by omega
    unfold stream
    rw [if_neg hm]
    unfold stream
    dsimp only
    split
    · exact hy _ _
    · simp [stream]

end Zones.Props
