import Verif.Props.FloatEngine

/-!
# C74, C75, C76 at work: an engine in binary32 at 48 kHz, with the stereo response of 5000 samples
-/

open Zones.Spec Zones.Model Zones.Proofs Zones.Proofs.R

namespace Zones.Props

noncomputable local instance : Arith := single

/-- the engine in binary32 -/
noncomputable def singleOps : ConvOps Convolver := convolverOpsR singleFFT (.rounded round24)

theorem example_cut : Cut exampleIR 64 exampleSpec 9 18 64 [⟨1, 9⟩, ⟨4, 18⟩] := ⟨example_block, example_scheme, example_points⟩

theorem example_convolverR : ∃ v, FreshR singleFFT exampleIR 64 exampleSpec 2 v ∧ ServesR singleFFT 2 9 v := by
  obtain ⟨c, e, _⟩ := C71_rounding_error_bounded (single_accurate 9) singleFFT_approx exampleUsable example_block example_scheme
    example_points junk (fun _ _ => 7)
  have h : FreshR singleFFT exampleIR 64 exampleSpec 2 c := ⟨_, _, c, e, Or.inl rfl⟩
  exact ⟨c, h, exampleIR, 64, exampleSpec, 18, 64, _, [], exampleUsable, example_cut, HeardR_fresh h⟩

/-- States with one response playing, and with one playing, one fading in and one waiting: they meet the hypotheses of C74, C75
and C76. -/
theorem single_states : ∃ v c1 c2, FreshR singleFFT exampleIR 64 exampleSpec 2 v ∧
    Reaches singleOps 2 (ServesR singleFFT 2 9) [([], .prepare exampleFormat fun _ _ => 7), ([⟨1, v⟩], .process exampleBlock)] c1 ∧
    QuietResets singleOps {} [([], .prepare exampleFormat fun _ _ => 7), ([⟨1, v⟩], .process exampleBlock)] ∧
    c1.spec = some exampleFormat ∧ c1.active.map Held.id = some 1 ∧ c1.fade = none ∧
    Reaches singleOps 2 (ServesR singleFFT 2 9)
      [([], .prepare exampleFormat fun _ _ => 7), ([⟨1, v⟩], .process exampleBlock), ([⟨2, v⟩, ⟨3, v⟩], .process exampleBlock)] c2 ∧
    QuietResets singleOps {}
      [([], .prepare exampleFormat fun _ _ => 7), ([⟨1, v⟩], .process exampleBlock), ([⟨2, v⟩, ⟨3, v⟩], .process exampleBlock)] ∧
    c2.spec = some exampleFormat ∧ slotIds c2 = (some 1, some 2, some 3) := by
  obtain ⟨v, hv, hs⟩ := example_convolverR
  obtain ⟨h1, h2⟩ := example_lengths
  obtain ⟨c1, c2, q1, q2, q3, q4, q5, q6, q7, q8, q9, q10, q11⟩ := reachable_states
    (accepts_convolverR (single_accurate 9) singleFFT_approx (.rounded round24) 2)
    (a := ⟨1, v⟩) (f := ⟨2, v⟩) (q := ⟨3, v⟩) hs hs hs exampleFormat_valid (fun _ _ => 7) (z := exampleBlock) rfl (by decide) h1 h2
  refine ⟨v, c1, c2, hv, q1, q2, q3, q4, q5, q6, q7, q8, ?_⟩
  unfold slotIds
  rw [q9, q10, q11]
  rfl

/-- The error of a crossfade over 4800 samples (0.1 s at 48 kHz): less than 0.06 percent of the louder response. -/
theorem example_fade_error : (1 + (2⁻¹ : ℝ) ^ 24) ^ (2 * 4800 + 6) - 1 ≤ 5.8e-4 := by
  have h1 : (1 + (2⁻¹ : ℝ) ^ 24) ^ (2 * 4800 + 6) ≤ Real.exp (9606 * 2⁻¹ ^ 24) := by
    have := Real.add_one_le_exp ((2⁻¹ : ℝ) ^ 24)
    have h2 := pow_le_pow_left₀ (by positivity) (show 1 + (2⁻¹ : ℝ) ^ 24 ≤ Real.exp (2⁻¹ ^ 24) by linarith) (2 * 4800 + 6)
    rw [← Real.exp_nat_mul] at h2
    refine h2.trans (le_of_eq ?_)
    norm_num
  have h2 := Real.abs_exp_sub_one_sub_id_le (x := 9606 * (2⁻¹ : ℝ) ^ 24) (by norm_num [abs_of_pos])
  have h3 := (abs_le.1 h2).2
  have h4 : Real.exp (9606 * (2⁻¹ : ℝ) ^ 24) ≤ 1.00058 := by
    refine (show _ ≤ 1 + 9606 * (2⁻¹ : ℝ) ^ 24 + (9606 * (2⁻¹ : ℝ) ^ 24) ^ 2 by linarith).trans ?_
    norm_num
  have h5 := h1.trans h4
  rw [sub_le_iff_le_add]
  exact h5.trans (by norm_num)

end Zones.Props
