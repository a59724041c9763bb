import Verif.Props.EngineRecover
import Verif.Props.IeeeErrorExamples
import Verif.Props.FloatEngineExamples

/-!
# C97 at work: NaNs reach the engine while one response fades to another and a third one waits
-/

open Finset Zones.Spec Zones.Model Zones.Proofs Zones.Proofs.R

namespace Zones.Props

noncomputable local instance ieee97 : Arith := Arith.ieee true (fun _ _ => ⟨nan, nan⟩) rootF rootI

theorem example_tame : Tame (2⁻¹ ^ 23) (2 ^ 64) 2 9 18 64 [⟨1, 9⟩, ⟨4, 18⟩] exampleIR 64 exampleSpec :=
  ⟨exampleUsable, example_cut, example_factor32.trans (by norm_num), example_headroom⟩

theorem stream_level {X : ℝ} (hX : 0 ≤ X) : ∀ (bs : List Buf), (∀ b ∈ bs, ∀ ch i, |b.data ch i| ≤ X) → ∀ ch n, |stream bs ch n| ≤ X
  | [], _, ch, n => by simpa [stream] using hX
  | b :: bs, h, ch, n => by
    unfold stream
    split
    · exact h b (by simp) _ _
    · exact stream_level hX bs (fun b' hb' => h b' (by simp [hb'])) ch _

/-- a block of NaNs -/
noncomputable def nanBlock : Buf := ⟨2, 64, fun _ _ => nan⟩

/-- Response 1 plays, and a block of NaNs is processed; while responses 2 and 3 arrive and response 2 fades in, another one. After the
fades, response 3 plays: the output is finite, and its error is at most `1e-4` times the weights. -/
example (G : GainArith) : ∃ v c, FreshR nanFFT exampleIR 64 exampleSpec 2 v ∧
    ({} : Core Convolver).calls (convolverOpsR nanFFT G)
      [([], .prepare exampleFormat fun _ _ => 7), ([⟨1, v⟩], .process nanBlock), ([⟨2, v⟩, ⟨3, v⟩], .process nanBlock)] = some c ∧
    slotIds c = (some 1, some 2, some 3) ∧
    ∀ blocks more : List Buf, (∀ b ∈ blocks ++ more, b.ch = 2 ∧ b.n ≤ 64) → 4 * ((ceilTimes kUpperFadeTimeS 48000).toNat + 64) ≤ totalLen blocks →
      (∀ b ∈ more, ∀ ch i, |b.data ch i| ≤ 2 ^ 64) →
      ∃ c' outs, c.play (convolverOpsR nanFFT G) (quietly (blocks ++ more)) = some (c', outs) ∧
        ∀ o < 2, ∀ t < totalLen more, 5575 ≤ t → IsFinite (stream (outs.drop blocks.length) o t) ∧
          |stream (outs.drop blocks.length) o t -
            routedConv exampleIR exampleSpec.inputRouting exampleSpec.outputRouting (stream (blocks ++ more)) o (totalLen blocks + t)| ≤
            1e-4 * outputWeightF (2⁻¹ ^ 49) 64 exampleIR [⟨1, 9⟩, ⟨4, 18⟩] exampleSpec.outputRouting (fun _ => 2 ^ 64) o := by
  have hTF : TwiddlesBounded rootF := fun n e => roundC_bounded (norm_root n e)
  have hTI : TwiddlesBounded rootI := fun n e => roundC_bounded (norm_root_inv n e)
  have hTF' : ∀ k < 9, ∀ e < 2 ^ k, ‖rootF (2 * 2 ^ k) e - omega (2 * 2 ^ k) ^ e‖ ≤ 2⁻¹ ^ 23 := fun k _ e _ => roundC_unit (norm_root _ _)
  have hTI' : ∀ k < 9, ∀ e < 2 ^ k, ‖rootI (2 * 2 ^ k) e - (omega (2 * 2 ^ k))⁻¹ ^ e‖ ≤ 2⁻¹ ^ 23 := fun k _ e _ => roundC_unit (norm_root_inv _ _)
  have hf : Feeds nanFFT 2 (SomeTame (2⁻¹ ^ 23) (2 ^ 64) 2 9) (RightIf (2⁻¹ ^ 23) (2 ^ 64) 2 9) := feeds_ieee (N := 2) (flush := true) (repair := fun _ _ => ⟨nan, nan⟩) hTF hTI hTF' hTI' nanFFT_approx (Xmax := 2 ^ 64) (by norm_num)
  obtain ⟨v, e, _⟩ := C96_right_after_bad_values true (fun _ _ => ⟨nan, nan⟩) hTF hTI hTF' hTI' nanFFT_approx example_tame.usable
    example_block example_scheme example_points (Xmax := 2 ^ 64) (by norm_num) example_tame.factor example_tame.room junk (fun _ _ => 7)
  have hv : FreshR nanFFT exampleIR 64 exampleSpec 2 v := ⟨_, _, v, e, Or.inl rfl⟩
  have hs : ServesOk nanFFT 2 (SomeTame (2⁻¹ ^ 23) (2 ^ 64) 2 9) v := ⟨_, _, _, [], ⟨_, _, _, example_tame⟩, HeardR_fresh hv⟩
  obtain ⟨l1, l2⟩ := example_lengths
  obtain ⟨c1, c2, -, -, -, -, -, q6, q7, q8, q9, q10, q11⟩ := reachable_states (accepts_ok hf G)
    (a := ⟨1, v⟩) (f := ⟨2, v⟩) (q := ⟨3, v⟩) hs hs hs exampleFormat_valid (fun _ _ => 7) (z := nanBlock) rfl (by decide) l1 l2
  refine ⟨v, c2, hv, q6.2, by unfold slotIds; rw [q9, q10, q11]; rfl, fun blocks more hb hlen hl => ?_⟩
  obtain ⟨c', outs, e', _, d⟩ := C97_engine_recovers true (fun _ _ => ⟨nan, nan⟩) hTF hTI hTF' hTI' nanFFT_approx (Xmax := 2 ^ 64) (by norm_num)
    (irs := fun _ => exampleIR) (maxBs := fun _ => 64) (specs := fun _ => exampleSpec) (Ks := fun _ => 18) (Bs := fun _ => 64)
    (schs := fun _ => [⟨1, 9⟩, ⟨4, 18⟩]) (i := 3) (fun b hb g hg => ⟨example_tame, by
      have : g.obj = v := by
        simp only [List.mem_cons, List.not_mem_nil, or_false] at hb
        rcases hb with rfl | rfl | rfl <;> simp only [List.mem_cons, List.not_mem_nil, or_false] at hg
        · rw [hg]
        · rcases hg with rfl | rfl <;> rfl
      rw [this]; exact hv⟩) q6 (C38_quiet_resets_suffice (accepts_ok hf G) q6.1 q7) q8 rfl blocks more hb hlen
  refine ⟨c', outs, e', fun o ho t ht h5 => ?_⟩
  have := d o ho t ht (by show 5000 + 2 ^ 9 + 64 ≤ _; omega) (fun _ => 2 ^ 64) fun k _ _ => ⟨by norm_num, le_rfl, by positivity, fun m h1 h2 => ?_⟩
  · refine ⟨this.1, this.2.trans (mul_le_mul_of_nonneg_right example_factor32 ?_)⟩
    unfold outputWeightF
    refine sum_nonneg fun c _ => ?_
    have := schemeNormF_nonneg (2⁻¹ ^ 49) 64 (extended exampleIR c) [⟨1, 9⟩, ⟨4, 18⟩] 0
    split <;> positivity
  · have h1' : totalLen blocks + t < m + (5000 + 2 ^ 9 + 64) := h1
    rw [show m = totalLen blocks + (m - totalLen blocks) by omega, stream_append_right]
    exact stream_level (by positivity) more hl _ _

end Zones.Props
