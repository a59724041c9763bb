import Verif.Props.Cuts
import Verif.Props.FiniteMemoryExamples

/-!
# Block lengths at work: a stereo impulse response of 5000 samples, internal block size 64, in 16 bit fixed point
-/

open Finset Zones.Spec Zones.Model Zones.Proofs Zones.Proofs.R

namespace Zones.Props

noncomputable local instance coarseArithCuts : Arith := Arith.rounded fixed16 (fun n e => omega n ^ e) (fun n e => (omega n)⁻¹ ^ e)

/-- A caller who works in blocks of 6400 samples, and one who works in blocks of 64, 128 and 640 samples, get the same output. -/
example : ∃ c, Convolver.createR singleFFT exampleIR 64 exampleSpec junk (fun _ _ => 7) = some c ∧
    ∀ x : ℕ → ℕ → ℝ, ∃ d outs d' outs', feed (Convolver.processR singleFFT) c [⟨2, 6400, x⟩] = some (d, outs) ∧
      feed (Convolver.processR singleFFT) c [⟨2, 64, x⟩, ⟨2, 128, fun ch i => x ch (64 + i)⟩, ⟨2, 640, fun ch i => x ch (192 + i)⟩] = some (d', outs') ∧
      ∀ o < 2, ∀ n < 832, stream outs o n = stream outs' o n := by
  obtain ⟨c, hc, h⟩ := C92_block_lengths_do_not_matter (exactOnZeros_rounded fixed16_zero _ _) singleFFT_halfSpectrum exampleUsable example_block
    junk (fun _ _ => 7)
  refine ⟨c, hc, fun x => ?_⟩
  have hl : min (totalLen [(⟨2, 6400, x⟩ : Buf)]) (totalLen [(⟨2, 64, x⟩ : Buf), ⟨2, 128, fun ch i => x ch (64 + i)⟩, ⟨2, 640, fun ch i => x ch (192 + i)⟩]) = 832 := by
    simp only [totalLen]; norm_num
  obtain ⟨d, outs, d', outs', h1, h1', _, _, h2⟩ := h [⟨2, 6400, x⟩] [⟨2, 64, x⟩, ⟨2, 128, fun ch i => x ch (64 + i)⟩, ⟨2, 640, fun ch i => x ch (192 + i)⟩]
    (by intro b hb; rw [List.mem_singleton] at hb; subst hb; exact ⟨rfl, by norm_num⟩)
    (by
      intro b hb
      simp only [List.mem_cons, List.not_mem_nil, or_false] at hb
      rcases hb with rfl | rfl | rfl <;> exact ⟨rfl, by norm_num⟩)
    (by
      intro c _ n hn
      rw [hl] at hn
      have h0 : n < 6400 := by omega
      simp only [stream]
      rw [if_pos h0]
      by_cases h1 : n < 64
      · rw [if_pos h1]
      · rw [if_neg h1]
        by_cases h2 : n - 64 < 128
        · rw [if_pos h2, show 64 + (n - 64) = n by omega]
        · have h3 : n - 64 - 128 < 640 := by omega
          rw [if_neg h2, if_pos h3, show 192 + (n - 64 - 128) = n by omega])
  rw [hl] at h2
  exact ⟨d, outs, d', outs', h1, h1', h2⟩

/-- Blocks of 100 samples are cut into 64 and 36; a caller who cuts there too gets the same output. -/
example : ∃ c, Convolver.createR singleFFT exampleIR 64 exampleSpec junk (fun _ _ => 7) = some c ∧
    ∀ x y : ℕ → ℕ → ℝ, ∃ d outs d' outs', feed (Convolver.processR singleFFT) c [⟨2, 100, x⟩, ⟨2, 50, y⟩] = some (d, outs) ∧
      feed (Convolver.processR singleFFT) c [⟨2, 64, x⟩, ⟨2, 36, fun ch i => x ch (64 + i)⟩, ⟨2, 50, y⟩] = some (d', outs') ∧
      ∀ o < 2, ∀ n < 150, stream outs o n = stream outs' o n := by
  obtain ⟨c, c', hc, hc', h⟩ := C92_only_the_pieces_matter (exactOnZeros_rounded fixed16_zero _ _) singleFFT_halfSpectrum exampleUsable example_block
    example_scheme (fun l hl => (example_points l hl).1) junk junk (fun _ _ => 7) (fun _ _ => 7)
  rw [hc] at hc'
  cases hc'
  refine ⟨c, hc, fun x y => ?_⟩
  obtain ⟨d, outs, d', outs', h1, h1', _, _, h2⟩ := h [⟨2, 100, x⟩, ⟨2, 50, y⟩] [⟨2, 64, x⟩, ⟨2, 36, fun ch i => x ch (64 + i)⟩, ⟨2, 50, y⟩]
    (by simp [cuts, cut]) (by simp) (by simp)
  refine ⟨d, outs, d', outs', h1, h1', fun o ho n hn => h2 o ho n (by simp only [totalLen]; omega) ?_⟩
  intro c _ _ m _ _
  simp only [stream]
  by_cases h1 : m < 64
  · have h0 : m < 100 := by omega
    rw [if_pos h0, if_pos h1]
  · rw [if_neg h1]
    by_cases h2 : m < 100
    · have h3 : m - 64 < 36 := by omega
      rw [if_pos h2, if_pos h3, show 64 + (m - 64) = m by omega]
    · have h3 : ¬ m - 64 < 36 := by omega
      rw [if_neg h2, if_neg h3, show m - 64 - 36 = m - 100 by omega]

end Zones.Props
