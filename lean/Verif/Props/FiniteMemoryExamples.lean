import Verif.Props.FiniteMemory
import Verif.Props.RoundingExamples

/-!
# Finite memory at work: a stereo impulse response of 5000 samples, in any arithmetic that rounds zero to zero

Rounding may flush small numbers to zero, saturate large ones or be as coarse as 16 bit fixed point.
-/

open Finset Zones.Spec Zones.Model Zones.Proofs Zones.Proofs.R

namespace Zones.Props

/-- all that is needed of rounding: zero stays zero -/
theorem exactOnZeros_rounded {r : ℝ → ℝ} (hr : r 0 = 0) (twF twI : ℕ → ℕ → ℂ) : @ExactOnZeros (Arith.rounded r twF twI) := by
  letI := Arith.rounded r twF twI
  refine ⟨?_, ?_, ?_, fun z => ?_, ?_⟩
  · show r (0 + 0) = 0
    rw [add_zero, hr]
  · show (⟨r ((0:ℂ).re + (0:ℂ).re), r ((0:ℂ).im + (0:ℂ).im)⟩ : ℂ) = 0
    apply Complex.ext <;> simp [hr]
  · show (⟨r ((0:ℂ).re - (0:ℂ).re), r ((0:ℂ).im - (0:ℂ).im)⟩ : ℂ) = 0
    apply Complex.ext <;> simp [hr]
  · show (⟨r (r ((0:ℂ).re * z.re) - r ((0:ℂ).im * z.im)), r (r ((0:ℂ).re * z.im) + r ((0:ℂ).im * z.re))⟩ : ℂ) = 0
    apply Complex.ext <;> simp [hr]
  · show (⟨r ((0:ℂ).re * (1 / 2)), r ((0:ℂ).im * (1 / 2))⟩ : ℂ) = 0
    apply Complex.ext <;> simp [hr]

/-- the transforms of the example are real transforms -/
theorem singleFFT_halfSpectrum : HalfSpectrum singleFFT where
  fwd k d d' h i hi := by
    have : ∀ j, dft (2 ^ k) (fun j => (d j : ℂ)) j = dft (2 ^ k) (fun j => (d' j : ℂ)) j := by
      intro j
      unfold dft
      refine sum_congr rfl fun m hm => ?_
      rw [mem_range] at hm
      beta_reduce
      rw [h m hm]
    simp only [bin, singleFFT, naturalFFT, this]
  inv k d d' h i hi := by
    simp only [singleFFT, naturalFFT]
    congr 1
    unfold realInv
    congr 2
    have hk : (0:ℕ) < 2 ^ k := by positivity
    refine sum_congr rfl fun m hm => ?_
    rw [mem_range] at hm
    split
    · next hle => rw [h m hle]
    · rw [h (2 ^ k - m) (by omega)]

/-- 16 bit fixed point: multiples of `2^-15`, saturating at `±1` -/
noncomputable def fixed16 (v : ℝ) : ℝ := max (-1) (min 1 (⌊v * 2 ^ 15⌋ / 2 ^ 15))

theorem fixed16_zero : fixed16 0 = 0 := by
  unfold fixed16
  simp

noncomputable local instance coarseArith : Arith := Arith.rounded fixed16 (fun n e => omega n ^ e) (fun n e => (omega n)⁻¹ ^ e)

theorem len_two (a b : Buf) : totalLen [a, b] = a.n + b.n := rfl

theorem later_equal {n m : ℕ} (hm : n < m + (5000 + 2 ^ 9 + 64)) (hl : 100 + 5575 ≤ n) {x x' y : ℕ → ℕ → ℝ} (ch : ℕ) :
    stream [⟨2, 100, x⟩, ⟨2, 10000, y⟩] ch m = stream [⟨2, 100, x'⟩, ⟨2, 10000, y⟩] ch m := by
  have h1 : ¬ m < 100 := by omega
  unfold stream
  rw [if_neg h1, if_neg h1]

/-- Two convolvers in 16 bit fixed point, made in memory full of sevens and of nines, are fed 100 samples of different signals and
then the same signal: from sample `100 + 5575` on the outputs are identical. -/
example : ∃ c c', Convolver.createR singleFFT exampleIR 64 exampleSpec junk (fun _ _ => 7) = some c ∧
    Convolver.createR singleFFT exampleIR 64 exampleSpec ⟨fun _ _ => 9, fun _ _ _ _ => 9, fun _ _ => 9, fun _ _ => 9, fun _ _ => 9⟩ (fun _ _ => 9) = some c' ∧
    ∀ x x' y : ℕ → ℕ → ℝ, ∃ d outs d' outs', feed (Convolver.processR singleFFT) c [⟨2, 100, x⟩, ⟨2, 10000, y⟩] = some (d, outs) ∧
      feed (Convolver.processR singleFFT) c' [⟨2, 100, x'⟩, ⟨2, 10000, y⟩] = some (d', outs') ∧
      ∀ o < 2, ∀ n < 10100, 100 + 5575 ≤ n → stream outs o n = stream outs' o n := by
  obtain ⟨c, c', hc, hc', h⟩ := C91_memory_is_finite (exactOnZeros_rounded fixed16_zero _ _) singleFFT_halfSpectrum exampleUsable example_block
    example_scheme (fun l hl => (example_points l hl).1) junk ⟨fun _ _ => 9, fun _ _ _ _ => 9, fun _ _ => 9, fun _ _ => 9, fun _ _ => 9⟩
    (fun _ _ => 7) (fun _ _ => 9)
  refine ⟨c, c', hc, hc', fun x x' y => ?_⟩
  obtain ⟨d, outs, d', outs', h1, h1', _, _, h2⟩ := h [⟨2, 100, x⟩, ⟨2, 10000, y⟩] [⟨2, 100, x'⟩, ⟨2, 10000, y⟩]
    (.cons ⟨rfl, rfl⟩ (.cons ⟨rfl, rfl⟩ .nil))
    (by intro b hb; simp only [List.mem_cons, List.not_mem_nil, or_false] at hb; rcases hb with rfl | rfl <;> rfl)
  refine ⟨d, outs, d', outs', h1, h1', fun o ho n hn hl => h2 o ho n (by rw [len_two]; exact lt_of_lt_of_eq hn (by norm_num)) fun k _ _ m hm _ => ?_⟩
  exact later_equal (show n < m + (5000 + 2 ^ 9 + 64) from hm) hl _

/-- The same after `Reset`; before it, the convolvers processed different signals. -/
example : ∃ c c', Convolver.createR singleFFT exampleIR 64 exampleSpec junk (fun _ _ => 7) = some c ∧
    Convolver.createR singleFFT exampleIR 64 exampleSpec junk (fun _ _ => 9) = some c' ∧
    ∀ x x' y : ℕ → ℕ → ℝ, ∃ used used', history (Convolver.processR singleFFT) Convolver.reset c [.process ⟨2, 777, x⟩] = some used ∧
      history (Convolver.processR singleFFT) Convolver.reset c' [.process ⟨2, 777, x'⟩] = some used' ∧
      ∃ d outs d' outs', feed (Convolver.processR singleFFT) used.reset [⟨2, 10000, y⟩] = some (d, outs) ∧
        feed (Convolver.processR singleFFT) used'.reset [⟨2, 10000, y⟩] = some (d', outs') ∧
        ∀ o < 2, ∀ n < 10000, stream outs o n = stream outs' o n := by
  obtain ⟨c, c', hc, hc', h⟩ := C91_memory_is_finite_after_reset (exactOnZeros_rounded fixed16_zero _ _) singleFFT_halfSpectrum exampleUsable
    example_block example_scheme (fun l hl => (example_points l hl).1) junk junk (fun _ _ => 7) (fun _ _ => 9)
  refine ⟨c, c', hc, hc', fun x x' y => ?_⟩
  obtain ⟨used, used', e, e', h1⟩ := h [.process ⟨2, 777, x⟩] [.process ⟨2, 777, x'⟩] (.cons (.process ⟨rfl, rfl⟩) .nil)
    (by intro b hb; simp only [List.mem_cons, List.not_mem_nil, or_false, Op.process.injEq] at hb; rw [hb])
  obtain ⟨d, outs, d', outs', h2, h2', _, _, h3⟩ := h1 [⟨2, 10000, y⟩] [⟨2, 10000, y⟩] (.cons ⟨rfl, rfl⟩ .nil)
    (by intro b hb; simp only [List.mem_cons, List.not_mem_nil, or_false] at hb; rw [hb])
  exact ⟨used, used', e, e', d, outs, d', outs', h2, h2', fun o ho n hn => h3 o ho n hn fun _ _ _ _ _ _ => rfl⟩

end Zones.Props
