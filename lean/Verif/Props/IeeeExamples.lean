import Verif.Props.Ieee

/-!
# C95 at work: a NaN reaches a convolver and an engine in binary32, with a stereo impulse response of 5000 samples
-/

open Zones.Spec Zones.Model Zones.Proofs Zones.Proofs.R

namespace Zones.Props

/-! ## The special values -/

example (flush : Bool) (x : ℝ) : addIeee flush nan x = nan := by
  unfold addIeee IsNaN nan
  rw [if_pos (.inl (by rw [abs_of_nonneg (by positivity)]; norm_num))]

example (flush : Bool) : addIeee flush (2 ^ 128) (-2 ^ 128) = nan := by
  unfold addIeee IsNaN IsInf
  norm_num

example (flush : Bool) : mulIeee flush 0 (2 ^ 128) = nan := by
  unfold mulIeee IsNaN IsInf
  norm_num

/-- twice the largest power of two overflows -/
example (flush : Bool) : mulIeee flush (2 ^ 127) (-2) = -2 ^ 128 := by
  unfold mulIeee IsNaN IsInf roundIeee binary32 infinityLike
  norm_num

/-! ## The convolver -/

theorem omega_bounded : TwiddlesBounded (fun n e => omega n ^ e) := by
  intro n e
  have h : ‖omega n ^ e‖ = 1 := by rw [norm_pow, norm_omega, one_pow]
  exact ⟨(Complex.abs_re_le_norm _).trans (by rw [h]; norm_num), (Complex.abs_im_le_norm _).trans (by rw [h]; norm_num)⟩

theorem omega_inv_bounded : TwiddlesBounded (fun n e => (omega n)⁻¹ ^ e) := by
  intro n e
  have h : ‖(omega n)⁻¹ ^ e‖ = 1 := by rw [norm_pow, norm_inv, norm_omega, inv_one, one_pow]
  exact ⟨(Complex.abs_re_le_norm _).trans (by rw [h]; norm_num), (Complex.abs_im_le_norm _).trans (by rw [h]; norm_num)⟩

theorem exampleIR_moderate : ∀ c < exampleIR.ch, ∀ i < exampleIR.n, |exampleIR.data c i| ≤ 2 ^ 13 := by
  intro c _ i hi
  show |if c = 0 then (1:ℝ) else (i : ℝ)| ≤ 2 ^ 13
  have hi' : i < 5000 := hi
  split
  · norm_num
  · rw [abs_of_nonneg (Nat.cast_nonneg i)]
    have : (i : ℝ) ≤ 5000 := by exact_mod_cast hi'.le
    exact this.trans (by norm_num)

/-- binary32 that flushes subnormal numbers, with a complex product that is left as NaN -/
noncomputable local instance ieee95 : Arith := Arith.ieee true (fun _ _ => ⟨nan, nan⟩) (fun n e => omega n ^ e) (fun n e => (omega n)⁻¹ ^ e)

/-- The first of 100 samples is NaN, or it is zero: from sample `100 + 5575` on the outputs are identical. -/
example : ∃ c, Convolver.createR singleFFT exampleIR 64 exampleSpec junk (fun _ _ => 7) = some c ∧
    ∀ x y : ℕ → ℕ → ℝ, ∃ d outs d' outs',
      feed (Convolver.processR singleFFT) c [⟨2, 100, fun ch i => if i = 0 then nan else x ch i⟩, ⟨2, 10000, y⟩] = some (d, outs) ∧
      feed (Convolver.processR singleFFT) c [⟨2, 100, fun ch i => if i = 0 then 0 else x ch i⟩, ⟨2, 10000, y⟩] = some (d', outs') ∧
      ∀ o < 2, ∀ n < 10100, 100 + 5575 ≤ n → stream outs o n = stream outs' o n := by
  obtain ⟨c, c', hc, hc', h⟩ := C95_bad_values_pass true (fun _ _ => ⟨nan, nan⟩) omega_bounded omega_inv_bounded singleFFT_halfSpectrum (L := 9) (K := 13) (by norm_num)
    exampleIR_moderate exampleUsable example_block example_scheme (fun l hl => (example_points l hl).1) junk junk (fun _ _ => 7) (fun _ _ => 7)
  have e : c' = c := Option.some.inj (hc'.symm.trans hc)
  subst e
  refine ⟨c', hc, fun x y => ?_⟩
  obtain ⟨d, outs, d', outs', h1, h1', _, _, h2⟩ := h [⟨2, 100, fun ch i => if i = 0 then nan else x ch i⟩, ⟨2, 10000, y⟩]
    [⟨2, 100, fun ch i => if i = 0 then 0 else x ch i⟩, ⟨2, 10000, y⟩]
    (.cons ⟨rfl, rfl⟩ (.cons ⟨rfl, rfl⟩ .nil)) (by intro b hb; simp only [List.mem_cons, List.not_mem_nil, or_false] at hb; rcases hb with rfl | rfl <;> rfl)
  refine ⟨d, outs, d', outs', h1, h1', fun o ho n hn hl => h2 o ho n ?_ fun c _ _ m hm _ => later_equal hm hl _⟩
  rw [len_two]
  exact lt_of_lt_of_eq hn (by norm_num)

/-! ## The engine -/

/-- An engine that hears anything, NaNs and infinities included, for 178 samples in which responses arrive, fade in and wait, and an engine
that hears something else meanwhile: after 6400 samples of the same input the next block is the same in both. -/
example : ∃ v, Convolver.createR singleFFT exampleIR 64 exampleSpec junk (fun _ _ => 7) = some v ∧
    ∀ m m' x x' y : ℕ → ℕ → ℝ, ∃ c c' d d' e e' out out', ({} : Core Convolver).calls (convolverOpsR singleFFT (.rounded fixed16)) (twinPre v m x ++ twinPost v y) = some c ∧
      ({} : Core Convolver).calls (convolverOpsR singleFFT (.rounded fixed16)) (twinPre v m' x' ++ twinPost v y) = some c' ∧
      c.call (convolverOpsR singleFFT (.rounded fixed16)) [⟨9, v⟩] (.process ⟨2, 64, y⟩) = some (d, e) ∧
      c'.call (convolverOpsR singleFFT (.rounded fixed16)) [⟨9, v⟩] (.process ⟨2, 64, y⟩) = some (d', e') ∧
      e.out = some out ∧ e'.out = some out' ∧ out.n = 64 ∧ SameBlock 2 out out' := by
  obtain ⟨v, -, h, -⟩ := C95_bad_values_pass true (fun _ _ => ⟨nan, nan⟩) omega_bounded omega_inv_bounded singleFFT_halfSpectrum (L := 9) (K := 13) (by norm_num)
    exampleIR_moderate exampleUsable example_block example_scheme (fun l hl => (example_points l hl).1) junk junk (fun _ _ => 7) (fun _ _ => 7)
  refine ⟨v, h, fun m m' x x' y => ?_⟩
  have hrep : ∀ k, SameInput 2 (List.replicate k (([⟨7, v⟩], .process ⟨2, 64, y⟩) : List (Held Convolver) × Call)) (List.replicate k ([⟨7, v⟩], .process ⟨2, 64, y⟩)) := by
    intro k
    induction k with
    | zero => exact .nil
    | succ k ih => exact .cons ⟨rfl, .process ⟨rfl, rfl, rfl, fun _ _ _ _ => rfl⟩⟩ ih
  refine C95_engine_bad_values_pass true (fun _ _ => ⟨nan, nan⟩) omega_bounded omega_inv_bounded singleFFT_halfSpectrum (.rounded fixed16) (L := 9) (K := 13) (by norm_num)
    (fun _ => exampleIR_moderate) (twin_wellFormed v m x y) (example_created h twin_objects) (example_created h twin_objects) ?_ ?_ ?_
  · exact .cons ⟨rfl, .prepare _ _ _⟩ (.cons ⟨rfl, .process ⟨rfl, rfl⟩⟩ (.cons ⟨rfl, .process ⟨rfl, rfl⟩⟩ (.cons ⟨rfl, .reset⟩ (.cons ⟨rfl, .process ⟨rfl, rfl⟩⟩ .nil))))
  · exact List.rel_append (List.rel_append (hrep 100) (.cons ⟨rfl, .clear⟩ .nil)) (.cons ⟨rfl, .process ⟨rfl, rfl, rfl, fun _ _ _ _ => rfl⟩⟩ .nil)
  · intro b _ g _
    unfold twinPost
    rw [samplesIn_append, samplesIn_replicate]
    show 5000 + 2 ^ 9 + 64 ≤ 100 * 64 + 0 + 1
    norm_num

end Zones.Props
