import Verif.Props.EngineBits
import Verif.Props.FiniteMemoryExamples
import Verif.Props.EngineLevelExamples

/-!
# C94 at work: an engine at 48 kHz in 16 bit fixed point, with a stereo impulse response of 5000 samples
-/

open Zones.Spec Zones.Model Zones.Proofs Zones.Proofs.R

namespace Zones.Props

noncomputable local instance coarse94 : Arith := Arith.rounded fixed16 (fun n e => omega n ^ e) (fun n e => (omega n)⁻¹ ^ e)

/-- memory full of nines -/
def nines : Garbage := ⟨fun _ _ => 9, fun _ _ _ _ => 9, fun _ _ => 9, fun _ _ => 9, fun _ _ => 9⟩

/-- Responses arrive together and in fades; a reset finds one fading in and another waiting. -/
def twinPre (v : Convolver) (m x : ℕ → ℕ → ℝ) : List (List (Held Convolver) × Call) :=
  [([], .prepare exampleFormat m), ([⟨1, v⟩], .process ⟨2, 64, x⟩), ([⟨2, v⟩, ⟨3, v⟩], .process ⟨2, 50, x⟩), ([⟨4, v⟩], .reset), ([⟨5, v⟩, ⟨6, v⟩], .process ⟨2, 64, x⟩)]

/-- 6400 samples, a clear, and the next block -/
def twinPost (v : Convolver) (y : ℕ → ℕ → ℝ) : List (List (Held Convolver) × Call) :=
  List.replicate 100 ([⟨7, v⟩], .process ⟨2, 64, y⟩) ++ [([], .clear)]

theorem replicate_wf {v : Convolver} {z : Buf} (hc : z.ch = 2) (hn : z.n ≤ 64) {rest : List (List (Held Convolver) × Call)} (hr : WellFormed 2 (fun _ => True) (some 64) rest) :
    ∀ k, WellFormed 2 (fun _ => True) (some 64) (List.replicate k ([⟨7, v⟩], .process z) ++ rest)
  | 0 => hr
  | k + 1 => by
    rw [List.replicate_succ, List.cons_append]
    exact ⟨fun _ _ => trivial, fun h => (by cases h), hc, fun m hm => by cases hm; exact hn, replicate_wf hc hn hr k⟩

theorem twin_wellFormed (v : Convolver) (m x y : ℕ → ℕ → ℝ) : WellFormed 2 (fun _ => True) none (twinPre v m x ++ (twinPost v y ++ [([⟨9, v⟩], .process ⟨2, 64, y⟩)])) := by
  have hp := exampleFormat_valid
  have hr : WellFormed 2 (fun _ => True) (some 64) ([([], .clear)] ++ [([⟨9, v⟩], .process ⟨2, 64, y⟩)]) :=
    ⟨fun _ _ => trivial, fun h => (by cases h), fun _ _ => trivial, fun h => (by cases h), rfl, fun m hm => (by cases hm; exact le_rfl), trivial⟩
  have := replicate_wf (v := v) (z := ⟨2, 64, y⟩) rfl le_rfl hr 100
  unfold twinPre twinPost
  rw [List.append_assoc (List.replicate 100 _)]
  refine ⟨fun _ _ => trivial, fun _ _ => rfl, hp, fun _ _ => trivial, fun h => (by cases h), rfl, fun k hk => (by cases hk; exact le_rfl), fun _ _ => trivial, fun h => (by cases h), rfl,
    fun k hk => (by cases hk; show 50 ≤ 64; norm_num), fun _ _ => trivial, fun h => (by cases h), fun _ _ => trivial, fun h => (by cases h), rfl, fun k hk => (by cases hk; exact le_rfl), this⟩

theorem example_created [Arith] {v : Convolver} {g : Garbage} {r0 : ℕ → ℕ → ℝ} (h : Convolver.createR singleFFT exampleIR 64 exampleSpec g r0 = some v)
    {hist : List (List (Held Convolver) × Call)} (hv : ∀ b ∈ hist, ∀ g ∈ b.1, g.obj = v) :
    CreatedFor singleFFT 2 9 (fun _ => exampleIR) (fun _ => 64) (fun _ => exampleSpec) (fun _ => 64) hist := by
  intro b hb g hg
  rw [hv b hb g hg]
  refine ⟨exampleUsable, example_block, fun sch hs l hl => ?_, _, _, h⟩
  rw [example_scheme] at hs
  cases hs
  exact (example_points l hl).1

theorem twin_objects {v : Convolver} {m x y : ℕ → ℕ → ℝ} : ∀ b ∈ twinPre v m x ++ (twinPost v y ++ [([⟨9, v⟩], .process ⟨2, 64, y⟩)]), ∀ g ∈ b.1, g.obj = v := by
  intro b hb g hg
  unfold twinPre twinPost at hb
  simp only [List.cons_append, List.nil_append, List.append_assoc, List.mem_cons, List.mem_append, List.mem_replicate, List.not_mem_nil, or_false] at hb
  rcases hb with rfl | rfl | rfl | rfl | rfl | ⟨-, rfl⟩ | rfl | rfl <;> simp at hg <;> (try rcases hg with rfl | rfl) <;> (try rw [hg]) <;> (try rfl)

theorem samplesIn_append {V : Type} : ∀ xs ys : List (List (Held V) × Call), samplesIn (xs ++ ys) = samplesIn xs + samplesIn ys
  | [], ys => (Nat.zero_add _).symm
  | (b, k) :: xs, ys => by
    cases k <;> simp only [List.cons_append, samplesIn, samplesIn_append xs ys, Nat.add_assoc]

theorem samplesIn_replicate {V : Type} (b : List (Held V)) (z : Buf) : ∀ k, samplesIn (List.replicate k (b, .process z)) = k * z.n
  | 0 => (Nat.zero_mul _).symm
  | k + 1 => by rw [List.replicate_succ, samplesIn, samplesIn_replicate b z k]; ring

/-- The two convolvers, made in memory full of sevens and in memory full of nines. -/
theorem example_twins : ∃ v v', Convolver.createR singleFFT exampleIR 64 exampleSpec junk (fun _ _ => 7) = some v ∧
    Convolver.createR singleFFT exampleIR 64 exampleSpec nines (fun _ _ => 9) = some v' := by
  obtain ⟨c, c', hc, hc', -⟩ := C91_memory_is_finite (exactOnZeros_rounded fixed16_zero _ _) singleFFT_halfSpectrum exampleUsable example_block
    example_scheme (fun l hl => (example_points l hl).1) junk nines (fun _ _ => 7) (fun _ _ => 9)
  exact ⟨c, c', hc, hc'⟩

/-- Two engines whose input differs, as it likes, for 178 samples — 64 before and 50 in a fade, 64 after a reset that found a response
waiting — and is the same for 6400 samples after that, in which responses fade in and wait: the next block, the first of a further
response, is the same in both, in 16 bit fixed point, with fades in 16 bit too. -/
example : ∃ v v', Convolver.createR singleFFT exampleIR 64 exampleSpec junk (fun _ _ => 7) = some v ∧ Convolver.createR singleFFT exampleIR 64 exampleSpec nines (fun _ _ => 9) = some v' ∧
    ∀ m m' x x' y : ℕ → ℕ → ℝ, ∃ c c' d d' e e' out out', ({} : Core Convolver).calls (convolverOpsR singleFFT (.rounded fixed16)) (twinPre v m x ++ twinPost v y) = some c ∧
      ({} : Core Convolver).calls (convolverOpsR singleFFT (.rounded fixed16)) (twinPre v' m' x' ++ twinPost v' y) = some c' ∧
      c.call (convolverOpsR singleFFT (.rounded fixed16)) [⟨9, v⟩] (.process ⟨2, 64, y⟩) = some (d, e) ∧
      c'.call (convolverOpsR singleFFT (.rounded fixed16)) [⟨9, v'⟩] (.process ⟨2, 64, y⟩) = some (d', e') ∧
      e.out = some out ∧ e'.out = some out' ∧ out.n = 64 ∧ SameBlock 2 out out' := by
  obtain ⟨v, v', h, h'⟩ := example_twins
  refine ⟨v, v', h, h', fun m m' x x' y => ?_⟩
  have hrep : ∀ k, SameInput 2 (List.replicate k (([⟨7, v⟩], .process ⟨2, 64, y⟩) : List (Held Convolver) × Call)) (List.replicate k ([⟨7, v'⟩], .process ⟨2, 64, y⟩)) := by
    intro k
    induction k with
    | zero => exact .nil
    | succ k ih => exact .cons ⟨rfl, .process ⟨rfl, rfl, rfl, fun _ _ _ _ => rfl⟩⟩ ih
  refine C94_bits_depend_on_recent_input (exactOnZeros_rounded fixed16_zero _ _) singleFFT_halfSpectrum (.rounded fixed16) (twin_wellFormed v m x y)
    (example_created h twin_objects) (example_created h' twin_objects) ?_ ?_ ?_
  · exact .cons ⟨rfl, .prepare _ _ _⟩ (.cons ⟨rfl, .process ⟨rfl, rfl⟩⟩ (.cons ⟨rfl, .process ⟨rfl, rfl⟩⟩ (.cons ⟨rfl, .reset⟩ (.cons ⟨rfl, .process ⟨rfl, rfl⟩⟩ .nil))))
  · exact List.rel_append (List.rel_append (hrep 100) (.cons ⟨rfl, .clear⟩ .nil)) (.cons ⟨rfl, .process ⟨rfl, rfl, rfl, fun _ _ _ _ => rfl⟩⟩ .nil)
  · intro b _ g _
    unfold twinPost
    rw [samplesIn_append, samplesIn_replicate]
    show 5000 + 2 ^ 9 + 64 ≤ 100 * 64 + 0 + 1
    norm_num

/-- A reset that finds nothing waiting: the two engines agree from the next block on, whatever they heard before. -/
example : ∃ v v', Convolver.createR singleFFT exampleIR 64 exampleSpec junk (fun _ _ => 7) = some v ∧ Convolver.createR singleFFT exampleIR 64 exampleSpec nines (fun _ _ => 9) = some v' ∧
    ∀ m m' x' y : ℕ → ℕ → ℝ, ∃ c c' d d' e e' out out',
      ({} : Core Convolver).calls (convolverOpsR singleFFT (.rounded fixed16)) ([([], .prepare exampleFormat m), ([⟨1, v⟩], .process exampleBlock)] ++ [([], .reset)]) = some c ∧
      ({} : Core Convolver).calls (convolverOpsR singleFFT (.rounded fixed16)) ([([], .prepare exampleFormat m'), ([⟨1, v'⟩], .process ⟨2, 64, x'⟩)] ++ [([], .reset)]) = some c' ∧
      c.call (convolverOpsR singleFFT (.rounded fixed16)) [⟨2, v⟩] (.process ⟨2, 64, y⟩) = some (d, e) ∧
      c'.call (convolverOpsR singleFFT (.rounded fixed16)) [⟨2, v'⟩] (.process ⟨2, 64, y⟩) = some (d', e') ∧
      e.out = some out ∧ e'.out = some out' ∧ out.n = 64 ∧ SameBlock 2 out out' := by
  obtain ⟨v, v', h, h'⟩ := example_twins
  refine ⟨v, v', h, h', fun m m' x' y => ?_⟩
  have hG : Twin1 singleFFT 2 9 (fun _ => exampleIR) (fun _ => 64) (fun _ => exampleSpec) (fun _ => 64) v := by
    have := created_good (N := 2) (fun _ => (exactOnZeros_rounded fixed16_zero _ _).safe 9 exampleIR) (hist := [([⟨1, v⟩], .prepare exampleFormat fun _ _ => 7)]) (M := none)
      ⟨fun _ _ => trivial, fun _ h => absurd rfl (h _ _), exampleFormat_valid, trivial⟩ (example_created h fun b hb g hg => by
        rw [List.mem_singleton.1 hb] at hg; rw [List.mem_singleton.1 hg])
    exact this.1 ⟨1, v⟩ (List.mem_singleton_self _)
  obtain ⟨l1, l2⟩ := example_lengths
  obtain ⟨c1, -, q1, -, q3, -, q5, -⟩ := reachable_states (twin1_accepts (N := 2) (L := 9) (irs := fun _ => exampleIR) (maxBs := fun _ => 64) (specs := fun _ => exampleSpec)
    (Bs := fun _ => 64) (fun _ => (exactOnZeros_rounded fixed16_zero _ _).safe 9 exampleIR) singleFFT_halfSpectrum (.rounded fixed16))
    (a := ⟨1, v⟩) (f := ⟨2, v⟩) (q := ⟨3, v⟩) hG hG hG exampleFormat_valid m (z := exampleBlock) rfl (by decide) l1 l2
  refine C94_reset_forgets (exactOnZeros_rounded fixed16_zero _ _) singleFFT_halfSpectrum (.rounded fixed16) (post := []) (post' := []) (L := 9) (irs := fun _ => exampleIR)
    (maxBs := fun _ => 64) (specs := fun _ => exampleSpec) (Bs := fun _ => 64) ?_
    (example_created h ?_) (example_created h' ?_) (fun b hb => by cases hb) ?_ ?_ ?_
  · refine ⟨fun _ _ => trivial, fun _ _ => rfl, exampleFormat_valid, fun _ _ => trivial, fun h => (by cases h), rfl, fun k hk => (by cases hk; exact le_rfl), fun _ _ => trivial,
      fun h => (by cases h), fun _ _ => trivial, fun h => (by cases h), rfl, fun k hk => (by cases hk; exact le_rfl), trivial⟩
  · intro b hb g hg
    simp only [List.cons_append, List.nil_append, List.mem_cons, List.not_mem_nil, or_false] at hb
    rcases hb with rfl | rfl | rfl | rfl <;> simp at hg <;> rw [hg]
  · intro b hb g hg
    simp only [List.cons_append, List.nil_append, List.mem_cons, List.not_mem_nil, or_false] at hb
    rcases hb with rfl | rfl | rfl | rfl <;> simp at hg <;> rw [hg]
  · intro c hc
    have e1 : c = c1 := Option.some.inj (hc.symm.trans q1.2)
    show c.pending = none
    rw [e1]
    obtain ⟨-, -, hW, -⟩ := known_of_reaches (twin1_accepts (fun _ => (exactOnZeros_rounded fixed16_zero _ _).safe 9 exampleIR) singleFFT_halfSpectrum (.rounded fixed16)) q1 q3
    by_contra hp
    exact hW.waiting hp q5
  · exact .cons ⟨rfl, .prepare _ _ _⟩ (.cons ⟨rfl, .process ⟨rfl, rfl⟩⟩ .nil)
  · exact .cons ⟨rfl, .reset⟩ (.cons ⟨rfl, .process ⟨rfl, rfl, rfl, fun _ _ _ _ => rfl⟩⟩ .nil)

end Zones.Props
