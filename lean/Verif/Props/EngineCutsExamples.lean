import Verif.Props.EngineCuts
import Verif.Props.FiniteMemoryExamples
import Verif.Props.EngineBitsExamples

/-!
# C105 at work: an engine at 48 kHz in 16 bit fixed point, with a stereo impulse response of 5000 samples
-/

open Zones.Spec Zones.Model Zones.Proofs Zones.Proofs.R

namespace Zones.Props

noncomputable local instance coarse105 : Arith := Arith.rounded fixed16 (fun n e => omega n ^ e) (fun n e => (omega n)⁻¹ ^ e)

theorem fixed16_idem (x : ℝ) : fixed16 (fixed16 x) = fixed16 x := by
  have hp : (0 : ℝ) < 2 ^ 15 := by norm_num
  have h1 : ∃ j : ℤ, (-1 ≤ (j : ℝ) / 2 ^ 15 ∧ (j : ℝ) / 2 ^ 15 ≤ 1) ∧ fixed16 x = (j : ℝ) / 2 ^ 15 := by
    unfold fixed16
    generalize ⌊x * 2 ^ 15⌋ = k
    rcases le_total (1 : ℝ) ((k : ℝ) / 2 ^ 15) with h | h
    · refine ⟨2 ^ 15, ?_, ?_⟩
      · norm_num
      · rw [min_eq_left h]; norm_num
    · rw [min_eq_right h]
      rcases le_total (-1 : ℝ) ((k : ℝ) / 2 ^ 15) with h' | h'
      · exact ⟨k, ⟨h', h⟩, max_eq_right h'⟩
      · refine ⟨-2 ^ 15, ?_, ?_⟩
        · norm_num
        · rw [max_eq_left h']; norm_num
  obtain ⟨j, ⟨ha, hb⟩, e⟩ := h1
  rw [e]
  unfold fixed16
  rw [div_mul_cancel₀ _ hp.ne', Int.floor_intCast, min_eq_right hb, max_eq_right ha]

/-- an internal block size of 32 samples -/
def spec32 : ConvolverSpec := { exampleSpec with internalBlockSize := some 32 }

theorem usable32 : Usable exampleIR 64 spec32 2 :=
  ⟨exampleUsable.nonempty, exampleUsable.size, exampleUsable.inputs, exampleUsable.outputs, .inl (by norm_num)⟩

theorem block32 : internalBlockSize Convolver.po2Fuel 64 spec32.internalBlockSize = some 32 := by decide +kernel

theorem zeros105 : ExactOnZeros := exactOnZeros_rounded fixed16_zero _ _

/-- Two convolvers, made in memory full of sevens and in memory full of nines. -/
theorem convolvers32 : ∃ v v', Convolver.createR singleFFT exampleIR 64 spec32 junk (fun _ _ => 7) = some v ∧ Convolver.createR singleFFT exampleIR 64 spec32 nines (fun _ _ => 9) = some v' := by
  obtain ⟨-, sch, L, hsch, hL⟩ := usable_scheme zeros105 usable32 block32
  obtain ⟨c, c', -, -, h, h', -⟩ := usable_chain zeros105 (F := singleFFT) usable32 block32 hsch hL junk nines (fun _ _ => 7) (fun _ _ => 9)
  exact ⟨c, c', h, h'⟩

/-- Signals of `n + 1` blocks of `k` ones: responses 1 and 2 arrive with the first two, then the engine is reset, plays another, is cleared and plays another. -/
noncomputable def pieces105 (v : Convolver) (n k : ℕ) : List (List (Held Convolver) × Piece) :=
  [([⟨1, v⟩], .play (ones k) (List.replicate n (ones k))), ([⟨2, v⟩], .play (ones k) (List.replicate n (ones k))), ([], .other .reset), ([], .play (ones k) (List.replicate n (ones k))),
    ([], .other .clear), ([], .play (ones k) (List.replicate n (ones k)))]

theorem created105 {v : Convolver} {g : Garbage} {r0 : ℕ → ℕ → ℝ} (h : Convolver.createR singleFFT exampleIR 64 spec32 g r0 = some v) (n k : ℕ) :
    CreatedIn singleFFT 2 (fun _ => exampleIR) (fun _ => 64) (fun _ => spec32) (fun _ => 32) (pieces105 v n k) := by
  intro q hq f hf
  have : f.obj = v := by
    simp only [pieces105, List.mem_cons, List.not_mem_nil, or_false] at hq
    rcases hq with rfl | rfl | rfl | rfl | rfl | rfl <;> simp at hf <;> rw [hf]
  rw [this]
  exact ⟨usable32, block32, _, _, h⟩

theorem wellFormed105 (v : Convolver) (m : ℕ → ℕ → ℝ) (n k : ℕ) (hk : k ≤ 64) : WellFormed 2 (fun _ => True) none (([], .prepare exampleFormat m) :: pieced (pieces105 v n k)) := by
  have hrep : ∀ b ∈ List.replicate n (ones k), b.ch = 2 ∧ b.n ≤ exampleFormat.maximumBlockSize := by
    intro b hb
    rw [List.eq_of_mem_replicate hb]
    exact ⟨rfl, hk⟩
  have hm : ∀ j, some exampleFormat.maximumBlockSize = some j → (ones k).n ≤ j := fun j hj => (by cases hj; exact hk)
  refine ⟨by simp, fun _ _ => rfl, exampleFormat_valid, fun _ _ => trivial, fun e => (by cases e), rfl, hm, wellFormed_quiet ?_ _ hrep⟩
  refine ⟨fun _ _ => trivial, fun e => (by cases e), rfl, hm, wellFormed_quiet ?_ _ hrep⟩
  refine ⟨fun _ _ => trivial, fun e => (by cases e), fun _ _ => trivial, fun e => (by cases e), rfl, hm, wellFormed_quiet ?_ _ hrep⟩
  refine ⟨fun _ _ => trivial, fun e => (by cases e), fun _ _ => trivial, fun e => (by cases e), rfl, hm, ?_⟩
  exact wellFormed_quiet (rest := []) trivial _ hrep

/-- Four signals of 6272 samples, played in 98 blocks of 64 samples each or in 196 blocks of 32 samples; response 2 is crossfaded to over the first 4800 samples of the second, the engine is reset
before the third and cleared before the last. In 16 bit fixed point, with fades in 16 bit too, both hosts hear the same. -/
example : ∃ v v', Convolver.createR singleFFT exampleIR 64 spec32 junk (fun _ _ => 7) = some v ∧ Convolver.createR singleFFT exampleIR 64 spec32 nines (fun _ _ => 9) = some v' ∧ ∀ m m' : ℕ → ℕ → ℝ,
    ∃ c outs c' outs', perform (convolverOpsR singleFFT (.rounded fixed16)) {} (([], .prepare exampleFormat m) :: pieced (pieces105 v 97 64)) = some (c, outs) ∧
      perform (convolverOpsR singleFFT (.rounded fixed16)) {} (([], .prepare exampleFormat m') :: pieced (pieces105 v' 195 32)) = some (c', outs') ∧ SameSignal 2 outs outs' := by
  obtain ⟨v, v', h, h'⟩ := convolvers32
  refine ⟨v, v', h, h', fun m m' => ?_⟩
  have hlen : ∀ n k : ℕ, totalLen (ones k :: List.replicate n (ones k)) = (n + 1) * k := fun n k => by rw [← List.replicate_succ, ones_len]
  have hsig : SameSignal 2 (ones 64 :: List.replicate 97 (ones 64)) (ones 32 :: List.replicate 195 (ones 32)) := by
    rw [← List.replicate_succ, ← List.replicate_succ]
    refine ⟨by rw [ones_len, ones_len], fun ch _ t => ?_⟩
    rw [ones_stream, ones_stream]
  have hplay : RecutBits 2 (fun _ => False) (.play (ones 64) (List.replicate 97 (ones 64))) (.play (ones 32) (List.replicate 195 (ones 32))) := .play hsig nofun
  have hdiv : ∀ (w : Convolver) (n k : ℕ), 32 ∣ k → ∀ q ∈ pieces105 w n k, ∀ b bs, q.2 = .play b bs → ∀ x ∈ b :: bs, 32 ∣ x.n := by
    intro w n k hk q hq b bs e x hx
    have : b = ones k ∧ bs = List.replicate n (ones k) := by
      simp only [pieces105, List.mem_cons, List.not_mem_nil, or_false] at hq
      rcases hq with rfl | rfl | rfl | rfl | rfl | rfl <;> cases e <;> exact ⟨rfl, rfl⟩
    rw [this.1, this.2, ← List.replicate_succ] at hx
    rw [List.eq_of_mem_replicate hx]
    exact hk
  refine C105_multiples zeros105 singleFFT_halfSpectrum (cleanGains_rounded fixed16_zero fixed16_idem _ _) (irs := fun _ => exampleIR) (maxBs := fun _ => 64) (specs := fun _ => spec32)
    (Bs := fun _ => 32) (r := 48000) (by norm_num [exampleFormat]) (by norm_num) (by norm_num) m m' ?_ (created105 h 97 64) (created105 h' 195 32)
    (.cons ⟨rfl, hplay⟩ (.cons ⟨rfl, hplay⟩ (.cons ⟨rfl, .reset⟩ (.cons ⟨rfl, hplay⟩ (.cons ⟨rfl, .clear⟩ (.cons ⟨rfl, hplay⟩ .nil)))))) ?_
    (wellFormed105 v m 97 64 le_rfl) (wellFormed105 v' m' 195 32 (by norm_num))
  · intro q hq
    simp only [pieces105, List.mem_cons, List.not_mem_nil, or_false] at hq
    rcases hq with rfl | rfl | rfl | rfl | rfl | rfl
    · exact .inr ⟨_, _, _, rfl, rfl, example_crossfade _ 1 (by rw [hlen]; norm_num)⟩
    · exact .inr ⟨_, _, _, rfl, rfl, example_crossfade _ 2 (by rw [hlen]; norm_num)⟩
    all_goals exact .inl rfl
  · intro q hq b bs e x hx s _ g _
    rcases List.mem_append.1 hq with hq | hq
    · exact hdiv v 97 64 (by norm_num) q hq b bs e x hx
    · exact hdiv v' 195 32 (by norm_num) q hq b bs e x hx

end Zones.Props
