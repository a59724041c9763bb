import Verif.Props.CostModel
import Verif.Proofs.MemoryCreate

/-!
# C89: the memory of a convolver

`Convolver.buffers` (Verif/Model/Memory.lean) lists the sizes of all buffers, in `float`s; `floatsPerChannel` (Verif/Spec/Memory.lean) is what they should add up to.
-/

open Zones.Spec Zones.Model Zones.Proofs

namespace Zones.Props

/-- **C89.** The buffers of a convolver: together exactly `floatsPerChannel` for each channel of the impulse response, and not one of them ever changes its size, whatever
calls of `Process` and `Reset` follow, with blocks of any number of samples. -/
theorem C89_fixed_memory {F : RealFFT} (hF : Lawful F) {ir : Buf} {maxB N : ℕ} {spec : ConvolverSpec} (h : Usable ir maxB spec N) (g : Garbage) (r0 : ℕ → ℕ → ℝ)
    {B : ℕ} {first : Layout} {rest : List Layout} (hB : internalBlockSize 64 maxB spec.internalBlockSize = some B)
    (hsch : getPartitionScheme kGarciaResults B ir.n = some (first :: rest)) :
    ∃ c, Convolver.create F ir maxB spec g r0 = some c ∧ c.buffers.sum = ir.ch * floatsPerChannel B ir.n first rest ∧
      ∀ (ops : List Op), (∀ b, Op.process b ∈ ops → b.ch = N) →
        ∃ used, history (Convolver.process F) Convolver.reset c ops = some used ∧ used.buffers = c.buffers := by
  obtain ⟨b, hb1, hb2, e1, _, _⟩ := internalBlockSize_eq (fuel := 64) (by omega) (requested_le h.blockSize)
  rw [hB] at e1
  obtain rfl := Option.some.inj e1
  have hB' : 2^b ≤ 2^24 := Nat.pow_le_pow_right (by norm_num) (by omega)
  obtain ⟨sch, e2, n0, rest', rfl, hn0, hg, _⟩ := getPartitionScheme_good (B := 2^b) (by positivity) hB' h.nonempty h.size
  rw [hsch] at e2
  have e2 := Option.some.inj e2
  rw [List.cons.injEq] at e2
  obtain ⟨rfl, rfl⟩ := e2
  obtain ⟨c, e, hp⟩ := C50_convolver_passes hF h g r0
  refine ⟨c, e, create_sum h.nonempty h.size (by omega) e hB hsch hg, fun ops hops => ?_⟩
  obtain ⟨used, _, e3, _⟩ := hp ops ⟨N, 0, fun _ _ => 0⟩ hops rfl
  exact ⟨used, e3, history_mem ops e3⟩

/-- **C89.** The memory is linear in the length of the impulse response: no more than 33 `float`s for each of its samples, and 19 for each sample of a block, whatever the
partition scheme. -/
theorem C89_linear_memory {F : RealFFT} (hF : Lawful F) {ir : Buf} {maxB N : ℕ} {spec : ConvolverSpec} (h : Usable ir maxB spec N) (g : Garbage) (r0 : ℕ → ℕ → ℝ)
    {B : ℕ} (hB : internalBlockSize 64 maxB spec.internalBlockSize = some B) :
    ∃ c, Convolver.create F ir maxB spec g r0 = some c ∧ c.buffers.sum ≤ ir.ch * (33 * ir.n + 19 * B) := by
  obtain ⟨b, hb1, hb2, e1, _, _⟩ := internalBlockSize_eq (fuel := 64) (by omega) (requested_le h.blockSize)
  rw [hB] at e1
  obtain rfl := Option.some.inj e1
  have hB' : 2^b ≤ 2^24 := Nat.pow_le_pow_right (by norm_num) (by omega)
  obtain ⟨sch, e2, n0, rest, rfl, hn0, hg, _⟩ := getPartitionScheme_good (B := 2^b) (by positivity) hB' h.nonempty h.size
  obtain ⟨c, e, _⟩ := usable_create hF h g r0
  refine ⟨c, e, ?_⟩
  rw [create_sum h.nonempty h.size (by omega) e hB e2 hg]
  exact Nat.mul_le_mul_left _ (floats_le h.nonempty hg)

/-- Three channels, 2048 samples in blocks of 64: 63552 `float`s, a quarter of a megabyte, and the same after calls of various sizes and a `Reset`. -/
example (g : Garbage) : ∃ c, Convolver.create referenceFFT tabledIR 64 tabledSpec g (fun _ _ => 7) = some c ∧ c.buffers.sum = 63552 ∧
    ∃ used, history (Convolver.process referenceFFT) Convolver.reset c [.process ⟨2, 999, fun _ _ => 1⟩, .reset, .process ⟨2, 17, fun _ _ => 1⟩] = some used ∧
      used.buffers = c.buffers := by
  obtain ⟨c, e, k, hh⟩ := C89_fixed_memory referenceFFT_lawful tabledUsable g (fun _ _ => 7) (B := 64) (by decide) tabledScheme
  refine ⟨c, e, k.trans ?_, hh _ ?_⟩
  · show 3 * floatsPerChannel 64 2048 ⟨1, 9⟩ [⟨4, 6⟩] = 63552
    decide
  · intro b hb
    simp only [List.mem_cons, Op.process.injEq, List.not_mem_nil, or_false, reduceCtorEq, false_or] at hb
    rcases hb with rfl | rfl <;> rfl

end Zones.Props
