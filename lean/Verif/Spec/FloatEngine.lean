import Verif.Model.EngineFloat
import Verif.Spec.FloatFades
import Verif.Spec.Rounding

/-!
# Vocabulary for the engine in floating point
-/

namespace Zones.Spec
open Zones.Model

/-- A convolver for `ir` and `spec` has the internal block size `B` and the partitions `sch`; its transforms have at most `2^L`
points and its stages at most `K` partitions. -/
structure Cut (ir : Buf) (maxB : ℕ) (spec : ConvolverSpec) (L K B : ℕ) (sch : List Layout) : Prop where
  block : internalBlockSize Convolver.po2Fuel maxB spec.internalBlockSize = some B
  scheme : getPartitionScheme kGarciaResults B ir.n = some sch
  sizes : ∀ l ∈ sch, 2 * (l.psb * B) ≤ 2 ^ L ∧ l.np ≤ K

variable [Arith]

/-- A convolver for `ir` and `spec` in its initial state: just created, or just reset after any use. -/
def FreshR (F : RealFFT) (ir : Buf) (maxB : ℕ) (spec : ConvolverSpec) (N : ℕ) (c : Convolver) : Prop :=
  ∃ g r0 c0, Convolver.createR F ir maxB spec g r0 = some c0 ∧
    (c = c0 ∨ ∃ (ops : List Op) (s : Convolver), (∀ b, Op.process b ∈ ops → b.ch = N) ∧
      history (Convolver.processR F) Convolver.reset c0 ops = some s ∧ c = s.reset)

/-- A convolver for `ir` and `spec` that has processed the blocks `past` since it was created or reset. -/
def HeardR (F : RealFFT) (ir : Buf) (maxB : ℕ) (spec : ConvolverSpec) (N : ℕ) (past : List Buf) (v : Convolver) : Prop :=
  (∀ b ∈ past, b.ch = N) ∧ ∃ c outs, FreshR F ir maxB spec N c ∧ feed (Convolver.processR F) c past = some (v, outs)

/-- The error bound of C71 for output `o` at sample `n` of the input `x` is `e`: `e` is the bound for some levels `X` that the inputs
of the IR channels routed to `o` keep around sample `n`. -/
def ErrorBound (u τ ε : ℝ) (L K B : ℕ) (sch : List Layout) (ir : Buf) (spec : ConvolverSpec) (x : ℕ → ℕ → ℝ) (o n : ℕ) (e : ℝ) : Prop :=
  ∃ X : ℕ → ℝ, (∀ c < ir.ch, channelAt spec.outputRouting c = o →
      LevelAround (x (channelAt spec.inputRouting c)) (ir.n + 2 ^ L + B) B n (X c)) ∧
    e = errorFactor u τ ε L K sch.length ir.ch * outputWeight B ir sch spec.outputRouting X o

end Zones.Spec
