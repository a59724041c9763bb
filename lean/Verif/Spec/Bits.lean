import Verif.Model.Arith
import Verif.Spec.Stream
import Verif.Spec.Rounding

/-!
# Vocabulary for results that agree bit for bit
-/

namespace Zones.Spec

open Zones.Model

/-- The transforms of order `k` work in place on an array of `2 * 2^k` floats: what they leave there depends on nothing else. -/
structure InPlace (F : RealFFT) : Prop where
  fwd : ∀ k (d d' : ℕ → ℝ), (∀ i < 2 * 2 ^ k, d i = d' i) → ∀ i < 2 * 2 ^ k, F.fwd k d i = F.fwd k d' i
  inv : ∀ k (d d' : ℕ → ℝ), (∀ i < 2 * 2 ^ k, d i = d' i) → ∀ i < 2 * 2 ^ k, F.inv k d i = F.inv k d' i

/-- The transforms of order `k` are real transforms of `2^k` points: the bins `0 .. 2^(k-1)` of the forward transform depend on
nothing but the first `2^k` floats of the array, and the `2^k` samples of the inverse transform on nothing but those bins.  What
else the library leaves in the array or reads of it is not used. -/
structure HalfSpectrum (F : RealFFT) : Prop where
  fwd : ∀ k (d d' : ℕ → ℝ), (∀ i < 2 ^ k, d i = d' i) → ∀ i ≤ 2 ^ k / 2, bin (F.fwd k d) i = bin (F.fwd k d') i
  inv : ∀ k (d d' : ℕ → ℝ), (∀ i ≤ 2 ^ k / 2, bin d i = bin d' i) → ∀ i < 2 ^ k, F.inv k d i = F.inv k d' i

/-- The entries `0 .. n-1` of a routing vector that name channel `o`, in increasing order. -/
def channelsTo (r : List ℤ) (n o : ℕ) : List ℕ := (List.range n).filter fun c => channelAt r c = o

/-- Two blocks of the same length that hold the same samples in the paired channels `ps`. -/
def AgreeOn (ps : List (ℕ × ℕ)) (b b' : Buf) : Prop :=
  b.n = b'.n ∧ ∀ p ∈ ps, ∀ i < b.n, b.data p.1 i = b'.data p.2 i

/-- Two operations of the same kind, on blocks that agree on the paired channels `ps`. -/
inductive AgreeOp (ps : List (ℕ × ℕ)) : Op → Op → Prop
  | process {b b' : Buf} (h : AgreeOn ps b b') : AgreeOp ps (.process b) (.process b')
  | reset : AgreeOp ps .reset .reset

/-- Two operations of the same kind, on blocks of the same shape; what the blocks contain does not matter. -/
inductive SameCall : Op → Op → Prop
  | process {b b' : Buf} (h : b.ch = b'.ch ∧ b.n = b'.n) : SameCall (.process b) (.process b')
  | reset : SameCall .reset .reset

/-- Arithmetic on zeros is exact: adding, subtracting and halving zeros gives zero, and so does zero times anything.  Nothing else
is said about what the operations return. -/
structure ExactOnZeros [Arith] : Prop where
  addF : Arith.addF 0 0 = 0
  add : Arith.add 0 0 = 0
  sub : Arith.sub 0 0 = 0
  mul : ∀ z, Arith.mul 0 z = 0
  half : Arith.half 0 = 0

end Zones.Spec
