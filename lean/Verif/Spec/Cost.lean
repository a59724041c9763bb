import Verif.Spec.Work
import Verif.Model.Convolver
import Mathlib.Data.Nat.BitIndices

/-!
# What the work of a convolver should amount to

`B` is the block size, `m` the size in blocks of the partitions of a stage, `g` a number of channels that share a schedule, `ph` the position
(counted in blocks) within a window of `m` blocks. The counters are those of `Verif/Model/Cost.lean`.
-/

namespace Zones.Spec
open Zones.Model Finset

/-- The transforms of `g` channels (a power of two) are cut into pieces by this number of levels, so that the pieces of all of them fill a window. -/
def splitDepth (m g : ℕ) : ℕ := Nat.log 2 (m / (2 * g))

/-- Size of a piece, in points; the whole transform has `2 m B` points. -/
def pieceSize (B m g : ℕ) : ℕ := 2 * (m * B) / 2 ^ splitDepth m g

/-- Cutting: level `d` works on `2 ^ d` segments and is spread over the last `m / 2 ^ d` blocks of the window. In butterflies per sample of a block. -/
def cutting (m D ph : ℕ) : ℕ := ∑ d ∈ range D, if m ≤ ph + m / 2 ^ d then 2 ^ d else 0

/-- Joining: the same, over the first `m / 2 ^ d` blocks. -/
def joining (m D ph : ℕ) : ℕ := ∑ d ∈ range D, if ph < m / 2 ^ d then 2 ^ d else 0

/-- Butterflies of `g` channels in block `ph` of a window: transforming pieces back and forth (the same in every block), cutting, and joining. -/
def groupButterflies (B m g ph : ℕ) : ℕ :=
  g * B * (2 * Nat.log 2 (pieceSize B m g) + cutting m (splitDepth m g) ph + joining m (splitDepth m g) ph)

/-- Butterflies of a stage with `nch` channels: the channels are grouped by the binary digits of their number. -/
def stageButterflies (B m nch ph : ℕ) : ℕ := (nch.bitIndices.map fun i => groupButterflies B m (2 ^ i) ph).sum

/-- The most a stage executes in one block: each group's pieces, and as many butterflies per sample for cutting and joining as its transforms have pieces
(none if they are not cut). -/
def stagePeak (B m nch : ℕ) : ℕ :=
  (nch.bitIndices.map fun i => 2 ^ i * B * (2 * Nat.log 2 (pieceSize B m (2 ^ i)) + if splitDepth m (2 ^ i) = 0 then 0 else 2 ^ splitDepth m (2 ^ i))).sum

/-- Products of spectra of a stage with `K` partitions, in every block. -/
def stageProducts (B K nch : ℕ) : ℕ := 2 * K * nch * B

/-- Blocks completed by a sequence of operations, when `t` samples were processed since the last `Reset`, and `j` blocks were completed before. `Reset` discards
an incomplete block. -/
def blocksCompleted (B : ℕ) : ℕ → ℕ → List Op → ℕ
  | _, j, [] => j
  | t, j, .process b :: ops => blocksCompleted B (t + b.n) (j + (t % B + b.n) / B) ops
  | _, j, .reset :: ops => blocksCompleted B 0 j ops

/-- Multiples of `B` among `t, t + 1, ..., t + n - 1`: partitions begun while these samples are processed. -/
def partitionsBegun (B t n : ℕ) : ℕ := ((Finset.range n).filter fun i => B ∣ t + i).card

/-- Passes of the partition loop begun in a call of `n` samples, `t` samples after the last `Reset`: `Convolver` hands the samples on in pieces that end after every
`B` samples of the call, and the partition loop ends a pass at every block boundary. -/
def passesBegun (B t n : ℕ) : ℕ := ((Finset.range n).filter fun i => B ∣ i ∨ B ∣ t + i).card

/-- Partitions of `P` samples needed for `n` samples. -/
def partitionsNeeded (P n : ℕ) : ℕ := (n + P - 1) / P

/-- The stages after the first: partition size in blocks, and number of partitions of that size that hold samples of an impulse response of `L` samples. The first of
the given layouts begins at sample `off`. -/
def stagesOf (B L : ℕ) : ℕ → List Layout → List (ℕ × ℕ)
  | _, [] => []
  | off, l :: rest => (l.psb, partitionsNeeded (l.psb * B) (min (l.psb * l.np * B) (L - off))) :: stagesOf B L (off + l.psb * l.np * B) rest

end Zones.Spec
