import Mathlib.Analysis.SpecialFunctions.Log.Base

/-! # Specification of partitionings of an impulse response and their cost

A partitioning is the list of the sizes, in blocks, of the partitions an impulse response is cut into, from its beginning on. -/

namespace Zones.Spec

/-- Partition sizes are powers of two that never decrease, the first partition is one block long, and a partition of `b` blocks
that begins at block `o > 0` has `2 b ≤ o + 1`: collecting `b` blocks of input and working on them for another `b - 1` blocks
is finished in time. -/
structure Viable (bs : List ℕ) : Prop where
  first : bs.head? = some 1
  powers : ∀ b ∈ bs, ∃ j, b = 2 ^ j
  ascending : bs.Pairwise (· ≤ ·)
  clearance : ∀ pre b post, bs = pre ++ b :: post → pre ≠ [] → 2 * b ≤ pre.sum + 1

/-- The partitions reach the end of `n` blocks, and the last one begins before it. -/
def CoversBlocks (n : ℕ) (bs : List ℕ) : Prop := bs.dropLast.sum < n ∧ n ≤ bs.sum

/-- Cost of a partitioning for a block size of `latency` samples: four for each partition after the first, and
`4 k log2 (2 latency b)` for the transforms of each new size `b` (`k = 1.7`). -/
noncomputable def partitioningCost (latency : ℕ) : List ℕ → ℝ
  | a :: b :: rest =>
    (4 + if a = b then 0 else 4 * (17 / 10) * Real.logb 2 (2 * latency * b)) + partitioningCost latency (b :: rest)
  | _ => 0

/-- `table` lists the distinct partition sizes of `bs` in samples, in increasing order, each with the number of partitions of that size. -/
def Tabulates (latency : ℕ) (bs : List ℕ) (table : List (ℕ × ℕ)) : Prop :=
  (table.map Prod.fst).Pairwise (· < ·) ∧
    ∀ size count, (size, count) ∈ table ↔ ∃ b ∈ bs, size = b * latency ∧ count = bs.count b

end Zones.Spec
