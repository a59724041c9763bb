import Verif.Model.PartitionTables

/-!
# Partition schemes, as a user of the partition tables sees them

A scheme is a list of parts; a part `⟨psb, np⟩` is `np` partitions of `psb` blocks (`partition_size_blocks`,
`num_partitions` of a row of the tables). The first part, `⟨1, n0⟩`, is handled by the uniform convolver, the others by
one time-distributed convolver each. Only the data type `Layout` is taken from the model.
-/

namespace Zones.Spec
open Zones.Model

/-- The parts, each with the sample of the impulse response at which it starts, when the first starts at `off` and a
block has `B` samples. -/
def withStarts (B : ℕ) : ℕ → List Layout → List (ℕ × Layout)
  | _, [] => []
  | off, l :: rest => (off, l) :: withStarts B (off + l.psb * l.np * B) rest

/-- Number of samples of a list of parts. -/
def partSamples (B : ℕ) (parts : List Layout) : ℕ := (parts.map fun l => l.psb * l.np * B).sum

/-- A scheme `⟨1, n0⟩ :: rest` that makes sense for an impulse response of `L` samples: the partitions after the first
part have `2, 4, 8, …` blocks, every part has partitions and starts inside the impulse response, all of them together
reach its end, each starts at least two of its partitions into the impulse response, and how much more than that
never decreases. (The sizes are bounded so that they are exact in `float`.) -/
structure UsableScheme (B L n0 : ℕ) (rest : List Layout) : Prop where
  first : 0 < n0
  power : ∀ l ∈ rest, ∃ p, 1 ≤ p ∧ l.psb = 2 ^ p
  parts : ∀ l ∈ rest, 0 < l.np
  small : ∀ l ∈ rest, l.psb * B ≤ 2^24
  inside : ∀ q ∈ withStarts B (n0 * B) rest, q.1 < L
  covers : L ≤ n0 * B + partSamples B rest
  twoPartitions : ∀ q ∈ withStarts B (n0 * B) rest, 2 * (q.2.psb * B) ≤ q.1
  inOrder : (withStarts B (n0 * B) rest).Pairwise fun q q' => q.1 - 2 * (q.2.psb * B) ≤ q'.1 - 2 * (q'.2.psb * B)

/-- Every part after the first starts at least two of its partitions *and one block* into the impulse response. -/
def Clear (B n0 : ℕ) (rest : List Layout) : Prop := ∀ q ∈ withStarts B (n0 * B) rest, 2 * (q.2.psb * B) + B ≤ q.1

end Zones.Spec
