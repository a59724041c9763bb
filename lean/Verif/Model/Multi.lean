import Verif.Model.TDUPC
import Verif.Model.Partitioning

/-!
# Model of `TimeDistributedUPCMulti` (time_distributed/TimeDistributedUPCMulti.{h,cpp})

Conventions as in `Verif.Model.TDUPC`. A `std::vector` filled by `emplace_back` in a loop and then only read is
a function on its indices together with its length.
-/

namespace Zones.Model

/-- `LargestPowerOf2In` (TimeDistributedUPCMulti.cpp:5-11); `std::floor (std::log2 (n))` is `Nat.log 2`. -/
def largestPowerOf2In (n : ℕ) : ℕ := if n ≤ 0 then 0 else 2 ^ Nat.log 2 n

/-- `GetPowersOf2In` (TimeDistributedUPCMulti.cpp:13-26): the loop, `n` decreasing. -/
def getPowersOf2In (n : ℕ) : List ℕ :=
  if _h : n > 0 then
    largestPowerOf2In n :: getPowersOf2In (n - largestPowerOf2In n)
  else []
termination_by n
decreasing_by
  have : 0 < largestPowerOf2In n := by
    unfold largestPowerOf2In; rw [if_neg (by omega)]; positivity
  omega

/-- The constructor arguments that differ between the channels (TimeDistributedUPCMulti.cpp:68-73). -/
structure ChannelPlan where
  filterChannel : ℕ
  transformOffset : ℕ
  nd : ℕ

/-- `num_decompositions` of a group (TimeDistributedUPCMulti.cpp:60-62). Both logarithms are of powers of two
in every use; in general the truncation of a difference with an integer is `Nat.log` minus that integer,
or not positive. -/
def numDecompositions (partitionSizeBlocks powerOf2 : ℕ) : ℕ :=
  ((Nat.log 2 (partitionSizeBlocks / 2) : ℤ) - (Nat.log 2 powerOf2 : ℤ)).toNat

/-- The loop over one group (TimeDistributedUPCMulti.cpp:60-74). -/
def groupPlans (partitionSizeBlocks irNumChannels powerOf2 channelOffset : ℕ) : List ChannelPlan :=
  let nd := numDecompositions partitionSizeBlocks powerOf2
  let channelPhaseSize := 2 ^ (nd + 1)
  (List.range powerOf2).map fun channelIndex =>
    { filterChannel := (channelIndex + channelOffset) % irNumChannels
      transformOffset := (channelIndex * channelPhaseSize) % partitionSizeBlocks
      nd := nd }

/-- The loop over the groups (TimeDistributedUPCMulti.cpp:57-77). -/
def plansFrom (partitionSizeBlocks irNumChannels : ℕ) : ℕ → List ℕ → List ChannelPlan
  | _, [] => []
  | channelOffset, powerOf2 :: rest =>
    groupPlans partitionSizeBlocks irNumChannels powerOf2 channelOffset ++
      plansFrom partitionSizeBlocks irNumChannels (channelOffset + powerOf2) rest

/-- All channels (TimeDistributedUPCMulti.cpp:57-77). -/
def channelPlans (partitionSizeBlocks irNumChannels numChannels : ℕ) : List ChannelPlan :=
  plansFrom partitionSizeBlocks irNumChannels 0 (getPowersOf2In numChannels)

/-- A loop `for i in 0 .. n-1` that appends `f i` to a vector; an undefined `f i` makes the loop undefined.
(UniformPartitionedConvolver.cpp:25-44, TimeDistributedUPCMulti.cpp:41-55). -/
def buildVec {α : Type} (dflt : α) (f : ℕ → Option α) : ℕ → Option (ℕ → α)
  | 0 => some fun _ => dflt
  | n + 1 => do
    let v ← buildVec dflt f n
    let a ← f n
    pure (Function.update v n a)

/-- Forward transform of one channel of a filter partition (TimeDistributedUPCMulti.cpp:52). -/
noncomputable def fftChannel (fftNumPoints : ℕ) (b : CBuf) (c : ℕ) : Option CBuf := do
  let d ← b.pointer c
  let d ← forwardFFTUnordered b.np 0 fftNumPoints d
  pure (b.setChannel c d)

/-- One filter partition (TimeDistributedUPCMulti.cpp:43-52). -/
noncomputable def multiFilter (partitionSize : ℕ) (irSegment : Buf) (partitionIndex : ℕ) : Option CBuf := do
  let fftNumPoints := 2 * partitionSize
  let filterSize := irSegment.n
  let offset := partitionIndex * partitionSize
  let blk ← irSegment.sub offset (min partitionSize (filterSize - offset))
  let fp := (CBuf.mk0 fftNumPoints irSegment.ch).clear
  let fp ← fp.copyFromAudioBlock blk
  (List.range irSegment.ch).foldlM (fftChannel fftNumPoints) fp

/-- `TimeDistributedUPCMulti` (TimeDistributedUPCMulti.h:16-18): `tdupcs_` and its length. -/
structure Multi where
  num : ℕ
  td : ℕ → TDUPC

namespace Multi

/-- Constructor (TimeDistributedUPCMulti.cpp:28-78). `tail0 c` is the uninitialised memory of channel `c`.
`std::log2 (partition_size_blocks / 2)` is minus infinity for one block partitions: undefined conversion to
`int`. `% ir_num_channels` and `% partition_size_blocks` need non-zero moduli; a zero partition size
divides by zero. -/
noncomputable def create (blockSize numChannels partitionSizeBlocks : ℕ) (irSegment : Buf)
    (tail0 : ℕ → ℕ → ℕ → ℝ) : Option Multi := do
  let partitionSize := partitionSizeBlocks * blockSize
  if partitionSize = 0 then none else
  let numPartitions := numPartitionsFor partitionSize irSegment.n
  let filters ← buildVec (CBuf.mk0 0 0) (multiFilter partitionSize irSegment) numPartitions
  if numChannels ≠ 0 ∧ (partitionSizeBlocks / 2 = 0 ∨ irSegment.ch = 0) then none else
  let plans := channelPlans partitionSizeBlocks irSegment.ch numChannels
  pure
    { num := plans.length
      td := fun c =>
        let pl := plans.getD c ⟨0, 0, 0⟩
        TDUPC.create blockSize partitionSizeBlocks numPartitions filters pl.filterChannel
          pl.transformOffset pl.nd (tail0 c) }

/-- One iteration of `Process` (TimeDistributedUPCMulti.cpp:87-89). -/
noncomputable def processChannel (st : Multi × Buf) (c : ℕ) : Option (Multi × Buf) := do
  let blk ← st.2.single c
  if c < st.1.num then
    let r ← (st.1.td c).process st.2.n (blk.data 0)
    pure ({ st.1 with td := Function.update st.1.td c r.1 }, st.2.putChannel c r.2)
  else none

/-- `Process` (TimeDistributedUPCMulti.cpp:80-91). -/
noncomputable def process (m : Multi) (block : Buf) : Option (Multi × Buf) :=
  (List.range block.ch).foldlM processChannel (m, block)

/-- `Reset` (TimeDistributedUPCMulti.cpp:93-97). -/
noncomputable def reset (m : Multi) : Multi :=
  { m with td := fun c => if c < m.num then (m.td c).reset else m.td c }

end Multi

end Zones.Model
