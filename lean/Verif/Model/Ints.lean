import Verif.Model.Partitioning

/-!
# The `int` arithmetic of the construction, operation by operation

The other models use unbounded numbers. This file follows the same functions once more, with every C++ `int` operation in
the order of the code passed through a function `ck`: `int32` is the machine (`none` is signed overflow, or a conversion
of a float that does not fit, both undefined), and `some` is unbounded arithmetic. Sizes that come from `size_t` or
`uint32` by `static_cast<int>` are arguments. Loop counters and indices inside loops are below the sizes computed here.
-/

namespace Zones.Model

/-- A C++ `int` of 32 bits: undefined outside its range.
(the members and variables of Partitioning.h:10-11, Partitioning.cpp:50-98, TimeDistributedNUPC.cpp:8-43). -/
def int32 (x : ℤ) : Option ℤ := if -2^31 ≤ x ∧ x < 2^31 then some x else none

namespace Ints

/-- `GetSubConvolverSizeSamples` (util/Partitioning.h:13-16). -/
def samples (ck : ℤ → Option ℤ) (l : Layout) (blockSize : ℤ) : Option ℤ := do
  let a ← ck (l.psb * l.np)
  ck (a * blockSize)

/-- `GetNumPartitionsRequiredForSegment` (util/Partitioning.h:28-32): the conversion to `int`. -/
noncomputable def numPartitions (ck : ℤ → Option ℤ) (partitionSize segmentSize : ℤ) : Option ℤ :=
  ck ⌈fdiv segmentSize partitionSize⌉

/-- The loop of `FindNearestPartitionScheme` (util/Partitioning.cpp:14-30): two differences, two absolute values. -/
def findLoop (ck : ℤ → Option ℤ) (irNumSamples : ℤ) : Scheme → List Scheme → Option Scheme
  | prev, [] => some prev
  | prev, s :: rest =>
    if irNumSamples < s.ir then do
      let a ← ck (irNumSamples - prev.ir)
      let lowerDif ← ck |a|
      let b ← ck (irNumSamples - s.ir)
      let higherDif ← ck |b|
      pure (if higherDif < lowerDif then s else prev)
    else findLoop ck irNumSamples s rest

/-- `FindNearestPartitionScheme` (util/Partitioning.cpp:5-31). -/
def findNearest (ck : ℤ → Option ℤ) (results : List Scheme) (irNumSamples : ℤ) : Option Scheme :=
  match sortSchemes results with
  | [] => none
  | s :: rest => findLoop ck irNumSamples s rest

/-- `ExtendSchemeToFitIR` (util/Partitioning.cpp:39-48). -/
noncomputable def extend (ck : ℤ → Option ℤ) (layout : List Layout) (sampleDifference blockSize : ℤ) :
    Option (List Layout) :=
  match layout.getLast? with
  | none => none
  | some last => do
    let lastSize ← ck (blockSize * last.psb)
    if lastSize = 0 then none else
    let k ← ck ⌈fdiv sampleDifference lastSize⌉
    let np ← ck (last.np + k)
    pure (layout.dropLast ++ [{ last with np := np.toNat }])

/-- `ReduceSchemeToFitIR` (util/Partitioning.cpp:50-72) on the reversed layout. A negative partition count, which
`Layout` cannot hold, is undefined here (it is never reached). -/
noncomputable def reduceRev (ck : ℤ → Option ℤ) : List Layout → ℤ → ℤ → Option (List Layout)
  | [], _, _ => none
  | last :: front, sampleDifference, blockSize => do
    let remaining ← ck |sampleDifference|
    let n ← samples ck last blockSize
    if n > remaining then
      let lastSize ← ck (blockSize * last.psb)
      let k ← ck ⌊fdiv remaining lastSize⌋
      let np ← ck (last.np - k)
      if 0 ≤ np then pure ({ last with np := np.toNat } :: front) else none
    else
      let d ← ck (remaining - n)
      reduceRev ck front d blockSize

/-- `layout.front ().num_partitions += 1` (util/Partitioning.cpp:96). -/
def bump (ck : ℤ → Option ℤ) : List Layout → Option (List Layout)
  | [] => none
  | l :: rest => do
    let np ← ck (l.np + 1)
    pure ({ l with np := np.toNat } :: rest)

/-- `GetPartitionScheme` (util/Partitioning.cpp:74-98). -/
noncomputable def scheme (ck : ℤ → Option ℤ) (garcia : List (ℕ × List Scheme)) (blockSize irNumSamples : ℕ) :
    Option (List Layout) :=
  match garcia.lookup blockSize with
  | none => if blockSize = 0 then none else do
      let n ← ck ⌈fdiv irNumSamples blockSize⌉
      pure [⟨1, n.toNat⟩]
  | some results => do
    let nearest ← findNearest ck results irNumSamples
    let d ← ck (irNumSamples - nearest.ir)
    let layout ←
      (if d > 0 then extend ck nearest.layout d blockSize
       else (reduceRev ck nearest.layout.reverse d blockSize).map List.reverse)
    bump ck layout

/-- The loop over the filter partitions of a segment: offset and length of each
(UniformPartitionedConvolver.cpp:24-28 and TimeDistributedUPCMulti.cpp:41-45). -/
def cuts (ck : ℤ → Option ℤ) (partitionSize segmentSize : ℤ) : ℕ → Option (List (ℤ × ℤ))
  | 0 => some []
  | i + 1 => do
    let tl ← cuts ck partitionSize segmentSize i
    let off ← ck (i * partitionSize)
    let d ← ck (segmentSize - off)
    pure (tl ++ [(off, min partitionSize d)])

/-- The sizes the uniform convolver computes: FFT size, number of samples to discard, filter partitions.
(UniformPartitionedConvolver.cpp:13-21). -/
structure UniformSizes where
  fftSize : ℤ
  discard : ℤ
  parts : List (ℤ × ℤ)

/-- `UniformPartitionedConvolver::UniformPartitionedConvolver` (UniformPartitionedConvolver.cpp:9-28);
`juce::nextPowerOfTwo` is computed on `int`. -/
noncomputable def uniform (ck : ℤ → Option ℤ) (partitionSize irNumSamples : ℤ) : Option UniformSizes := do
  let a ← ck (partitionSize * 2)
  let fftSize ← ck (2 ^ Nat.clog 2 a.toNat)
  let discard ← ck (fftSize - partitionSize)
  let n ← numPartitions ck partitionSize irNumSamples
  let parts ← cuts ck partitionSize irNumSamples n.toNat
  pure ⟨fftSize, discard, parts⟩

/-- The sizes of a time distributed sub convolver: start and length of its part of the impulse response, partition size,
FFT size, filter partitions, delay (TimeDistributedNUPC.cpp:28-37, TimeDistributedUPCMulti.cpp:36-39). -/
structure SubSizes where
  start : ℤ
  length : ℤ
  partitionSize : ℤ
  fftSize : ℤ
  parts : List (ℤ × ℤ)
  delay : ℤ

/-- One iteration of the loop over the sub convolvers (TimeDistributedNUPC.cpp:28-35, with
TimeDistributedUPCMulti.cpp:36-45), and the rest of the loop with the new `offset` (line 37). -/
noncomputable def subs (ck : ℤ → Option ℤ) (blockSize irNumSamples : ℤ) : ℤ → List Layout → Option (List SubSizes)
  | _, [] => some []
  | offset, l :: rest => do
    let size ← samples ck l blockSize
    let left ← ck (irNumSamples - offset)
    let partitionSize ← ck (l.psb * blockSize)
    let fftSize ← ck (2 * partitionSize)
    let n ← numPartitions ck partitionSize (min size left)
    let parts ← cuts ck partitionSize (min size left) n.toNat
    let twice ← ck (2 * partitionSize)
    let d ← ck (offset - twice)
    let delay ← ck (d + blockSize)
    let offset' ← ck (offset + size)
    let tl ← subs ck blockSize irNumSamples offset' rest
    pure (⟨offset, min size left, partitionSize, fftSize, parts, delay⟩ :: tl)

/-- All sizes computed by `TimeDistributedNUPC::TimeDistributedNUPC` (TimeDistributedNUPC.cpp:5-48). -/
noncomputable def construct (ck : ℤ → Option ℤ) (blockSize irNumSamples : ℕ) : Option (UniformSizes × List SubSizes) := do
  let layouts ← scheme ck kGarciaResults blockSize irNumSamples
  match layouts with
  | [] => none
  | front :: rest =>
    let a ← samples ck front blockSize
    let offset := min a (irNumSamples : ℤ)
    let u ← uniform ck blockSize offset
    let s ← subs ck blockSize irNumSamples offset rest
    pure (u, s)

end Ints

end Zones.Model
