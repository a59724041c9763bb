import Verif.Model.PartitionTables
import Mathlib.Data.Int.Log
import Mathlib.Algebra.Order.Floor.Ring
import Mathlib.Data.Rat.Floor
import Mathlib.Data.List.Sort

/-!
# Model of util/Partitioning.{h,cpp}

The length arithmetic of the code goes through single precision floats. `f32` is IEEE 754 binary32 rounding to
nearest, ties to even, without the exponent range (all values here are between `2^-31` and `2^31`, far from
overflow and from subnormals). C++ `int`s are unbounded here.
-/

namespace Zones.Model

/-- Nearest integer, ties to even. Part of the conversions to `float` in Partitioning.h:31 and Partitioning.cpp. -/
def roundEven (x : ℚ) : ℤ :=
  let f := ⌊x⌋
  if x - f < 1/2 then f else if 1/2 < x - f then f + 1 else if f % 2 = 0 then f else f + 1

/-- Rounding of a real value to a 24 bit significand (C++ `float`, IEEE 754 binary32).
(Partitioning.h:31; ConvolutionEngine.cpp:114, 142-151). -/
noncomputable def f32 (x : ℚ) : ℚ :=
  if x = 0 then 0 else
    let u : ℚ := (2:ℚ) ^ (Int.log 2 |x| - 23)
    roundEven (x / u) * u

/-- `static_cast<float> (a) / static_cast<float> (b)` (Partitioning.h:31, Partitioning.cpp:32-98). -/
noncomputable def fdiv (a b : ℤ) : ℚ := f32 (f32 a / f32 b)

/-- `GetNumPartitionsRequiredForSegment` (util/Partitioning.h:28-32). -/
noncomputable def numPartitionsFor (partitionSize segmentSize : ℕ) : ℕ :=
  ⌈fdiv segmentSize partitionSize⌉.toNat

namespace Layout

/-- `GetSubConvolverSizeSamples` (util/Partitioning.h:13-16). -/
def samples (l : Layout) (blockSize : ℕ) : ℕ := l.psb * l.np * blockSize

end Layout

/-- The loop of `FindNearestPartitionScheme` (util/Partitioning.cpp:14-30) over the schemes after the first
one; `prev` is `sorted_results.at (scheme_index - 1)`. -/
def findLoop (irNumSamples : ℕ) : Scheme → List Scheme → Scheme
  | prev, [] => prev
  | prev, s :: rest =>
    if irNumSamples < s.ir then
      let lowerDif := ((irNumSamples : ℤ) - prev.ir).natAbs
      let higherDif := ((irNumSamples : ℤ) - s.ir).natAbs
      if higherDif < lowerDif then s else prev
    else findLoop irNumSamples s rest

/-- `FindNearestPartitionScheme` (util/Partitioning.cpp:5-31) after the sort; `back ()` of an empty vector is
undefined. -/
def findInSorted (irNumSamples : ℕ) : List Scheme → Option Scheme
  | [] => none
  | s :: rest => some (findLoop irNumSamples s rest)

/-- `std::sort` by design length (util/Partitioning.cpp:8-12). -/
def sortSchemes (results : List Scheme) : List Scheme :=
  results.insertionSort fun a b => a.ir ≤ b.ir

/-- `FindNearestPartitionScheme` (util/Partitioning.cpp:5-31). -/
def findNearest (results : List Scheme) (irNumSamples : ℕ) : Option Scheme :=
  findInSorted irNumSamples (sortSchemes results)

/-- `ExtendSchemeToFitIR` (util/Partitioning.cpp:39-48) on the layout; `back ()` of an empty layout undefined. -/
noncomputable def extendLayout (layout : List Layout) (sampleDifference blockSize : ℕ) :
    Option (List Layout) :=
  match layout.getLast? with
  | none => none
  | some last =>
    let lastSize := blockSize * last.psb
    if lastSize = 0 then none else
    some (layout.dropLast ++ [{ last with np := last.np + ⌈fdiv sampleDifference lastSize⌉.toNat }])

/-- `ReduceSchemeToFitIR` (util/Partitioning.cpp:50-72) on the reversed layout (last sub convolver first). The
argument is the absolute value of `sample_difference`; the recursive call (lines 69-70) passes a non-negative
difference. A partition count below zero is reported as undefined. -/
noncomputable def reduceRev : List Layout → ℕ → ℕ → Option (List Layout)
  | [], _, _ => none
  | last :: front, remaining, blockSize =>
    if last.samples blockSize > remaining then
      let lastSize := blockSize * last.psb
      let remove := ⌊fdiv remaining lastSize⌋.toNat
      if remove ≤ last.np then some ({ last with np := last.np - remove } :: front) else none
    else reduceRev front (remaining - last.samples blockSize) blockSize

/-- `nearest_scheme.layout.front ().num_partitions += 1` (util/Partitioning.cpp:96). -/
def bumpFront : List Layout → Option (List Layout)
  | [] => none
  | l :: rest => some ({ l with np := l.np + 1 } :: rest)

/-- `GetPartitionScheme` (util/Partitioning.cpp:74-98); the table is looked up by block size.
A zero block size divides by zero. -/
noncomputable def getPartitionScheme (garcia : List (ℕ × List Scheme)) (blockSize irNumSamples : ℕ) :
    Option (List Layout) :=
  match garcia.lookup blockSize with
  | none => if blockSize = 0 then none else some [⟨1, ⌈fdiv irNumSamples blockSize⌉.toNat⟩]
  | some results => do
    let nearest ← findNearest results irNumSamples
    let layout ←
      (if nearest.ir < irNumSamples then extendLayout nearest.layout (irNumSamples - nearest.ir) blockSize
       else (reduceRev nearest.layout.reverse (nearest.ir - irNumSamples) blockSize).map List.reverse)
    bumpFront layout

end Zones.Model
