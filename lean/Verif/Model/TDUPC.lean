import Verif.Model.Buffers

/-!
# Model of `TimeDistributedUPC` (time_distributed/TimeDistributedUPC.{h,cpp})

`none` marks undefined behaviour (an index outside a vector, a modulus by zero) or a failed assertion.
C++ `int`s are natural numbers, `float`s real numbers. Raw pointers into a stage buffer
(`GetWritePointer (0)`) are the contents of channel 0, written back after each step.
-/

namespace Zones.Model

/-- Members of `TimeDistributedUPC` (TimeDistributedUPC.h:23-36). The referenced vector `filter_partitions_` is
`filters` on the indices `0 .. numFilters - 1`. -/
structure TDUPC where
  partSize : ℕ
  fftPoints : ℕ
  numPhases : ℕ
  phase : ℕ
  nd : ℕ
  numPartitions : ℕ
  transformOffset : ℕ
  numFilters : ℕ
  filters : ℕ → CBuf
  filterChannel : ℕ
  fdl : FDL
  stages : Stages
  tail : Buf

namespace TDUPC

/-- `TimeDistributedUPC::Reset` (TimeDistributedUPC.cpp:120-125). `phase_` and the heads stay. -/
noncomputable def reset (s : TDUPC) : TDUPC :=
  { s with fdl := s.fdl.clear, tail := s.tail.clear, stages := s.stages.clear }

/-- Constructor (TimeDistributedUPC.cpp:7-31); `tail0` is the uninitialised content of `previous_tail_`,
overwritten by the `Reset` at its end. -/
noncomputable def create (blockSize partitionSizeBlocks numFilters : ℕ) (filters : ℕ → CBuf)
    (filterChannel transformOffset nd : ℕ) (tail0 : ℕ → ℕ → ℝ) : TDUPC :=
  let partSize := blockSize * partitionSizeBlocks
  let fftPoints := 2 * partSize
  reset
    { partSize := partSize, fftPoints := fftPoints, numPhases := partitionSizeBlocks, phase := 0, nd := nd,
      numPartitions := numFilters, transformOffset := transformOffset,
      numFilters := numFilters, filters := filters, filterChannel := filterChannel,
      fdl := FDL.mk0 1 numFilters fftPoints,
      stages := Stages.mk0 fftPoints,
      tail := ⟨1, partSize, tail0⟩ }

/-- The start of a window (TimeDistributedUPC.cpp:35-42). -/
noncomputable def begin (s : TDUPC) : Option TDUPC :=
  if s.phase = 0 then do
    let st := s.stages.promote
    let st := st.set 0 (st.get 0).clear
    let f ← s.fdl.getNext
    let b ← f.getOffset 0
    pure { s with stages := st, fdl := f.setOffset 0 b.clear }
  else some s

/-- "Fill input buffer" (TimeDistributedUPC.cpp:47-51): write `bs` samples into stage A. -/
noncomputable def fill (s : TDUPC) (bs : ℕ) (inp : ℕ → ℝ) : Option TDUPC := do
  let a := s.stages.get 0
  let d ← a.pointer 0
  if s.phase * bs + bs ≤ a.np then
    pure { s with stages := s.stages.set 0 (a.setChannel 0 fun i =>
      if s.phase * bs ≤ i ∧ i < s.phase * bs + bs then ((inp (i - s.phase * bs) : ℝ) : ℂ) else d i) }
  else none

/-- The forward schedule on stage A (TimeDistributedUPC.cpp:53-54). -/
noncomputable def forward (s : TDUPC) : Option TDUPC := do
  let a := s.stages.get 0
  let d ← a.pointer 0
  let d ← forwardSchedule a.np s.nd s.fftPoints s.numPhases d s.phase
  pure { s with stages := s.stages.set 0 (a.setChannel 0 d) }

/-- Even working phase (TimeDistributedUPC.cpp:68-79): transform one piece of stage B, move it to the
newest block of the frequency delay line and zero it in stage B. -/
noncomputable def subForward (s : TDUPC) (offset subSize : ℕ) : Option TDUPC := do
  let b := s.stages.get 1
  let d ← b.pointer 0
  let d ← forwardFFTUnordered b.np offset subSize d
  let f ← s.fdl.getOffset 0
  let fd ← f.pointer 0
  if offset + subSize ≤ f.np ∧ offset + subSize ≤ b.np then
    pure { s with
      fdl := s.fdl.setOffset 0 (f.setChannel 0 fun i =>
        if offset ≤ i ∧ i < offset + subSize then d i else fd i)
      stages := s.stages.set 1 (b.setChannel 0 fun i =>
        if offset ≤ i ∧ i < offset + subSize then 0 else d i) }
  else none

/-- One iteration of the accumulation loop (TimeDistributedUPC.cpp:83-91): `num_points` products are added to
stage B from `offset` on. -/
noncomputable def accumulateOne (s : TDUPC) (offset half : ℕ) (d : ℕ → ℂ) (i : ℕ) : Option (ℕ → ℂ) := do
  let f ← s.fdl.getOffset i
  let fd ← f.pointer 0
  if i < s.numFilters then
    let h ← (s.filters i).pointer s.filterChannel
    if offset + half ≤ f.np ∧ offset + half ≤ (s.filters i).np ∧ offset + half ≤ (s.stages.get 1).np then
      pure fun j => if offset ≤ j ∧ j < offset + half then d j + fd j * h j else d j
    else none
  else none

/-- The accumulation loop (TimeDistributedUPC.cpp:81-92). -/
noncomputable def accumulate (s : TDUPC) (offset half : ℕ) : Option TDUPC := do
  let b := s.stages.get 1
  let d ← b.pointer 0
  let d ← (List.range s.numPartitions).foldlM (s.accumulateOne offset half) d
  pure { s with stages := s.stages.set 1 (b.setChannel 0 d) }

/-- Odd working phase (TimeDistributedUPC.cpp:94-98): inverse transform of the finished piece. -/
noncomputable def subInverse (s : TDUPC) (workingPhase subSize : ℕ) : Option TDUPC := do
  let b := s.stages.get 1
  let d ← b.pointer 0
  let d ← inverseFFTUnordered b.np (((workingPhase - 1) / 2) * subSize) subSize d
  pure { s with stages := s.stages.set 1 (b.setChannel 0 d) }

/-- Work on stage B (TimeDistributedUPC.cpp:56-99). -/
noncomputable def transform (s : TDUPC) : Option TDUPC :=
  let numFfts := 2 ^ s.nd
  let numActivePhases := numFfts * 2
  let subFftSize := s.fftPoints / numFfts
  let halfSubFftSize := subFftSize / 2
  if s.phase ≥ s.transformOffset ∧ s.phase < s.transformOffset + numActivePhases then do
    let workingPhase := s.phase - s.transformOffset
    let offset := workingPhase * halfSubFftSize
    let s ← (if workingPhase % 2 = 0 then s.subForward offset subFftSize else some s)
    let s ← s.accumulate offset halfSubFftSize
    (if workingPhase % 2 ≠ 0 then s.subInverse workingPhase subFftSize else some s)
  else some s

/-- The inverse schedule on stage C (TimeDistributedUPC.cpp:101-103). -/
noncomputable def inverse (s : TDUPC) : Option TDUPC := do
  let c := s.stages.get 2
  let d ← c.pointer 0
  let d ← inverseSchedule c.np s.nd s.fftPoints s.numPhases d s.phase
  pure { s with stages := s.stages.set 2 (c.setChannel 0 d) }

/-- "Fill output buffer" (TimeDistributedUPC.cpp:105-115) and the phase update (line 117).
Returns the new state and the `bs` output samples. -/
noncomputable def output (s : TDUPC) (bs : ℕ) : Option (TDUPC × (ℕ → ℝ)) := do
  let c := s.stages.get 2
  let d ← c.pointer 0
  let pos := s.phase * bs
  if pos + bs ≤ s.tail.n ∧ pos + bs + s.partSize ≤ c.np ∧ 0 < s.tail.ch ∧ s.numPhases ≠ 0 then
    pure ({ s with
        tail := { s.tail with data := fun ch i =>
          if ch = 0 ∧ pos ≤ i ∧ i < pos + bs then (d (i + s.partSize)).re else s.tail.data ch i }
        phase := (s.phase + 1) % s.numPhases },
      fun i => (d (pos + i)).re + s.tail.data 0 (pos + i))
  else none

/-- `TimeDistributedUPC::Process` (TimeDistributedUPC.cpp:33-118) on a mono block of `bs` samples;
only the values `inp 0 .. inp (bs-1)` are read and only those of the result are meaningful. -/
noncomputable def process (s : TDUPC) (bs : ℕ) (inp : ℕ → ℝ) : Option (TDUPC × (ℕ → ℝ)) := do
  let s ← s.begin
  let s ← s.fill bs inp
  let s ← s.forward
  let s ← s.transform
  let s ← s.inverse
  s.output bs

end TDUPC

end Zones.Model
