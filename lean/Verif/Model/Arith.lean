import Verif.Model.Convolver

/-!
# The signal path with an arbitrary arithmetic of samples

The other model files compute with exact real and complex numbers. Here the functions of the signal path that do
arithmetic on samples are written once more, statement by statement, with every arithmetic operation of the
code replaced by an operation of an `Arith`: whatever `float` and `std::complex<float>` arithmetic, `std::exp` and
`std::pow` return. Everything that only moves data is shared with the exact model. With the exact arithmetic (`Arith.exact`)
each of these functions is the function of the exact model of the same name without the `R`
(`Verif.Proofs.ArithExact`).

Simplifications: values are real numbers (infinities and NaNs can be encoded as large ones, `Verif.Spec.Ieee`); an operation is a function of the values
of its operands (every occurrence in the source rounds the same way; no contraction of `a + b * c` into one operation).
-/

namespace Zones.Model

/-- The arithmetic on samples used by the code. -/
class Arith where
  /-- `float + float` -/
  addF : ℝ → ℝ → ℝ
  /-- `std::complex<float> + std::complex<float>` (also `+=`) -/
  add : ℂ → ℂ → ℂ
  /-- `std::complex<float> - std::complex<float>` -/
  sub : ℂ → ℂ → ℂ
  /-- `std::complex<float> * std::complex<float>` -/
  mul : ℂ → ℂ → ℂ
  /-- `std::complex<float> * 0.5f` -/
  half : ℂ → ℂ
  /-- `std::pow (std::exp (std::complex<float> (0, -twoPi / n)), {e, 0})` (FFT.cpp:12-13,28; FFTDecomposition.cpp:20-21,34) -/
  twF : ℕ → ℕ → ℂ
  /-- `std::pow (std::exp (std::complex<float> (0, twoPi / n)), {e, 0})` (FFT.cpp:41-42,53; FFTDecomposition.cpp:54-55,64) -/
  twI : ℕ → ℕ → ℂ

/-- Arithmetic without rounding: the arithmetic of the other model files.
Stands for the operators of the code (FFT.cpp:25-28, 51-57; FFTDecomposition.cpp:32-34, 63-67; ComplexBuffer.cpp:51-101). -/
@[reducible] noncomputable def Arith.exact : Arith where
  addF a b := a + b
  add a b := a + b
  sub a b := a - b
  mul a b := a * b
  half a := a * (1 / 2)
  twF n e := twiddleFwd n ^ (e : ℂ)
  twI n e := twiddleInv n ^ (e : ℂ)

/-- Arithmetic that rounds the result of every real operation with `r`; complex numbers are added, subtracted and scaled by
component, and multiplied with four real products and two real sums, as `std::complex<float>` does for finite values.
The operators are those of FFT.cpp:25-28, 51-57, FFTDecomposition.cpp:32-34, 63-67 and ComplexBuffer.cpp:51-101. -/
@[reducible] noncomputable def Arith.rounded (r : ℝ → ℝ) (twF twI : ℕ → ℕ → ℂ) : Arith where
  addF a b := r (a + b)
  add a b := ⟨r (a.re + b.re), r (a.im + b.im)⟩
  sub a b := ⟨r (a.re - b.re), r (a.im - b.im)⟩
  mul a b := ⟨r (r (a.re * b.re) - r (a.im * b.im)), r (r (a.re * b.im) + r (a.im * b.re))⟩
  half a := ⟨r (a.re * (1 / 2)), r (a.im * (1 / 2))⟩
  twF := twF
  twI := twI

/-- Rounding to nearest, ties to even, with 24 bit significands: IEEE 754 binary32 with unlimited exponents.
The type of the samples, `float` (ConvolutionEngine.h:160, ComplexBuffer.h:31). -/
noncomputable def round24 (x : ℝ) : ℝ :=
  if x = 0 then 0 else
    let e := (2:ℝ) ^ (Int.log 2 |x| - 23)
    let y := x / e
    let f := ⌊y⌋
    let m : ℤ := if y - f < 1 / 2 then f else if 1 / 2 < y - f then f + 1 else if f % 2 = 0 then f else f + 1
    m * e

variable [Arith]

/-! ## FFT.cpp, FFTDecomposition.cpp, DecompositionSchedule.cpp -/

/-- Body of the forward butterfly loop with twiddle base for `n` points (FFT.cpp:22-28, FFTDecomposition.cpp:29-34). -/
noncomputable def applyFwdR (n : ℕ) (d : ℕ → ℂ) (b : Bfly) : ℕ → ℂ :=
  let point := d b.i
  let d₁ := Function.update d b.i (Arith.add (d b.i) (d b.j))
  Function.update d₁ b.j (Arith.mul (Arith.sub point (d₁ b.j)) (Arith.twF n b.e))

/-- Body of the inverse butterfly loop (FFT.cpp:51-57, FFTDecomposition.cpp:63-67). -/
noncomputable def applyInvR (n : ℕ) (d : ℕ → ℂ) (b : Bfly) : ℕ → ℂ :=
  let bn := Arith.mul (d b.j) (Arith.twI n b.e)
  let d₁ := Function.update d b.j (Arith.half (Arith.sub (d b.i) bn))
  Function.update d₁ b.i (Arith.half (Arith.add (d₁ b.i) bn))

/-- `ForwardFFTUnordered` (FFT.cpp:5-32). -/
noncomputable def forwardFFTUnorderedR (sz base numPoints : ℕ) (d : ℕ → ℂ) : Option (ℕ → ℂ) :=
  if numPoints = 0 then none else
    ((List.range (Nat.log 2 numPoints)).map (· + 1)).reverse.foldlM
      (fun d depth => runLoop (applyFwdR (2 ^ depth)) sz (fftBflies base numPoints depth) d) d

/-- `InverseFFTUnordered` (FFT.cpp:34-61). -/
noncomputable def inverseFFTUnorderedR (sz base numPoints : ℕ) (d : ℕ → ℂ) : Option (ℕ → ℂ) :=
  if numPoints = 0 then none else
    ((List.range (Nat.log 2 numPoints)).map (· + 1)).foldlM
      (fun d depth => runLoop (applyInvR (2 ^ depth)) sz (fftBflies base numPoints depth) d) d

/-- `SegmentedForwardDecompositionRadix2` (FFTDecomposition.cpp:5-37). -/
noncomputable def segmentedForwardR (sz numPoints numSegments numSteps currentStep : ℕ)
    (d : ℕ → ℂ) : Option (ℕ → ℂ) :=
  if decompAsserts numPoints numSegments numSteps currentStep then
    runLoop (applyFwdR (numPoints / numSegments)) sz
      (segBflies numPoints numSegments numSteps currentStep) d
  else none

/-- `SegmentedInverseDecompositionRadix2` (FFTDecomposition.cpp:39-70). -/
noncomputable def segmentedInverseR (sz numPoints numSegments numSteps currentStep : ℕ)
    (d : ℕ → ℂ) : Option (ℕ → ℂ) :=
  if decompAsserts numPoints numSegments numSteps currentStep then
    runLoop (applyInvR (numPoints / numSegments)) sz
      (segBflies numPoints numSegments numSteps currentStep) d
  else none

/-- `ForwardDecompositionSchedule` (DecompositionSchedule.cpp:41-59). -/
noncomputable def forwardScheduleR (sz numDecompositions fftSize numBlocks : ℕ) (d : ℕ → ℂ)
    (phase : ℕ) : Option (ℕ → ℂ) :=
  (List.range numDecompositions).foldlM (fun d level =>
    let numSegments := 2 ^ level
    let numSteps := numBlocks / numSegments
    if phase ≥ numBlocks - numSteps then
      if numSteps = 0 then none
      else segmentedForwardR sz fftSize numSegments numSteps (phase % numSteps) d
    else some d) d

/-- `InverseDecompositionSchedule` (DecompositionSchedule.cpp:61-76). -/
noncomputable def inverseScheduleR (sz numDecompositions fftSize numBlocks : ℕ) (d : ℕ → ℂ)
    (phase : ℕ) : Option (ℕ → ℂ) :=
  (List.range numDecompositions).reverse.foldlM (fun d level =>
    let numSegments := 2 ^ level
    let numSteps := numBlocks / numSegments
    if phase < numSteps then segmentedInverseR sz fftSize numSegments numSteps phase d
    else some d) d

/-! ## Buffers -/

/-- `AudioBlock::add`. Called in Convolver.cpp:86-87 and SplitBlock.cpp:49, 53. -/
noncomputable def Buf.addR (dst src : Buf) : Option Buf :=
  if dst.ch = src.ch then
    some { dst with data := fun c i =>
      if c < dst.ch ∧ i < min dst.n src.n then Arith.addF (dst.data c i) (src.data c i) else dst.data c i }
  else none

/-- `view.add (src)`, as an update of the viewed buffer. Called in SplitBlock.cpp:33, 35. -/
noncomputable def View.addR (v : View) (r : Buf) (src : Buf) : Option Buf :=
  if v.ch = src.ch then
    some { r with data := fun c i =>
        if c < v.ch ∧ v.off ≤ i ∧ i < v.off + min v.len src.n
        then Arith.addF (r.data c i) (src.data c (i - v.off)) else r.data c i }
  else none

/-- `SplitBlock::AddFrom` (SplitBlock.cpp:26-36). -/
noncomputable def SplitBlock.addFromR (s : SplitBlock) (r block : Buf) : Option Buf := do
  let numSamples := block.n
  let firstToCopy := min numSamples s.first.len
  let remaining := numSamples - firstToCopy
  let r ← (if firstToCopy > 0 then
      (block.sub 0 firstToCopy).bind fun sb => s.first.addR r sb
    else some r)
  (if remaining > 0 then
      (block.sub firstToCopy remaining).bind fun sb => s.wrapped.addR r sb
    else some r)

/-- `SplitBlock::AddTo` (SplitBlock.cpp:47-54). -/
noncomputable def SplitBlock.addToR (s : SplitBlock) (r block : Buf) : Option Buf := do
  let block ← block.addR (s.first.read r)
  let firstNum := s.first.len
  (if block.n > firstNum ∧ s.wrapped.len > 0 then
      (block.sub firstNum (block.n - firstNum)).bind fun sb =>
        (sb.addR (s.wrapped.read r)).map fun sb => block.put firstNum sb
    else some block)

/-- `ComplexBuffer::ComplexMultiplyFrom` (ComplexBuffer.cpp:51-58). -/
noncomputable def CBuf.mulFromR (b x y : CBuf) : Option CBuf :=
  if (b.ch = x.ch ∧ x.ch = y.ch) ∧ (b.np = x.np ∧ x.np = y.np) then
    some { b with data := fun i => if i < b.size then Arith.mul (x.data i) (y.data i) else b.data i }
  else none

/-- `ComplexBuffer::AddFrom` (ComplexBuffer.cpp:60-67). -/
noncomputable def CBuf.addFromR (b x : CBuf) : Option CBuf :=
  if b.ch = x.ch ∧ b.np = x.np then
    some { b with data := fun i => if i < b.size then Arith.add (b.data i) (x.data i) else b.data i }
  else none

/-- `ComplexBuffer::ComplexMultiplyAccumulateFrom` (ComplexBuffer.cpp:69-77). -/
noncomputable def CBuf.mulAccFromR (b x y : CBuf) : Option CBuf :=
  if (b.ch = x.ch ∧ x.ch = y.ch) ∧ (b.np = x.np ∧ x.np = y.np) then
    some { b with data := fun i =>
      if i < b.size then Arith.add (b.data i) (Arith.mul (x.data i) (y.data i)) else b.data i }
  else none

/-! ## TimeDistributedUPC -/

namespace TDUPC

/-- The forward schedule on stage A (TimeDistributedUPC.cpp:53-54). -/
noncomputable def forwardR (s : TDUPC) : Option TDUPC := do
  let a := s.stages.get 0
  let d ← a.pointer 0
  let d ← forwardScheduleR a.np s.nd s.fftPoints s.numPhases d s.phase
  pure { s with stages := s.stages.set 0 (a.setChannel 0 d) }

/-- Even working phase (TimeDistributedUPC.cpp:68-79). -/
noncomputable def subForwardR (s : TDUPC) (offset subSize : ℕ) : Option TDUPC := do
  let b := s.stages.get 1
  let d ← b.pointer 0
  let d ← forwardFFTUnorderedR b.np offset subSize d
  let f ← s.fdl.getOffset 0
  let fd ← f.pointer 0
  if offset + subSize ≤ f.np ∧ offset + subSize ≤ b.np then
    pure { s with
      fdl := s.fdl.setOffset 0 (f.setChannel 0 fun i =>
        if offset ≤ i ∧ i < offset + subSize then d i else fd i)
      stages := s.stages.set 1 (b.setChannel 0 fun i =>
        if offset ≤ i ∧ i < offset + subSize then 0 else d i) }
  else none

/-- One iteration of the accumulation loop (TimeDistributedUPC.cpp:83-91). -/
noncomputable def accumulateOneR (s : TDUPC) (offset half : ℕ) (d : ℕ → ℂ) (i : ℕ) : Option (ℕ → ℂ) := do
  let f ← s.fdl.getOffset i
  let fd ← f.pointer 0
  if i < s.numFilters then
    let h ← (s.filters i).pointer s.filterChannel
    if offset + half ≤ f.np ∧ offset + half ≤ (s.filters i).np ∧ offset + half ≤ (s.stages.get 1).np then
      pure fun j => if offset ≤ j ∧ j < offset + half then Arith.add (d j) (Arith.mul (fd j) (h j)) else d j
    else none
  else none

/-- The accumulation loop (TimeDistributedUPC.cpp:81-92). -/
noncomputable def accumulateR (s : TDUPC) (offset half : ℕ) : Option TDUPC := do
  let b := s.stages.get 1
  let d ← b.pointer 0
  let d ← (List.range s.numPartitions).foldlM (s.accumulateOneR offset half) d
  pure { s with stages := s.stages.set 1 (b.setChannel 0 d) }

/-- Odd working phase (TimeDistributedUPC.cpp:94-98). -/
noncomputable def subInverseR (s : TDUPC) (workingPhase subSize : ℕ) : Option TDUPC := do
  let b := s.stages.get 1
  let d ← b.pointer 0
  let d ← inverseFFTUnorderedR b.np (((workingPhase - 1) / 2) * subSize) subSize d
  pure { s with stages := s.stages.set 1 (b.setChannel 0 d) }

/-- Work on stage B (TimeDistributedUPC.cpp:56-99). -/
noncomputable def transformR (s : TDUPC) : Option TDUPC :=
  let numFfts := 2 ^ s.nd
  let numActivePhases := numFfts * 2
  let subFftSize := s.fftPoints / numFfts
  let halfSubFftSize := subFftSize / 2
  if s.phase ≥ s.transformOffset ∧ s.phase < s.transformOffset + numActivePhases then do
    let workingPhase := s.phase - s.transformOffset
    let offset := workingPhase * halfSubFftSize
    let s ← (if workingPhase % 2 = 0 then s.subForwardR offset subFftSize else some s)
    let s ← s.accumulateR offset halfSubFftSize
    (if workingPhase % 2 ≠ 0 then s.subInverseR workingPhase subFftSize else some s)
  else some s

/-- The inverse schedule on stage C (TimeDistributedUPC.cpp:101-103). -/
noncomputable def inverseR (s : TDUPC) : Option TDUPC := do
  let c := s.stages.get 2
  let d ← c.pointer 0
  let d ← inverseScheduleR c.np s.nd s.fftPoints s.numPhases d s.phase
  pure { s with stages := s.stages.set 2 (c.setChannel 0 d) }

/-- "Fill output buffer" (TimeDistributedUPC.cpp:105-115) and the phase update (line 117). -/
noncomputable def outputR (s : TDUPC) (bs : ℕ) : Option (TDUPC × (ℕ → ℝ)) := do
  let c := s.stages.get 2
  let d ← c.pointer 0
  let pos := s.phase * bs
  if pos + bs ≤ s.tail.n ∧ pos + bs + s.partSize ≤ c.np ∧ 0 < s.tail.ch ∧ s.numPhases ≠ 0 then
    pure ({ s with
        tail := { s.tail with data := fun ch i =>
          if ch = 0 ∧ pos ≤ i ∧ i < pos + bs then (d (i + s.partSize)).re else s.tail.data ch i }
        phase := (s.phase + 1) % s.numPhases },
      fun i => Arith.addF (d (pos + i)).re (s.tail.data 0 (pos + i)))
  else none

/-- `TimeDistributedUPC::Process` (TimeDistributedUPC.cpp:33-118). -/
noncomputable def processR (s : TDUPC) (bs : ℕ) (inp : ℕ → ℝ) : Option (TDUPC × (ℕ → ℝ)) := do
  let s ← s.begin
  let s ← s.fill bs inp
  let s ← s.forwardR
  let s ← s.transformR
  let s ← s.inverseR
  s.outputR bs

end TDUPC

/-! ## TimeDistributedUPCMulti -/

/-- Forward transform of one channel of a filter partition (TimeDistributedUPCMulti.cpp:52). -/
noncomputable def fftChannelR (fftNumPoints : ℕ) (b : CBuf) (c : ℕ) : Option CBuf := do
  let d ← b.pointer c
  let d ← forwardFFTUnorderedR b.np 0 fftNumPoints d
  pure (b.setChannel c d)

/-- One filter partition (TimeDistributedUPCMulti.cpp:43-52). -/
noncomputable def multiFilterR (partitionSize : ℕ) (irSegment : Buf) (partitionIndex : ℕ) : Option CBuf := do
  let fftNumPoints := 2 * partitionSize
  let filterSize := irSegment.n
  let offset := partitionIndex * partitionSize
  let blk ← irSegment.sub offset (min partitionSize (filterSize - offset))
  let fp := (CBuf.mk0 fftNumPoints irSegment.ch).clear
  let fp ← fp.copyFromAudioBlock blk
  (List.range irSegment.ch).foldlM (fftChannelR fftNumPoints) fp

namespace Multi

/-- Constructor (TimeDistributedUPCMulti.cpp:28-78). -/
noncomputable def createR (blockSize numChannels partitionSizeBlocks : ℕ) (irSegment : Buf)
    (tail0 : ℕ → ℕ → ℕ → ℝ) : Option Multi := do
  let partitionSize := partitionSizeBlocks * blockSize
  if partitionSize = 0 then none else
  let numPartitions := numPartitionsFor partitionSize irSegment.n
  let filters ← buildVec (CBuf.mk0 0 0) (multiFilterR partitionSize irSegment) numPartitions
  if numChannels ≠ 0 ∧ (partitionSizeBlocks / 2 = 0 ∨ irSegment.ch = 0) then none else
  let plans := channelPlans partitionSizeBlocks irSegment.ch numChannels
  pure
    { num := plans.length
      td := fun c =>
        let pl := plans.getD c ⟨0, 0, 0⟩
        TDUPC.create blockSize partitionSizeBlocks numPartitions filters pl.filterChannel
          pl.transformOffset pl.nd (tail0 c) }

/-- One iteration of `Process` (TimeDistributedUPCMulti.cpp:87-89). -/
noncomputable def processChannelR (st : Multi × Buf) (c : ℕ) : Option (Multi × Buf) := do
  let blk ← st.2.single c
  if c < st.1.num then
    let r ← (st.1.td c).processR st.2.n (blk.data 0)
    pure ({ st.1 with td := Function.update st.1.td c r.1 }, st.2.putChannel c r.2)
  else none

/-- `Process` (TimeDistributedUPCMulti.cpp:80-91). -/
noncomputable def processR (m : Multi) (block : Buf) : Option (Multi × Buf) :=
  (List.range block.ch).foldlM processChannelR (m, block)

end Multi

/-! ## UniformPartitionedConvolver -/

namespace UPC

/-- One step of the accumulation loop (UniformPartitionedConvolver.cpp:74-79). -/
noncomputable def macOneR (s : UPC) (conv : CBuf) (i : ℕ) : Option CBuf := do
  let prev ← s.fdl.getOffset i
  if i < s.numFilters then conv.mulAccFromR prev (s.filters i) else none

/-- Start of a partition (UniformPartitionedConvolver.cpp:65-83). -/
noncomputable def preludeR (s : UPC) : Option UPC :=
  if s.collected = 0 then do
    let fdl ← s.fdl.getNext
    let s := { s with fdl := fdl }
    let conv ← ((List.range (s.numFilters - 1)).map (· + 1)).foldlM (macOneR s) s.conv.clear
    let r ← s.ring.getNext s.partSize true
    pure { s with conv := conv, ring := r.2 }
  else some s

/-- One iteration of the loop after the prelude (UniformPartitionedConvolver.cpp:85-120). -/
noncomputable def bodyR (F : RealFFT) (s : UPC) (blk : Buf) (done k : ℕ) : Option (UPC × Buf) := do
  let first ← s.fdl.getOffset 0
  let first := first.clear
  let input ← blk.sub done k
  let w ← s.ring.getNext (s.discard + s.collected) false
  let buf ← w.1.copyFrom s.ring.buf input
  let ring := { s.ring with buf := buf }
  let w ← ring.getNext 0 false
  let floats ← w.1.copyTo ring.buf first.floats
  let first := first.ofFloats floats
  let first ← (List.range blk.ch).foldlM (transformChannel (F.fwd s.order)) first
  if 0 < s.numFilters then
    let ifft ← s.ifft.mulFromR first (s.filters 0)
    let ifft ← ifft.addFromR s.conv
    let ifft ← (List.range blk.ch).foldlM (transformChannel (F.inv s.order)) ifft
    let out ← blk.sub done k
    let src ← ifft.floats.sub (s.discard + s.collected) k
    let blk := blk.put done (out.copyFrom src)
    pure ({ s with
        ring := ring
        fdl := s.fdl.setOffset 0 first
        ifft := ifft
        collected := (s.collected + k) % s.partSize }, blk)
  else none

/-- The loop of `Process` (UniformPartitionedConvolver.cpp:62-121). -/
noncomputable def loopR (F : RealFFT) : ℕ → UPC → Buf → ℕ → Option (UPC × Buf)
  | 0, s, blk, done => if done < blk.n then none else some (s, blk)
  | fuel + 1, s, blk, done =>
    if done < blk.n then do
      let s ← s.preludeR
      let k := min (blk.n - done) (s.partSize - s.collected)
      let r ← s.bodyR F blk done k
      loopR F fuel r.1 r.2 (done + k)
    else some (s, blk)

/-- `Process` (UniformPartitionedConvolver.cpp:54-122). -/
noncomputable def processR (F : RealFFT) (s : UPC) (blk : Buf) : Option (UPC × Buf) :=
  loopR F blk.n s blk 0

end UPC

/-! ## TimeDistributedNUPC -/

namespace NUPC

/-- The loop that builds the sub convolvers (TimeDistributedNUPC.cpp:26-38). -/
noncomputable def buildSubsR (B nch : ℕ) (ir : Buf) (tail0 : ℕ → ℕ → ℕ → ℕ → ℝ) :
    ℕ → ℕ → List Layout → Option (List SubConv)
  | _, _, [] => some []
  | offset, i, l :: rest => do
    let size := l.samples B
    if offset ≤ ir.n then
      let seg ← ir.sub offset (min size (ir.n - offset))
      let partitionSize := l.psb * B
      let td ← Multi.createR B nch l.psb seg (tail0 i)
      if 2 * partitionSize ≤ offset + B then
        let tl ← buildSubsR B nch ir tail0 (offset + size) (i + 1) rest
        pure (⟨td, offset + B - 2 * partitionSize⟩ :: tl)
      else none
    else none

/-- Constructor (TimeDistributedNUPC.cpp:5-48). -/
noncomputable def createR (F : RealFFT) (B nch : ℕ) (ir : Buf) (g : Garbage) : Option NUPC := do
  if ir.n > 0 then
    let scheme ← getPartitionScheme kGarciaResults B ir.n
    match scheme with
    | [] => none
    | front :: rest =>
      let offset := min (front.samples B) ir.n
      let seg ← ir.sub 0 offset
      let upc ← UPC.create F B nch seg g.upcRing
      let subs ← buildSubsR B nch ir g.tail offset 0 rest
      let buffers : Buf × Buf × Buf :=
        match subs.getLast? with
        | none => (⟨0, 0, g.saved⟩, ⟨0, 0, g.proc⟩, ⟨0, 0, g.ring⟩)
        | some last => (⟨nch, B, g.saved⟩, ⟨nch, B, g.proc⟩, ⟨nch, last.delay, g.ring⟩)
      pure <| reset
        { upc := upc, subs := subs, blockSize := B, collected := 0
          saved := buffers.1, proc := buffers.2.1, ring := ⟨0, buffers.2.2⟩ }
  else none

/-- The loop over the sub convolvers at the end of a block (TimeDistributedNUPC.cpp:74-82). -/
noncomputable def stepSubsR (saved : Buf) : List SubConv → Buf → Ring → Option (List SubConv × Buf × Ring)
  | [], proc, ring => some ([], proc, ring)
  | c :: rest, proc, ring => do
    let r ← c.td.processR (proc.copyFrom saved)
    let w ← ring.getNext c.delay false
    let buf ← w.1.addFromR ring.buf r.2
    let tl ← stepSubsR saved rest r.2 { ring with buf := buf }
    pure ({ c with td := r.1 } :: tl.1, tl.2)

/-- Collecting the input, and the sub convolvers when a block is complete (TimeDistributedNUPC.cpp:68-86). -/
noncomputable def collectR (s : NUPC) (sub : Buf) (k : ℕ) : Option NUPC :=
  if s.subs.length > 0 then do
    let dst ← s.saved.sub s.collected (s.saved.n - s.collected)
    let s := { s with saved := s.saved.put s.collected (dst.copyFrom sub) }
    if (s.collected + k) % s.blockSize = 0 then
      let r ← stepSubsR s.saved s.subs s.proc s.ring
      let a ← r.2.2.getNext s.blockSize true
      pure { s with subs := r.1, proc := r.2.1, ring := a.2 }
    else some s
  else some s

/-- Adding the delayed results (TimeDistributedNUPC.cpp:90-102). -/
noncomputable def addResultsR (s : NUPC) (sub : Buf) (k : ℕ) : Option (NUPC × Buf) :=
  if s.subs.length > 0 then do
    let delay := s.collected + if (s.collected + k) % s.blockSize = 0 then 0 else s.blockSize
    let r ← s.ring.getNext delay false
    let w ← r.1.getSubBlock k
    let out ← w.addToR s.ring.buf sub
    pure ({ s with ring := { s.ring with buf := w.clear s.ring.buf } }, out)
  else some (s, sub)

/-- One iteration of the loop (TimeDistributedNUPC.cpp:65-106). -/
noncomputable def bodyR (F : RealFFT) (s : NUPC) (blk : Buf) (done k : ℕ) : Option (NUPC × Buf) := do
  let sub ← blk.sub done k
  let s ← s.collectR sub k
  let u ← s.upc.processR F sub
  let r ← { s with upc := u.1 }.addResultsR u.2 k
  pure ({ r.1 with collected := (r.1.collected + k) % r.1.blockSize }, blk.put done r.2)

/-- The loop of `Process` (TimeDistributedNUPC.cpp:59-107). -/
noncomputable def loopR (F : RealFFT) : ℕ → NUPC → Buf → ℕ → Option (NUPC × Buf)
  | 0, s, blk, done => if done < blk.n then none else some (s, blk)
  | fuel + 1, s, blk, done =>
    if done < blk.n then do
      let k := min (blk.n - done) (s.blockSize - s.collected)
      let r ← s.bodyR F blk done k
      loopR F fuel r.1 r.2 (done + k)
    else some (s, blk)

/-- `Process` (TimeDistributedNUPC.cpp:50-108). -/
noncomputable def processR (F : RealFFT) (s : NUPC) (blk : Buf) : Option (NUPC × Buf) :=
  loopR F blk.n s blk 0

end NUPC

/-! ## Convolver -/

namespace Convolver

/-- Constructor (Convolver.cpp:19-47). -/
noncomputable def createR (F : RealFFT) (ir : Buf) (maximumBlockSize : ℕ) (spec : ConvolverSpec)
    (g : Garbage) (routing0 : ℕ → ℕ → ℝ) : Option Convolver := do
  let B ← Model.internalBlockSize po2Fuel maximumBlockSize spec.internalBlockSize
  let nupc ← NUPC.createR F B ir.ch ir g
  pure
    { routing := ⟨ir.ch, B, routing0⟩, nupc := nupc, spec := spec
      numConv := ir.ch, blockSize := B, numSamples := ir.n }

/-- One iteration of the output routing loop (Convolver.cpp:83-87). -/
noncomputable def scatterOneR (s : Convolver) (rs : Buf) (out : Buf) (c : ℕ) : Option Buf := do
  let o ← route s.spec.outputRouting c
  let dst ← out.single o
  let src ← rs.single c
  let dst ← dst.addR src
  pure (out.putChannel o (dst.data 0))

/-- One iteration of the loop (Convolver.cpp:63-88) on samples `[done, done + k)` of the caller's block. -/
noncomputable def bodyR (F : RealFFT) (s : Convolver) (blk : Buf) (done k : ℕ) : Option (Convolver × Buf) := do
  let out ← blk.sub done k
  let rs ← s.routing.sub 0 k
  let rs ← (List.range s.numConv).foldlM (gatherOne s out) rs
  let r ← s.nupc.processR F rs
  let out ← (List.range s.numConv).foldlM (scatterOneR s r.2) out.clear
  pure ({ s with nupc := r.1, routing := s.routing.put 0 r.2 }, blk.put done out)

/-- The loop of `Process` (Convolver.cpp:57-91). -/
noncomputable def loopR (F : RealFFT) : ℕ → Convolver → Buf → ℕ → Option (Convolver × Buf)
  | 0, s, blk, done => if done < blk.n then none else some (s, blk)
  | fuel + 1, s, blk, done =>
    if done < blk.n then do
      let k := min (blk.n - done) s.blockSize
      let r ← s.bodyR F blk done k
      loopR F fuel r.1 r.2 (done + k)
    else some (s, blk)

/-- `Process` (Convolver.cpp:49-92). -/
noncomputable def processR (F : RealFFT) (s : Convolver) (blk : Buf) : Option (Convolver × Buf) :=
  loopR F blk.n { s with routing := s.routing.clear } blk 0

end Convolver

end Zones.Model
