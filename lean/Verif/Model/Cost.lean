import Verif.Model.Convolver

/-!
# The sample path again, with its operations counted

The same functions as in `Verif.Model.{FFT,TDUPC,Multi,UPC,NUPC,Convolver}`, in the same order, with a counter that is increased where
the code executes one of the following:

* `butterflies`: one iteration of an innermost butterfly loop of `util/FFT.cpp` or `util/FFTDecomposition.cpp`
  (two complex additions, one complex multiplication and one `std::pow`);
* `products`: one iteration of the innermost loop over `point_index` that accumulates products of spectra in `TimeDistributedUPC.cpp:87-91`;
* `transforms`: one call of `juce::dsp::FFT::perform...Transform` by the uniform convolver;
* `spectra`: one iteration of the loops of `ComplexMultiplyFrom` and `ComplexMultiplyAccumulateFrom` (`ComplexBuffer.cpp:51-58, 69-77`),
  which only the uniform convolver calls.

Not counted: copying, clearing and adding samples, loop and index arithmetic, the operations inside one `juce::dsp::FFT` call.
That the counters do not change the results is proved, not assumed (`Zones.Props.C87_*`).
-/

namespace Zones.Model

/-- The counters.
They count the loop bodies of FFT.cpp:19-29, 48-58 and FFTDecomposition.cpp:26-35, 60-68, the products of ComplexBuffer.cpp
and of TimeDistributedUPC.cpp, and the calls of `juce::dsp::FFT` in UniformPartitionedConvolver.cpp:100, 110. -/
@[ext] structure Cost where
  butterflies : ℕ
  products : ℕ
  transforms : ℕ
  spectra : ℕ

namespace Cost

instance : Zero Cost := ⟨⟨0, 0, 0, 0⟩⟩
instance : Add Cost :=
  ⟨fun a b => ⟨a.butterflies + b.butterflies, a.products + b.products, a.transforms + b.transforms, a.spectra + b.spectra⟩⟩

end Cost

/-- A computation that counts: from the counters so far to the result and the new counters, or undefined.
Used for every function of the signal path below (`Process` of Convolver.cpp:49-92 and what it calls). -/
abbrev Counted := StateT Cost Option

/-- Increase the counters.
Not in the code: the counters are an instrument of the model (of FFT.cpp:19-29 and the other places listed at `Cost`). -/
def pay (c : Cost) : Counted Unit := fun c0 => some ((), c0 + c)

/-- A computation that executes nothing that is counted. For statements that are not counted, for example Convolver.cpp:63-75. -/
def free {α : Type} (o : Option α) : Counted α := fun c0 => o.map fun a => (a, c0)

/-- A butterfly loop: one butterfly for each iteration (FFT.cpp:19-29, 48-58; FFTDecomposition.cpp:26-35, 60-68). -/
def runLoopC (body : (ℕ → ℂ) → Bfly → (ℕ → ℂ)) (sz : ℕ) (l : List Bfly) (d : ℕ → ℂ) : Counted (ℕ → ℂ) := do
  pay ⟨l.length, 0, 0, 0⟩
  free (runLoop body sz l d)

/-- `ForwardFFTUnordered` (FFT.cpp:5-32). -/
noncomputable def forwardFFTUnorderedC (sz base numPoints : ℕ) (d : ℕ → ℂ) : Counted (ℕ → ℂ) :=
  if numPoints = 0 then free none else
    ((List.range (Nat.log 2 numPoints)).map (· + 1)).reverse.foldlM
      (fun d depth => runLoopC (applyFwd (twiddleFwd (2 ^ depth))) sz (fftBflies base numPoints depth) d) d

/-- `InverseFFTUnordered` (FFT.cpp:34-61). -/
noncomputable def inverseFFTUnorderedC (sz base numPoints : ℕ) (d : ℕ → ℂ) : Counted (ℕ → ℂ) :=
  if numPoints = 0 then free none else
    ((List.range (Nat.log 2 numPoints)).map (· + 1)).foldlM
      (fun d depth => runLoopC (applyInv (twiddleInv (2 ^ depth))) sz (fftBflies base numPoints depth) d) d

/-- `SegmentedForwardDecompositionRadix2` (FFTDecomposition.cpp:5-37). -/
noncomputable def segmentedForwardC (sz numPoints numSegments numSteps currentStep : ℕ) (d : ℕ → ℂ) : Counted (ℕ → ℂ) :=
  if decompAsserts numPoints numSegments numSteps currentStep then
    runLoopC (applyFwd (twiddleFwd (numPoints / numSegments))) sz (segBflies numPoints numSegments numSteps currentStep) d
  else free none

/-- `SegmentedInverseDecompositionRadix2` (FFTDecomposition.cpp:39-70). -/
noncomputable def segmentedInverseC (sz numPoints numSegments numSteps currentStep : ℕ) (d : ℕ → ℂ) : Counted (ℕ → ℂ) :=
  if decompAsserts numPoints numSegments numSteps currentStep then
    runLoopC (applyInv (twiddleInv (numPoints / numSegments))) sz (segBflies numPoints numSegments numSteps currentStep) d
  else free none

/-- `ForwardDecompositionSchedule` (DecompositionSchedule.cpp:41-59). -/
noncomputable def forwardScheduleC (sz numDecompositions fftSize numBlocks : ℕ) (d : ℕ → ℂ) (phase : ℕ) : Counted (ℕ → ℂ) :=
  (List.range numDecompositions).foldlM (fun d level =>
    let numSegments := 2 ^ level
    let numSteps := numBlocks / numSegments
    if phase ≥ numBlocks - numSteps then
      if numSteps = 0 then free none
      else segmentedForwardC sz fftSize numSegments numSteps (phase % numSteps) d
    else pure d) d

/-- `InverseDecompositionSchedule` (DecompositionSchedule.cpp:61-76). -/
noncomputable def inverseScheduleC (sz numDecompositions fftSize numBlocks : ℕ) (d : ℕ → ℂ) (phase : ℕ) : Counted (ℕ → ℂ) :=
  (List.range numDecompositions).reverse.foldlM (fun d level =>
    let numSegments := 2 ^ level
    let numSteps := numBlocks / numSegments
    if phase < numSteps then segmentedInverseC sz fftSize numSegments numSteps phase d
    else pure d) d

namespace TDUPC

/-- The forward schedule on stage A (TimeDistributedUPC.cpp:53-54). -/
noncomputable def forwardC (s : TDUPC) : Counted TDUPC := do
  let a := s.stages.get 0
  let d ← free (a.pointer 0)
  let d ← forwardScheduleC a.np s.nd s.fftPoints s.numPhases d s.phase
  pure { s with stages := s.stages.set 0 (a.setChannel 0 d) }

/-- Even working phase (TimeDistributedUPC.cpp:68-79). -/
noncomputable def subForwardC (s : TDUPC) (offset subSize : ℕ) : Counted TDUPC := do
  let b := s.stages.get 1
  let d ← free (b.pointer 0)
  let d ← forwardFFTUnorderedC b.np offset subSize d
  let f ← free (s.fdl.getOffset 0)
  let fd ← free (f.pointer 0)
  if offset + subSize ≤ f.np ∧ offset + subSize ≤ b.np then
    pure { s with
      fdl := s.fdl.setOffset 0 (f.setChannel 0 fun i =>
        if offset ≤ i ∧ i < offset + subSize then d i else fd i)
      stages := s.stages.set 1 (b.setChannel 0 fun i =>
        if offset ≤ i ∧ i < offset + subSize then 0 else d i) }
  else free none

/-- One iteration of the accumulation loop (TimeDistributedUPC.cpp:83-91): `half` products. -/
noncomputable def accumulateOneC (s : TDUPC) (offset half : ℕ) (d : ℕ → ℂ) (i : ℕ) : Counted (ℕ → ℂ) := do
  pay ⟨0, half, 0, 0⟩
  free (s.accumulateOne offset half d i)

/-- The accumulation loop (TimeDistributedUPC.cpp:81-92). -/
noncomputable def accumulateC (s : TDUPC) (offset half : ℕ) : Counted TDUPC := do
  let b := s.stages.get 1
  let d ← free (b.pointer 0)
  let d ← (List.range s.numPartitions).foldlM (s.accumulateOneC offset half) d
  pure { s with stages := s.stages.set 1 (b.setChannel 0 d) }

/-- Odd working phase (TimeDistributedUPC.cpp:94-98). -/
noncomputable def subInverseC (s : TDUPC) (workingPhase subSize : ℕ) : Counted TDUPC := do
  let b := s.stages.get 1
  let d ← free (b.pointer 0)
  let d ← inverseFFTUnorderedC b.np (((workingPhase - 1) / 2) * subSize) subSize d
  pure { s with stages := s.stages.set 1 (b.setChannel 0 d) }

/-- Work on stage B (TimeDistributedUPC.cpp:56-99). -/
noncomputable def transformC (s : TDUPC) : Counted TDUPC :=
  let numFfts := 2 ^ s.nd
  let numActivePhases := numFfts * 2
  let subFftSize := s.fftPoints / numFfts
  let halfSubFftSize := subFftSize / 2
  if s.phase ≥ s.transformOffset ∧ s.phase < s.transformOffset + numActivePhases then do
    let workingPhase := s.phase - s.transformOffset
    let offset := workingPhase * halfSubFftSize
    let s ← (if workingPhase % 2 = 0 then s.subForwardC offset subFftSize else pure s)
    let s ← s.accumulateC offset halfSubFftSize
    (if workingPhase % 2 ≠ 0 then s.subInverseC workingPhase subFftSize else pure s)
  else pure s

/-- The inverse schedule on stage C (TimeDistributedUPC.cpp:101-103). -/
noncomputable def inverseC (s : TDUPC) : Counted TDUPC := do
  let c := s.stages.get 2
  let d ← free (c.pointer 0)
  let d ← inverseScheduleC c.np s.nd s.fftPoints s.numPhases d s.phase
  pure { s with stages := s.stages.set 2 (c.setChannel 0 d) }

/-- `TimeDistributedUPC::Process` (TimeDistributedUPC.cpp:33-118). -/
noncomputable def processC (s : TDUPC) (bs : ℕ) (inp : ℕ → ℝ) : Counted (TDUPC × (ℕ → ℝ)) := do
  let s ← free s.begin
  let s ← free (s.fill bs inp)
  let s ← s.forwardC
  let s ← s.transformC
  let s ← s.inverseC
  free (s.output bs)

end TDUPC

namespace Multi

/-- One iteration of `Process` (TimeDistributedUPCMulti.cpp:87-89). -/
noncomputable def processChannelC (st : Multi × Buf) (c : ℕ) : Counted (Multi × Buf) := do
  let blk ← free (st.2.single c)
  if c < st.1.num then
    let r ← (st.1.td c).processC st.2.n (blk.data 0)
    pure ({ st.1 with td := Function.update st.1.td c r.1 }, st.2.putChannel c r.2)
  else free none

/-- `TimeDistributedUPCMulti::Process` (TimeDistributedUPCMulti.cpp:80-91). -/
noncomputable def processC (m : Multi) (block : Buf) : Counted (Multi × Buf) :=
  (List.range block.ch).foldlM processChannelC (m, block)

end Multi

namespace UPC

/-- Transform of one channel (UniformPartitionedConvolver.cpp:99-101, 110-111). -/
noncomputable def transformChannelC (f : (ℕ → ℝ) → (ℕ → ℝ)) (b : CBuf) (c : ℕ) : Counted CBuf := do
  pay ⟨0, 0, 1, 0⟩
  free (transformChannel f b c)

/-- One step of the accumulation loop (UniformPartitionedConvolver.cpp:74-79): all points of all channels. -/
noncomputable def macOneC (s : UPC) (conv : CBuf) (i : ℕ) : Counted CBuf := do
  pay ⟨0, 0, 0, conv.size⟩
  free (macOne s conv i)

/-- Start of a partition (UniformPartitionedConvolver.cpp:65-83). -/
noncomputable def preludeC (s : UPC) : Counted UPC :=
  if s.collected = 0 then do
    let fdl ← free s.fdl.getNext
    let s := { s with fdl := fdl }
    let conv ← ((List.range (s.numFilters - 1)).map (· + 1)).foldlM (macOneC s) s.conv.clear
    let r ← free (s.ring.getNext s.partSize true)
    pure { s with conv := conv, ring := r.2 }
  else pure s

/-- One iteration of the loop after the prelude (UniformPartitionedConvolver.cpp:85-120). -/
noncomputable def bodyC (F : RealFFT) (s : UPC) (blk : Buf) (done k : ℕ) : Counted (UPC × Buf) := do
  let first ← free (s.fdl.getOffset 0)
  let first := first.clear
  let input ← free (blk.sub done k)
  let w ← free (s.ring.getNext (s.discard + s.collected) false)
  let buf ← free (w.1.copyFrom s.ring.buf input)
  let ring := { s.ring with buf := buf }
  let w ← free (ring.getNext 0 false)
  let floats ← free (w.1.copyTo ring.buf first.floats)
  let first := first.ofFloats floats
  let first ← (List.range blk.ch).foldlM (transformChannelC (F.fwd s.order)) first
  if 0 < s.numFilters then
    pay ⟨0, 0, 0, s.ifft.size⟩
    let ifft ← free (s.ifft.mulFrom first (s.filters 0))
    let ifft ← free (ifft.addFrom s.conv)
    let ifft ← (List.range blk.ch).foldlM (transformChannelC (F.inv s.order)) ifft
    let out ← free (blk.sub done k)
    let src ← free (ifft.floats.sub (s.discard + s.collected) k)
    let blk := blk.put done (out.copyFrom src)
    pure ({ s with
        ring := ring
        fdl := s.fdl.setOffset 0 first
        ifft := ifft
        collected := (s.collected + k) % s.partSize }, blk)
  else free none

/-- The loop of `Process` (UniformPartitionedConvolver.cpp:62-121). -/
noncomputable def loopC (F : RealFFT) : ℕ → UPC → Buf → ℕ → Counted (UPC × Buf)
  | 0, s, blk, done => if done < blk.n then free none else pure (s, blk)
  | fuel + 1, s, blk, done =>
    if done < blk.n then do
      let s ← s.preludeC
      let k := min (blk.n - done) (s.partSize - s.collected)
      let r ← s.bodyC F blk done k
      loopC F fuel r.1 r.2 (done + k)
    else pure (s, blk)

/-- `UniformPartitionedConvolver::Process` (UniformPartitionedConvolver.cpp:54-122). -/
noncomputable def processC (F : RealFFT) (s : UPC) (blk : Buf) : Counted (UPC × Buf) :=
  loopC F blk.n s blk 0

end UPC

namespace NUPC

/-- The loop over the sub convolvers at the end of a block (TimeDistributedNUPC.cpp:74-82). -/
noncomputable def stepSubsC (saved : Buf) : List SubConv → Buf → Ring → Counted (List SubConv × Buf × Ring)
  | [], proc, ring => pure ([], proc, ring)
  | c :: rest, proc, ring => do
    let r ← c.td.processC (proc.copyFrom saved)
    let w ← free (ring.getNext c.delay false)
    let buf ← free (w.1.addFrom ring.buf r.2)
    let tl ← stepSubsC saved rest r.2 { ring with buf := buf }
    pure ({ c with td := r.1 } :: tl.1, tl.2)

/-- Collecting the input, and the sub convolvers when a block is complete (TimeDistributedNUPC.cpp:68-86). -/
noncomputable def collectC (s : NUPC) (sub : Buf) (k : ℕ) : Counted NUPC :=
  if s.subs.length > 0 then do
    let dst ← free (s.saved.sub s.collected (s.saved.n - s.collected))
    let s := { s with saved := s.saved.put s.collected (dst.copyFrom sub) }
    if (s.collected + k) % s.blockSize = 0 then
      let r ← stepSubsC s.saved s.subs s.proc s.ring
      let a ← free (r.2.2.getNext s.blockSize true)
      pure { s with subs := r.1, proc := r.2.1, ring := a.2 }
    else pure s
  else pure s

/-- One iteration of the loop (TimeDistributedNUPC.cpp:65-106). -/
noncomputable def bodyC (F : RealFFT) (s : NUPC) (blk : Buf) (done k : ℕ) : Counted (NUPC × Buf) := do
  let sub ← free (blk.sub done k)
  let s ← s.collectC sub k
  let u ← s.upc.processC F sub
  let r ← free ({ s with upc := u.1 }.addResults u.2 k)
  pure ({ r.1 with collected := (r.1.collected + k) % r.1.blockSize }, blk.put done r.2)

/-- The loop of `Process` (TimeDistributedNUPC.cpp:59-107). -/
noncomputable def loopC (F : RealFFT) : ℕ → NUPC → Buf → ℕ → Counted (NUPC × Buf)
  | 0, s, blk, done => if done < blk.n then free none else pure (s, blk)
  | fuel + 1, s, blk, done =>
    if done < blk.n then do
      let k := min (blk.n - done) (s.blockSize - s.collected)
      let r ← s.bodyC F blk done k
      loopC F fuel r.1 r.2 (done + k)
    else pure (s, blk)

/-- `TimeDistributedNUPC::Process` (TimeDistributedNUPC.cpp:50-108). -/
noncomputable def processC (F : RealFFT) (s : NUPC) (blk : Buf) : Counted (NUPC × Buf) :=
  loopC F blk.n s blk 0

end NUPC

namespace Convolver

/-- One iteration of the loop (Convolver.cpp:63-88). -/
noncomputable def bodyC (F : RealFFT) (s : Convolver) (blk : Buf) (done k : ℕ) : Counted (Convolver × Buf) := do
  let out ← free (blk.sub done k)
  let rs ← free (s.routing.sub 0 k)
  let rs ← free ((List.range s.numConv).foldlM (gatherOne s out) rs)
  let r ← s.nupc.processC F rs
  let out ← free ((List.range s.numConv).foldlM (scatterOne s r.2) out.clear)
  pure ({ s with nupc := r.1, routing := s.routing.put 0 r.2 }, blk.put done out)

/-- The loop of `Process` (Convolver.cpp:57-91). -/
noncomputable def loopC (F : RealFFT) : ℕ → Convolver → Buf → ℕ → Counted (Convolver × Buf)
  | 0, s, blk, done => if done < blk.n then free none else pure (s, blk)
  | fuel + 1, s, blk, done =>
    if done < blk.n then do
      let k := min (blk.n - done) s.blockSize
      let r ← s.bodyC F blk done k
      loopC F fuel r.1 r.2 (done + k)
    else pure (s, blk)

/-- `Convolver::Process` (Convolver.cpp:49-92). -/
noncomputable def processC (F : RealFFT) (s : Convolver) (blk : Buf) : Counted (Convolver × Buf) :=
  loopC F blk.n { s with routing := s.routing.clear } blk 0

/-- Calls of `Process`, one after the other (Convolver.cpp:49-92, repeatedly). -/
noncomputable def callsC (F : RealFFT) : Convolver → List Buf → Counted Convolver
  | s, [] => pure s
  | s, blk :: blks => do
    let r ← s.processC F blk
    callsC F r.1 blks

end Convolver

end Zones.Model
