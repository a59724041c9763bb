import Verif.Model.Multi

/-!
# Model of `UniformPartitionedConvolver` (UniformPartitionedConvolver.{h,cpp})

`juce::dsp::FFT` is external: it is a pair of functions on float arrays (`RealFFT`). What is assumed of it
is stated as `RealFFT.Lawful` in `Verif.Spec.JuceFFT`; the model itself does not assume anything.
`while` loops carry fuel; running out of fuel (a loop that does not end) is `none`.
-/

namespace Zones.Model

/-- `juce::dsp::FFT` of order `k` (size `2^k`): in-place transforms on arrays of `2 * 2^k` floats.
`fwd k` is `performRealOnlyForwardTransform (d, true)`, `inv k` is `performRealOnlyInverseTransform (d)`.
Constructed in UniformPartitionedConvolver.cpp:16, called in UniformPartitionedConvolver.cpp:39-40, 100-101, 110-111. -/
structure RealFFT where
  fwd : ℕ → (ℕ → ℝ) → (ℕ → ℝ)
  inv : ℕ → (ℕ → ℝ) → (ℕ → ℝ)

/-- `juce::nextPowerOfTwo` on a positive argument, as an exponent (`fft_order`,
UniformPartitionedConvolver.cpp:13-15). -/
def fftOrder (partitionSize : ℕ) : ℕ := Nat.clog 2 (partitionSize * 2)

/-- Members of `UniformPartitionedConvolver` (UniformPartitionedConvolver.h:15-30). `ring` is `circular_buffer_`
together with `saved_inputs_`. -/
structure UPC where
  partSize : ℕ
  order : ℕ
  fftSize : ℕ
  discard : ℕ
  collected : ℕ
  ring : Ring
  numFilters : ℕ
  filters : ℕ → CBuf
  fdl : FDL
  conv : CBuf
  ifft : CBuf

namespace UPC

/-- `Reset` (UniformPartitionedConvolver.cpp:124-133). The heads keep their positions. -/
noncomputable def reset (s : UPC) : UPC :=
  { s with
    ring := { s.ring with buf := s.ring.buf.clear }
    collected := 0
    fdl := s.fdl.clear
    conv := s.conv.clear
    ifft := s.ifft.clear }

/-- Transform of one channel in place (UniformPartitionedConvolver.cpp:39-40, 99-101, 110-111):
`f` on the `2 * np` floats starting at the channel's pointer. -/
noncomputable def transformChannel (f : (ℕ → ℝ) → (ℕ → ℝ)) (b : CBuf) (c : ℕ) : Option CBuf :=
  if c < b.ch then some (b.ofFloats (b.floats.putChannel c (f (b.floats.data c)))) else none

/-- One channel of a filter partition (UniformPartitionedConvolver.cpp:37-40); `% 0` is undefined. -/
noncomputable def filterChannel (F : RealFFT) (order : ℕ) (part : Buf) (fp : CBuf) (c : ℕ) : Option CBuf :=
  if part.ch = 0 then none else do
    let src ← part.single (c % part.ch)
    let dst ← fp.floats.single c
    let fp := fp.ofFloats (fp.floats.putChannel c ((dst.copyFrom src).data 0))
    transformChannel (F.fwd order) fp c

/-- One filter partition (UniformPartitionedConvolver.cpp:27-43). -/
noncomputable def filterPartition (F : RealFFT) (partSize order numChannels : ℕ) (ir : Buf) (i : ℕ) :
    Option CBuf := do
  let off := i * partSize
  let len := min partSize (ir.n - off)
  let part ← ir.sub off len
  let fp := (CBuf.mk0 (2 ^ order) numChannels).clear
  (List.range numChannels).foldlM (filterChannel F order part) fp

/-- Constructor (UniformPartitionedConvolver.cpp:5-52); `ring0` is the uninitialised content of `saved_inputs_`,
overwritten by `Reset`. A zero partition size divides by zero. -/
noncomputable def create (F : RealFFT) (partSize numChannels : ℕ) (ir : Buf) (ring0 : ℕ → ℕ → ℝ) : Option UPC :=
  if partSize = 0 then none else do
    let order := fftOrder partSize
    let fftSize := 2 ^ order
    let numPartitions := numPartitionsFor partSize ir.n
    let filters ← buildVec (CBuf.mk0 0 0) (filterPartition F partSize order numChannels ir) numPartitions
    pure <| reset
      { partSize := partSize, order := order, fftSize := fftSize, discard := fftSize - partSize
        collected := 0
        ring := ⟨0, ⟨numChannels, fftSize, ring0⟩⟩
        numFilters := numPartitions, filters := filters
        fdl := FDL.mk0 numChannels numPartitions fftSize
        conv := CBuf.mk0 fftSize numChannels
        ifft := CBuf.mk0 fftSize numChannels }

/-- One step of the accumulation loop (UniformPartitionedConvolver.cpp:74-79). -/
noncomputable def macOne (s : UPC) (conv : CBuf) (i : ℕ) : Option CBuf := do
  let prev ← s.fdl.getOffset i
  if i < s.numFilters then conv.mulAccFrom prev (s.filters i) else none

/-- Start of a partition (UniformPartitionedConvolver.cpp:65-83). -/
noncomputable def prelude (s : UPC) : Option UPC :=
  if s.collected = 0 then do
    let fdl ← s.fdl.getNext
    let s := { s with fdl := fdl }
    let conv ← ((List.range (s.numFilters - 1)).map (· + 1)).foldlM (macOne s) s.conv.clear
    let r ← s.ring.getNext s.partSize true
    pure { s with conv := conv, ring := r.2 }
  else some s

/-- One iteration of the loop after the prelude (UniformPartitionedConvolver.cpp:85-120) on the samples
`[done, done + k)` of the caller's block. -/
noncomputable def body (F : RealFFT) (s : UPC) (blk : Buf) (done k : ℕ) : Option (UPC × Buf) := do
  let first ← s.fdl.getOffset 0
  let first := first.clear
  let input ← blk.sub done k
  let w ← s.ring.getNext (s.discard + s.collected) false
  let buf ← w.1.copyFrom s.ring.buf input
  let ring := { s.ring with buf := buf }
  let w ← ring.getNext 0 false
  let floats ← w.1.copyTo ring.buf first.floats
  let first := first.ofFloats floats
  let first ← (List.range blk.ch).foldlM (transformChannel (F.fwd s.order)) first
  if 0 < s.numFilters then
    let ifft ← s.ifft.mulFrom first (s.filters 0)
    let ifft ← ifft.addFrom s.conv
    let ifft ← (List.range blk.ch).foldlM (transformChannel (F.inv s.order)) ifft
    let out ← blk.sub done k
    let src ← ifft.floats.sub (s.discard + s.collected) k
    let blk := blk.put done (out.copyFrom src)
    pure ({ s with
        ring := ring
        fdl := s.fdl.setOffset 0 first
        ifft := ifft
        collected := (s.collected + k) % s.partSize }, blk)
  else none

/-- The loop of `Process` (UniformPartitionedConvolver.cpp:62-121); `done` is `num_samples_processed`. -/
noncomputable def loop (F : RealFFT) : ℕ → UPC → Buf → ℕ → Option (UPC × Buf)
  | 0, s, blk, done => if done < blk.n then none else some (s, blk)
  | fuel + 1, s, blk, done =>
    if done < blk.n then do
      let s ← s.prelude
      let k := min (blk.n - done) (s.partSize - s.collected)
      let r ← s.body F blk done k
      loop F fuel r.1 r.2 (done + k)
    else some (s, blk)

/-- `Process` (UniformPartitionedConvolver.cpp:54-122). Every iteration handles at least one sample
unless the loop never ends, so `blk.n` is enough fuel. -/
noncomputable def process (F : RealFFT) (s : UPC) (blk : Buf) : Option (UPC × Buf) :=
  loop F blk.n s blk 0

end UPC

end Zones.Model
