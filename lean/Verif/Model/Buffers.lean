import Verif.Model.FFT

/-!
# Model of the buffers

`juce::AudioBuffer` / `juce::dsp::AudioBlock` (external, modelled from their documentation),
`util/ComplexBuffer`, `util/SplitBlock`, `util/CircularBuffer`, `util/FrequencyDelayLine` and
`StageBuffers` of `util/DecompositionSchedule`.

Conventions: `Option`, with `none` for undefined behaviour or a failed assertion; samples are real numbers.
A C++ view (`AudioBlock` into a buffer) is either a `View`, i.e. an offset and a length that are applied to the
buffer explicitly, or is copied in and out (`Buf.sub` / `Buf.put`); the code never writes through two
overlapping views at once. A loop whose iterations touch different elements and read only the
element they write is written as one pointwise definition.
-/

namespace Zones.Model

/-- `juce::AudioBuffer<float>`, and a `juce::dsp::AudioBlock<float>` taken by value:
channel count, samples per channel, contents (`data channel sample`).
Buffers: TimeDistributedNUPC.h, UniformPartitionedConvolver.h, Convolver.h (members of type `AudioBuffer`),
ConvolutionEngine.h:105, 160; blocks: the arguments of all `Process` functions. -/
structure Buf where
  ch : ℕ
  n : ℕ
  data : ℕ → ℕ → ℝ

namespace Buf

/-- `AudioBuffer::setSize` followed by `clear`; a cleared block.
Used in UniformPartitionedConvolver.cpp:23 and 126, TimeDistributedNUPC.cpp:42-44 and 113-115. -/
def zero (ch n : ℕ) : Buf := ⟨ch, n, fun _ _ => 0⟩

/-- `AudioBuffer::clear` / `AudioBlock::clear` on the whole buffer.
Called in Convolver.cpp:55, 79, 97; TimeDistributedNUPC.cpp:113-115; UniformPartitionedConvolver.cpp:126;
ConvolutionEngine.cpp:234. -/
def clear (b : Buf) : Buf :=
  { b with data := fun c i => if c < b.ch ∧ i < b.n then 0 else b.data c i }

/-- `AudioBlock::getSubBlock (offset, length)` with JUCE's assertions
(`newOffset < numSamples`, `newOffset + newLength <= numSamples`).
Called in Convolver.cpp:64-65; TimeDistributedNUPC.cpp:20, 31, 66, 70; UniformPartitionedConvolver.cpp:29, 93, 114-116;
ConvolutionEngine.cpp:171. -/
def sub (b : Buf) (off len : ℕ) : Option Buf :=
  if off < b.n ∧ off + len ≤ b.n then some ⟨b.ch, len, fun c i => b.data c (off + i)⟩ else none

/-- Write a sub block obtained with `sub off _` back (the effect of writing through the view).
For the blocks of Convolver.cpp:63-65, TimeDistributedNUPC.cpp:65-70 and UniformPartitionedConvolver.cpp:113-116. -/
def put (b : Buf) (off : ℕ) (s : Buf) : Buf :=
  { b with data := fun c i =>
      if c < b.ch ∧ off ≤ i ∧ i < off + s.n then s.data c (i - off) else b.data c i }

/-- `AudioBlock::getSingleChannelBlock`.
Called in Convolver.cpp:72-73, 85-87; UniformPartitionedConvolver.cpp:37-38; TimeDistributedUPCMulti.cpp:87. -/
def single (b : Buf) (c : ℕ) : Option Buf :=
  if c < b.ch then some ⟨1, b.n, fun _ i => b.data c i⟩ else none

/-- Write a single channel block back. For the blocks of Convolver.cpp:73-74, 84-87 and TimeDistributedUPCMulti.cpp:87-89. -/
def putChannel (b : Buf) (c : ℕ) (s : ℕ → ℝ) : Buf :=
  { b with data := fun c' i => if c' = c ∧ i < b.n then s i else b.data c' i }

/-- `AudioBlock::copyFrom`: copies the common channels and samples.
Called in Convolver.cpp:74; TimeDistributedNUPC.cpp:70, 76; UniformPartitionedConvolver.cpp:37-38, 115;
ConvolutionEngine.cpp:22, 171. -/
def copyFrom (dst src : Buf) : Buf :=
  { dst with data := fun c i =>
      if c < min dst.ch src.ch ∧ i < min dst.n src.n then src.data c i else dst.data c i }

/-- `AudioBlock::add`: JUCE asserts equal channel counts, adds the common samples.
Called in Convolver.cpp:86-87; SplitBlock.cpp:49, 53. -/
def add (dst src : Buf) : Option Buf :=
  if dst.ch = src.ch then
    some { dst with data := fun c i =>
      if c < dst.ch ∧ i < min dst.n src.n then dst.data c i + src.data c i else dst.data c i }
  else none

end Buf

/-- An `AudioBlock` that views `len` samples from `off` on of all `ch` channels of some ring buffer.
A default constructed `AudioBlock` is the view with everything zero. The blocks of SplitBlock.h:23-24. -/
structure View where
  off : ℕ
  len : ℕ
  ch : ℕ

/-- `juce::dsp::AudioBlock<float> ()`. Used in CircularBuffer.cpp:37, 39 and SplitBlock.cpp:73, 75. -/
abbrev View.empty : View := ⟨0, 0, 0⟩

/-- `getSubBlock` of a view. Called in CircularBuffer.cpp:19-20, 36, 38 and SplitBlock.cpp:72, 74. -/
def View.sub (v : View) (off len : ℕ) : Option View :=
  if off < v.len ∧ off + len ≤ v.len then some ⟨v.off + off, len, v.ch⟩ else none

/-- The samples seen through a view. Read in SplitBlock.cpp:40, 44, 49, 53. -/
def View.read (v : View) (r : Buf) : Buf := ⟨v.ch, v.len, fun c i => r.data c (v.off + i)⟩

/-- `view.copyFrom (src)`, as an update of the viewed buffer. Called in SplitBlock.cpp:20, 22-23. -/
def View.copyFrom (v : View) (r : Buf) (src : Buf) : Buf :=
  { r with data := fun c i =>
      if c < min v.ch src.ch ∧ v.off ≤ i ∧ i < v.off + min v.len src.n then src.data c (i - v.off)
      else r.data c i }

/-- `view.add (src)`, as an update of the viewed buffer. Called in SplitBlock.cpp:33, 35. -/
def View.add (v : View) (r : Buf) (src : Buf) : Option Buf :=
  if v.ch = src.ch then
    some { r with data := fun c i =>
        if c < v.ch ∧ v.off ≤ i ∧ i < v.off + min v.len src.n
        then r.data c i + src.data c (i - v.off) else r.data c i }
  else none

/-- `view.clear ()`. Called in SplitBlock.cpp:59, 62. -/
def View.clear (v : View) (r : Buf) : Buf :=
  { r with data := fun c i => if c < v.ch ∧ v.off ≤ i ∧ i < v.off + v.len then 0 else r.data c i }

/-! ## SplitBlock -/

/-- `SplitBlock` (SplitBlock.h:7-27, SplitBlock.cpp:5-11). -/
structure SplitBlock where
  first : View
  wrapped : View

namespace SplitBlock

/-- `total_num_samples_` (SplitBlock.cpp:10). -/
abbrev total (s : SplitBlock) : ℕ := s.first.len + s.wrapped.len

/-- `SplitBlock::CopyFrom` (SplitBlock.cpp:13-24) on the viewed ring `r`. -/
def copyFrom (s : SplitBlock) (r block : Buf) : Option Buf := do
  let numSamples := block.n
  let firstToCopy := min numSamples s.first.len
  let remaining := numSamples - firstToCopy
  let r ← (if firstToCopy > 0 then
      (block.sub 0 firstToCopy).map fun sb => s.first.copyFrom r sb
    else some r)
  (if remaining > 0 then
      (block.sub firstToCopy remaining).map fun sb => s.wrapped.copyFrom r sb
    else some r)

/-- `SplitBlock::AddFrom` (SplitBlock.cpp:26-36). -/
def addFrom (s : SplitBlock) (r block : Buf) : Option Buf := do
  let numSamples := block.n
  let firstToCopy := min numSamples s.first.len
  let remaining := numSamples - firstToCopy
  let r ← (if firstToCopy > 0 then
      (block.sub 0 firstToCopy).bind fun sb => s.first.add r sb
    else some r)
  (if remaining > 0 then
      (block.sub firstToCopy remaining).bind fun sb => s.wrapped.add r sb
    else some r)

/-- `SplitBlock::CopyTo` (SplitBlock.cpp:38-45); returns the destination block. -/
def copyTo (s : SplitBlock) (r block : Buf) : Option Buf :=
  let block := block.copyFrom (s.first.read r)
  let firstNum := s.first.len
  if block.n > firstNum ∧ s.wrapped.len > 0 then
    (block.sub firstNum (block.n - firstNum)).map fun sb =>
      block.put firstNum (sb.copyFrom (s.wrapped.read r))
  else some block

/-- `SplitBlock::AddTo` (SplitBlock.cpp:47-54); returns the destination block. -/
def addTo (s : SplitBlock) (r block : Buf) : Option Buf := do
  let block ← block.add (s.first.read r)
  let firstNum := s.first.len
  (if block.n > firstNum ∧ s.wrapped.len > 0 then
      (block.sub firstNum (block.n - firstNum)).bind fun sb =>
        (sb.add (s.wrapped.read r)).map fun sb => block.put firstNum sb
    else some block)

/-- `SplitBlock::Clear` (SplitBlock.cpp:56-63). -/
def clear (s : SplitBlock) (r : Buf) : Buf :=
  let r := if s.first.len > 0 then s.first.clear r else r
  if s.wrapped.len > 0 then s.wrapped.clear r else r

/-- `SplitBlock::GetSubBlock` (SplitBlock.cpp:65-76). -/
def getSubBlock (s : SplitBlock) (numSamples : ℕ) : Option SplitBlock :=
  if numSamples ≤ s.total then do
    let firstToTake := min numSamples s.first.len
    let wrappedToTake := numSamples - firstToTake
    let f ← (if firstToTake > 0 then s.first.sub 0 firstToTake else some View.empty)
    let w ← (if wrappedToTake > 0 then s.wrapped.sub 0 wrappedToTake else some View.empty)
    pure ⟨f, w⟩
  else none

end SplitBlock

/-! ## CircularBuffer -/

/-- `CircularBuffer` (CircularBuffer.h:9-19) together with the buffer it refers to. -/
structure Ring where
  head : ℕ
  buf : Buf

namespace Ring

/-- The whole buffer as a view. `AudioBlock<float> block {buffer_}` (CircularBuffer.cpp:12, 25). -/
def block (r : Ring) : View := ⟨0, r.buf.n, r.buf.ch⟩

/-- `CircularBuffer::GetNext (delay, advance)` (CircularBuffer.cpp:23-40): the view, and the new state.
The modulus by an empty buffer is undefined. -/
def getNext (r : Ring) (delay : ℕ) (advance : Bool) : Option (SplitBlock × Ring) :=
  let numSamples := r.buf.n
  if numSamples = 0 then none else do
    let next := (r.head + delay) % numSamples
    let firstToTake := numSamples - next
    let wrappedToTake := numSamples - firstToTake
    let r' := if advance then { r with head := next } else r
    let f ← (if firstToTake > 0 then r.block.sub next firstToTake else some View.empty)
    let w ← (if wrappedToTake > 0 then r.block.sub 0 wrappedToTake else some View.empty)
    pure (⟨f, w⟩, r')

/-- `CircularBuffer::GetNext (advancement)` (CircularBuffer.cpp:10-21). -/
def getNextAdvance (r : Ring) (advancement : ℕ) : Option (SplitBlock × Ring) :=
  let numSamples := r.buf.n
  if numSamples = 0 then none else do
    let next := (r.head + advancement) % numSamples
    let firstToTake := numSamples - next
    let wrappedToTake := numSamples - firstToTake
    let f ← r.block.sub next firstToTake
    let w ← r.block.sub 0 wrappedToTake
    pure (⟨f, w⟩, { r with head := next })

end Ring

/-! ## ComplexBuffer -/

/-- `ComplexBuffer` (ComplexBuffer.h:6-33): `num_points_`, `num_channels_`, and the one contiguous vector
`channel_data_` of `num_points * num_channels` elements. `channel_pointers_[c]` is
`&channel_data_[c * num_points]` (ComplexBuffer.cpp:9-11). -/
structure CBuf where
  np : ℕ
  ch : ℕ
  data : ℕ → ℂ

namespace CBuf

/-- `ComplexBuffer::ComplexBuffer` (ComplexBuffer.cpp:5-12): the vector is value-initialised. -/
def mk0 (numPoints numChannels : ℕ) : CBuf := ⟨numPoints, numChannels, fun _ => 0⟩

/-- `channel_data_.size ()` (ComplexBuffer.cpp:9). -/
abbrev size (b : CBuf) : ℕ := b.np * b.ch

/-- The element `GetReadPointer (c)[p]` (ComplexBuffer.cpp:24-28), when in range. -/
def get (b : CBuf) (c p : ℕ) : ℂ := b.data (c * b.np + p)

/-- `GetReadPointer (c)` / `GetWritePointer (c)` (ComplexBuffer.cpp:24-34): contents from the
pointer on, with the assertion on the channel index. The `np` elements of the channel may be accessed. -/
def pointer (b : CBuf) (c : ℕ) : Option (ℕ → ℂ) := if c < b.ch then some (b.get c) else none

/-- Contents after writing through `GetWritePointer (c)` within the channel's `np` elements (ComplexBuffer.cpp:30-34). -/
def setChannel (b : CBuf) (c : ℕ) (d : ℕ → ℂ) : CBuf :=
  { b with data := fun i => if c * b.np ≤ i ∧ i < c * b.np + b.np then d (i - c * b.np) else b.data i }

/-- `ComplexBuffer::GetContinuousBlock` (ComplexBuffer.cpp:91-101): the same memory seen as
`2 * num_points` floats per channel, real and imaginary parts interleaved. -/
noncomputable def floats (b : CBuf) : Buf :=
  ⟨b.ch, 2 * b.np, fun c i => if i % 2 = 0 then (b.get c (i / 2)).re else (b.get c (i / 2)).im⟩

/-- Contents after writing the block returned by `GetContinuousBlock`. For the block of UniformPartitionedConvolver.cpp:34, 90, 108. -/
def ofFloats (b : CBuf) (f : Buf) : CBuf :=
  { b with data := fun i =>
      if i < b.size then ⟨f.data (i / b.np) (2 * (i % b.np)), f.data (i / b.np) (2 * (i % b.np) + 1)⟩
      else b.data i }

/-- `ComplexBuffer::Clear` (ComplexBuffer.cpp:46-49). -/
noncomputable def clear (b : CBuf) : CBuf := b.ofFloats b.floats.clear

/-- `ComplexBuffer::ComplexMultiplyFrom` (ComplexBuffer.cpp:51-58). -/
noncomputable def mulFrom (b x y : CBuf) : Option CBuf :=
  if (b.ch = x.ch ∧ x.ch = y.ch) ∧ (b.np = x.np ∧ x.np = y.np) then
    some { b with data := fun i => if i < b.size then x.data i * y.data i else b.data i }
  else none

/-- `ComplexBuffer::AddFrom` (ComplexBuffer.cpp:60-67). -/
noncomputable def addFrom (b x : CBuf) : Option CBuf :=
  if b.ch = x.ch ∧ b.np = x.np then
    some { b with data := fun i => if i < b.size then b.data i + x.data i else b.data i }
  else none

/-- `ComplexBuffer::ComplexMultiplyAccumulateFrom` (ComplexBuffer.cpp:69-77). -/
noncomputable def mulAccFrom (b x y : CBuf) : Option CBuf :=
  if (b.ch = x.ch ∧ x.ch = y.ch) ∧ (b.np = x.np ∧ x.np = y.np) then
    some { b with data := fun i => if i < b.size then b.data i + x.data i * y.data i else b.data i }
  else none

/-- `ComplexBuffer::CopyFromAudioBlock` (ComplexBuffer.cpp:79-89): the first
`min (num_points, num_samples)` points of every channel become real samples. -/
noncomputable def copyFromAudioBlock (b : CBuf) (s : Buf) : Option CBuf :=
  if b.ch = s.ch then
    some { b with data := fun i =>
        if i < b.size ∧ i % b.np < min b.np s.n
        then ((s.data (i / b.np) (i % b.np) : ℝ) : ℂ) else b.data i }
  else none

end CBuf

/-! ## FrequencyDelayLine -/

/-- `FrequencyDelayLine` (FrequencyDelayLine.h:8-25); the vector `delay_line_` as a function on
`0 .. num_blocks_ - 1`. -/
structure FDL where
  numBlocks : ℕ
  head : ℕ
  line : ℕ → CBuf

namespace FDL

/-- Constructor (FrequencyDelayLine.cpp:5-16): `num_blocks` cleared buffers, head at 0. -/
noncomputable def mk0 (numChannels numBlocks numPoints : ℕ) : FDL :=
  ⟨numBlocks, 0, fun _ => (CBuf.mk0 numPoints numChannels).clear⟩

/-- `ReverseWrap` (FrequencyDelayLine.cpp:18-21), with C++'s truncating `%`; zero modulus undefined. -/
def reverseWrap (a b : ℤ) : Option ℕ :=
  if b = 0 then none else some ((b + a.tmod b).tmod b).toNat

/-- `GetNextBlock` (FrequencyDelayLine.cpp:23-28): moves the head; the returned reference is
`getOffset 0` of the result. -/
def getNext (f : FDL) : Option FDL := do
  let h ← reverseWrap ((f.head : ℤ) - 1) f.numBlocks
  pure { f with head := h }

/-- index used by `GetBlockWithOffset` (FrequencyDelayLine.cpp:30-33). -/
def idx (f : FDL) (off : ℕ) : ℕ := (f.head + off) % f.numBlocks

/-- `GetBlockWithOffset` (FrequencyDelayLine.cpp:30-33). -/
def getOffset (f : FDL) (off : ℕ) : Option CBuf :=
  if f.numBlocks = 0 then none else some (f.line (f.idx off))

/-- Writing through the reference returned by `GetBlockWithOffset` (FrequencyDelayLine.cpp:30-33). -/
def setOffset (f : FDL) (off : ℕ) (b : CBuf) : FDL :=
  { f with line := Function.update f.line (f.idx off) b }

/-- `Clear` (FrequencyDelayLine.cpp:35-39). The head is not moved. -/
noncomputable def clear (f : FDL) : FDL :=
  { f with line := fun i => if i < f.numBlocks then (f.line i).clear else f.line i }

end FDL

/-! ## StageBuffers -/

/-- `StageBuffers` (DecompositionSchedule.h:6-25). -/
structure Stages where
  head : ℕ
  stages : ℕ → CBuf

namespace Stages

/-- `StageBuffers::StageBuffers` (DecompositionSchedule.cpp:7-14). -/
noncomputable def mk0 (numPoints : ℕ) : Stages := ⟨0, fun _ => (CBuf.mk0 numPoints 1).clear⟩

/-- index computed by `GetStage` (DecompositionSchedule.cpp:16-28); `kA, kB, kC` are 0, 1, 2. -/
def idx (s : Stages) (stage : ℕ) : ℕ := (((stage : ℤ) - s.head + 3).tmod 3).toNat

/-- `GetStage` (DecompositionSchedule.cpp:16-28). -/
def get (s : Stages) (stage : ℕ) : CBuf := s.stages (s.idx stage)

/-- Writing through the pointer returned by `GetStage` (DecompositionSchedule.cpp:16-28). -/
def set (s : Stages) (stage : ℕ) (b : CBuf) : Stages :=
  { s with stages := Function.update s.stages (s.idx stage) b }

/-- `PromoteStages` (DecompositionSchedule.cpp:30-33). -/
def promote (s : Stages) : Stages := { s with head := (s.head + 1) % 3 }

/-- `Clear` (DecompositionSchedule.cpp:35-39). The head is not moved. -/
noncomputable def clear (s : Stages) : Stages :=
  { s with stages := fun i => if i < 3 then (s.stages i).clear else s.stages i }

end Stages

end Zones.Model
