import Verif.Model.UPC

/-!
# Model of `TimeDistributedNUPC` (time_distributed/TimeDistributedNUPC.{h,cpp})
-/

namespace Zones.Model

/-- One time-distributed sub convolver with its delay: entry `i` of `tdupcs_` and of `sub_convolver_delays_`
(TimeDistributedNUPC.h:22, 29). -/
structure SubConv where
  td : Multi
  delay : ℕ

/-- Members of `TimeDistributedNUPC` (TimeDistributedNUPC.h:21-33). `ring` is `result_buffer_` together with
`sub_convolver_delay_buffer_`. -/
structure NUPC where
  upc : UPC
  subs : List SubConv
  blockSize : ℕ
  collected : ℕ
  saved : Buf
  proc : Buf
  ring : Ring

/-- Uninitialised memory of the buffers a `TimeDistributedNUPC` allocates (all of it is cleared by `Reset` at the
end of the constructor, or before it is read) (TimeDistributedNUPC.cpp:42-47). -/
structure Garbage where
  upcRing : ℕ → ℕ → ℝ
  tail : ℕ → ℕ → ℕ → ℕ → ℝ
  saved : ℕ → ℕ → ℝ
  proc : ℕ → ℕ → ℝ
  ring : ℕ → ℕ → ℝ

namespace NUPC

/-- The loop that builds the sub convolvers (TimeDistributedNUPC.cpp:26-38); `i` is `tdupc_index`. A negative
delay would be used as a negative modulus operand or as a negative size: undefined. `getSubBlock` with a
negative length (as `size_t`) violates its assertion, and so does one that starts at the end. -/
noncomputable def buildSubs (B nch : ℕ) (ir : Buf) (tail0 : ℕ → ℕ → ℕ → ℕ → ℝ) :
    ℕ → ℕ → List Layout → Option (List SubConv)
  | _, _, [] => some []
  | offset, i, l :: rest => do
    let size := l.samples B
    if offset ≤ ir.n then
      let seg ← ir.sub offset (min size (ir.n - offset))
      let partitionSize := l.psb * B
      let td ← Multi.create B nch l.psb seg (tail0 i)
      if 2 * partitionSize ≤ offset + B then
        let tl ← buildSubs B nch ir tail0 (offset + size) (i + 1) rest
        pure (⟨td, offset + B - 2 * partitionSize⟩ :: tl)
      else none
    else none

/-- `Reset` (TimeDistributedNUPC.cpp:110-119). The ring's head keeps its position. -/
noncomputable def reset (s : NUPC) : NUPC :=
  { s with
    collected := 0
    saved := s.saved.clear
    ring := { s.ring with buf := s.ring.buf.clear }
    proc := s.proc.clear
    upc := s.upc.reset
    subs := s.subs.map fun c => { c with td := c.td.reset } }

/-- The constructor once the scheme has been chosen (TimeDistributedNUPC.cpp:16-48). `front ()` of an empty layout is
undefined. Without sub convolvers the buffers stay empty. -/
noncomputable def ofScheme (F : RealFFT) (B nch : ℕ) (ir : Buf) (g : Garbage) : List Layout → Option NUPC
  | [] => none
  | front :: rest => do
    let offset := min (front.samples B) ir.n
    let seg ← ir.sub 0 offset
    let upc ← UPC.create F B nch seg g.upcRing
    let subs ← buildSubs B nch ir g.tail offset 0 rest
    let buffers : Buf × Buf × Buf :=
      match subs.getLast? with
      | none => (⟨0, 0, g.saved⟩, ⟨0, 0, g.proc⟩, ⟨0, 0, g.ring⟩)
      | some last => (⟨nch, B, g.saved⟩, ⟨nch, B, g.proc⟩, ⟨nch, last.delay, g.ring⟩)
    pure <| reset
      { upc := upc, subs := subs, blockSize := B, collected := 0
        saved := buffers.1, proc := buffers.2.1, ring := ⟨0, buffers.2.2⟩ }

/-- Constructor (TimeDistributedNUPC.cpp:5-48). `jassert (ir_num_samples > 0)`. -/
noncomputable def create (F : RealFFT) (B nch : ℕ) (ir : Buf) (g : Garbage) : Option NUPC := do
  if ir.n > 0 then
    let scheme ← getPartitionScheme kGarciaResults B ir.n
    ofScheme F B nch ir g scheme
  else none

/-- The loop over the sub convolvers at the end of a block (TimeDistributedNUPC.cpp:74-82): new sub convolvers,
`process_buffer_` and result ring. -/
noncomputable def stepSubs (saved : Buf) : List SubConv → Buf → Ring → Option (List SubConv × Buf × Ring)
  | [], proc, ring => some ([], proc, ring)
  | c :: rest, proc, ring => do
    let r ← c.td.process (proc.copyFrom saved)
    let w ← ring.getNext c.delay false
    let buf ← w.1.addFrom ring.buf r.2
    let tl ← stepSubs saved rest r.2 { ring with buf := buf }
    pure ({ c with td := r.1 } :: tl.1, tl.2)

/-- Collecting the input, and the sub convolvers when a block is complete (TimeDistributedNUPC.cpp:68-86). -/
noncomputable def collect (s : NUPC) (sub : Buf) (k : ℕ) : Option NUPC :=
  if s.subs.length > 0 then do
    let dst ← s.saved.sub s.collected (s.saved.n - s.collected)
    let s := { s with saved := s.saved.put s.collected (dst.copyFrom sub) }
    if (s.collected + k) % s.blockSize = 0 then
      let r ← stepSubs s.saved s.subs s.proc s.ring
      let a ← r.2.2.getNext s.blockSize true
      pure { s with subs := r.1, proc := r.2.1, ring := a.2 }
    else some s
  else some s

/-- Adding the delayed results (TimeDistributedNUPC.cpp:90-102); returns the output sub block. -/
noncomputable def addResults (s : NUPC) (sub : Buf) (k : ℕ) : Option (NUPC × Buf) :=
  if s.subs.length > 0 then do
    let delay := s.collected + if (s.collected + k) % s.blockSize = 0 then 0 else s.blockSize
    let r ← s.ring.getNext delay false
    let w ← r.1.getSubBlock k
    let out ← w.addTo s.ring.buf sub
    pure ({ s with ring := { s.ring with buf := w.clear s.ring.buf } }, out)
  else some (s, sub)

/-- One iteration of the loop (TimeDistributedNUPC.cpp:65-106) on the samples `[done, done + k)` of the
caller's block, which is modified in place through the view `sub_output_replacing`. -/
noncomputable def body (F : RealFFT) (s : NUPC) (blk : Buf) (done k : ℕ) : Option (NUPC × Buf) := do
  let sub ← blk.sub done k
  let s ← s.collect sub k
  let u ← s.upc.process F sub
  let r ← { s with upc := u.1 }.addResults u.2 k
  pure ({ r.1 with collected := (r.1.collected + k) % r.1.blockSize }, blk.put done r.2)

/-- The loop of `Process` (TimeDistributedNUPC.cpp:59-107); running out of fuel is a loop that does not end. -/
noncomputable def loop (F : RealFFT) : ℕ → NUPC → Buf → ℕ → Option (NUPC × Buf)
  | 0, s, blk, done => if done < blk.n then none else some (s, blk)
  | fuel + 1, s, blk, done =>
    if done < blk.n then do
      let k := min (blk.n - done) (s.blockSize - s.collected)
      let r ← s.body F blk done k
      loop F fuel r.1 r.2 (done + k)
    else some (s, blk)

/-- `Process` (TimeDistributedNUPC.cpp:50-108). Every iteration handles at least one sample unless the loop
never ends, so `blk.n` is enough fuel. -/
noncomputable def process (F : RealFFT) (s : NUPC) (blk : Buf) : Option (NUPC × Buf) :=
  loop F blk.n s blk 0

end NUPC

end Zones.Model
