import Verif.Model.Buffers

/-!
# `ComplexBuffer` with pointers

In `Model/Buffers.lean` a `ComplexBuffer` is a value. In the code it is an object that owns a vector (`channel_data_`) and keeps raw pointers into it
(`channel_pointers_`, ComplexBuffer.h:31-32); it has no user-written copy or move operations, and is kept in `std::vector`s that grow one buffer at a time
(FrequencyDelayLine.cpp:10-15, UniformPartitionedConvolver.cpp:25-45, TimeDistributedUPCMulti.cpp:42-57). Here are these objects, the memory they live in, and what moving,
copying, growing and destroying does to them.

Simplifications: an allocation never fails and its address is never used again; the pointer arrays themselves are part of the object; a vector that grows may take
any new capacity (`grow`).
-/

namespace Zones.Model

/-- The memory: for each allocation that has been made and not been freed its size and contents. `next` is the next one to be made.
(The storage of `channel_data_`, ComplexBuffer.h:31, allocated by ComplexBuffer.cpp:9.) -/
structure Heap where
  cell : ℕ → Option (ℕ × (ℕ → ℂ)) := fun _ => none
  next : ℕ := 0

/-- A raw pointer: an allocation and an offset (ComplexBuffer.cpp:11). -/
structure Ptr where
  block : ℕ
  off : ℕ

namespace Heap

/-- New contents of an allocation (any write of ComplexBuffer.cpp). -/
def put (h : Heap) (a : ℕ) (c : ℕ × (ℕ → ℂ)) : Heap := { h with cell := Function.update h.cell a (some c) }

/-- `operator new []` with zeros, by `channel_data_.resize` (ComplexBuffer.cpp:9). -/
def alloc (h : Heap) (n : ℕ) (d : ℕ → ℂ) : ℕ × Heap := (h.next, ⟨Function.update h.cell h.next (some (n, d)), h.next + 1⟩)

/-- `operator delete []` by the destructor of `channel_data_` (ComplexBuffer.h:31); nothing for an empty vector, undefined for memory that is not allocated. -/
def free (h : Heap) : Option ℕ → Option Heap
  | none => some h
  | some a => (h.cell a).map fun _ => { h with cell := Function.update h.cell a none }

/-- Reading `p [i]`, for example TimeDistributedUPC.cpp:90. -/
def load (h : Heap) (p : Ptr) (i : ℕ) : Option ℂ :=
  (h.cell p.block).bind fun c => if p.off + i < c.1 then some (c.2 (p.off + i)) else none

/-- Writing `p [0] .. p [n - 1]`, for example by the transforms (FFT.cpp:5-61) or TimeDistributedUPC.cpp:72-78. -/
def storeAt (h : Heap) (p : Ptr) (n : ℕ) (d : ℕ → ℂ) : Option Heap :=
  (h.cell p.block).bind fun c =>
    if p.off + n ≤ c.1 then some (h.put p.block (c.1, fun i => if p.off ≤ i ∧ i < p.off + n then d (i - p.off) else c.2 i)) else none

end Heap

/-- A `ComplexBuffer` object (ComplexBuffer.h:29-32): `data` is the storage of `channel_data_` (`none` when the vector is empty), `ptrs` is `channel_pointers_`. -/
structure CObj where
  ch : ℕ
  np : ℕ
  data : Option ℕ
  size : ℕ
  ptrs : List Ptr

namespace CObj

/-- `ComplexBuffer::ComplexBuffer` (ComplexBuffer.cpp:5-12). -/
def construct (h : Heap) (np ch : ℕ) : CObj × Heap :=
  let r := h.alloc (np * ch) fun _ => 0
  (⟨ch, np, some r.1, np * ch, (List.range ch).map fun c => ⟨r.1, c * np⟩⟩, r.2)

/-- The implicit move constructor (ComplexBuffer.h:6-33 declares none): the new object, and what is left in the old one. The vectors are moved, the numbers copied. -/
def move (b : CObj) : CObj × CObj := (b, { b with data := none, size := 0, ptrs := [] })

/-- The implicit copy constructor (ComplexBuffer.h:6-33 declares none): `channel_data_` gets new storage, `channel_pointers_` is copied as it is. The code never copies. -/
def copy (h : Heap) (b : CObj) : Option (CObj × Heap) :=
  match b.data with
  | none => some (b, h)
  | some a => (h.cell a).map fun c => let r := h.alloc c.1 c.2; ({ b with data := some r.1 }, r.2)

/-- The implicit destructor (ComplexBuffer.h:6-33). -/
def destroy (h : Heap) (b : CObj) : Option Heap := h.free b.data

/-- `channel_data_ [i]` (for example ComplexBuffer.cpp:57). -/
def element (h : Heap) (b : CObj) (i : ℕ) : Option ℂ := b.data.bind fun a => h.load ⟨a, 0⟩ i

/-- Writing a channel through `GetWritePointer (c)` (ComplexBuffer.cpp:30-34). -/
def write (h : Heap) (b : CObj) (c : ℕ) (d : ℕ → ℂ) : Option Heap :=
  if c < b.ch then (b.ptrs[c]?).bind fun p => h.storeAt p b.np d else none

/-- `Clear` (ComplexBuffer.cpp:46-49), which goes through the channel pointers (`GetContinuousBlock`, ComplexBuffer.cpp:91-101). -/
def clear (h : Heap) (b : CObj) : Option Heap := (List.range b.ch).foldlM (fun h c => b.write h c fun _ => 0) h

/-- A loop over `channel_data_` of the target that combines it with the vectors of two other buffers, element by element (ComplexBuffer.cpp:56-57, 65-66, 74-76). -/
def combine (f : ℂ → ℂ → ℂ → ℂ) (h : Heap) (b x y : CObj) : Option Heap := do
  let a ← b.data
  let ax ← x.data
  let ay ← y.data
  let cb ← h.cell a
  let cx ← h.cell ax
  let cy ← h.cell ay
  if b.size ≤ cb.1 ∧ b.size ≤ cx.1 ∧ b.size ≤ cy.1 then
    some (h.put a (cb.1, fun i => if i < b.size then f (cb.2 i) (cx.2 i) (cy.2 i) else cb.2 i))
  else none

/-- `ComplexMultiplyFrom` (ComplexBuffer.cpp:51-58). -/
noncomputable def mulFrom (h : Heap) (b x y : CObj) : Option Heap :=
  if (b.ch = x.ch ∧ x.ch = y.ch) ∧ (b.np = x.np ∧ x.np = y.np) then combine (fun _ u v => u * v) h b x y else none

/-- `AddFrom` (ComplexBuffer.cpp:60-67). -/
noncomputable def addFrom (h : Heap) (b x : CObj) : Option Heap :=
  if b.ch = x.ch ∧ b.np = x.np then combine (fun w u _ => w + u) h b x x else none

/-- `ComplexMultiplyAccumulateFrom` (ComplexBuffer.cpp:69-77). -/
noncomputable def mulAccFrom (h : Heap) (b x y : CObj) : Option Heap :=
  if (b.ch = x.ch ∧ x.ch = y.ch) ∧ (b.np = x.np ∧ x.np = y.np) then combine (fun w u v => w + u * v) h b x y else none

end CObj

/-- A `std::vector<ComplexBuffer>` (`delay_line_`, FrequencyDelayLine.h:22; `filter_partitions_`, UniformPartitionedConvolver.h:29 and TimeDistributedUPCMulti.h:18). -/
structure Vec where
  cap : ℕ := 0
  items : List CObj := []

namespace Vec

/-- What growing does to the buffers: each is moved to its new place, and what is left of it is destroyed (the move constructor is `noexcept`, so
`std::vector` moves). In `emplace_back` of FrequencyDelayLine.cpp:14, UniformPartitionedConvolver.cpp:44 and TimeDistributedUPCMulti.cpp:56. -/
def relocate : Heap → List CObj → Option (List CObj × Heap)
  | h, [] => some ([], h)
  | h, b :: bs => (b.move.2.destroy h).bind fun h => (relocate h bs).map fun r => (b.move.1 :: r.1, r.2)

/-- `emplace_back (std::move (b))` (FrequencyDelayLine.cpp:14, UniformPartitionedConvolver.cpp:44, TimeDistributedUPCMulti.cpp:56), then the end of the scope of `b`. -/
def emplaceBack (grow : ℕ → ℕ) (h : Heap) (v : Vec) (b : CObj) : Option (Vec × Heap) := do
  let r ← (if v.items.length < v.cap then some (v.items, h) else relocate h v.items)
  let h ← b.move.2.destroy r.2
  some (⟨if v.items.length < v.cap then v.cap else max (grow v.cap) (v.items.length + 1), r.1 ++ [b.move.1]⟩, h)

/-- One iteration of the loops that build a vector of buffers: construct, clear, write the channels, `emplace_back` (FrequencyDelayLine.cpp:10-15,
UniformPartitionedConvolver.cpp:25-45, TimeDistributedUPCMulti.cpp:42-57). -/
def build (grow : ℕ → ℕ) (h : Heap) (v : Vec) (np ch : ℕ) (d : ℕ → ℕ → ℂ) : Option (Vec × Heap) := do
  let r := CObj.construct h np ch
  let h ← r.1.clear r.2
  let h ← (List.range ch).foldlM (fun h c => r.1.write h c (d c)) h
  emplaceBack grow h v r.1

/-- The destructor of the vector (FrequencyDelayLine.h:22). -/
def destroy (h : Heap) (v : Vec) : Option Heap := v.items.foldlM (fun h b => b.destroy h) h

end Vec

/-- The program's buffers: the memory, and the vectors that own them. A `std::unique_ptr<ComplexBuffer>` (UniformPartitionedConvolver.h:27-28) is a vector of one. -/
structure Buffers where
  heap : Heap := {}
  vecs : ℕ → Vec := fun _ => {}

/-- A buffer: the vector it is in and its place there (FrequencyDelayLine.cpp:27, 32). -/
structure Place where
  vec : ℕ
  pos : ℕ
deriving DecidableEq

/-- What the code does with its buffers. -/
inductive BufOp where
  /-- another buffer is made, filled and appended to a vector (FrequencyDelayLine.cpp:10-15) -/
  | build (k np ch : ℕ) (d : ℕ → ℕ → ℂ)
  /-- a channel is written through its pointer (TimeDistributedUPC.cpp:72-78) -/
  | write (t : Place) (c : ℕ) (d : ℕ → ℂ)
  /-- `Clear` (ComplexBuffer.cpp:46-49) -/
  | clear (t : Place)
  /-- `ComplexMultiplyFrom` (ComplexBuffer.cpp:51-58) -/
  | mul (t x y : Place)
  /-- `AddFrom` (ComplexBuffer.cpp:60-67) -/
  | add (t x : Place)
  /-- `ComplexMultiplyAccumulateFrom` (ComplexBuffer.cpp:69-77) -/
  | mac (t x y : Place)
  /-- a vector is destroyed with its owner (FrequencyDelayLine.h:22) -/
  | drop (k : ℕ)

namespace Buffers

/-- The object in a place (FrequencyDelayLine.cpp:27, 32). -/
def at? (s : Buffers) (t : Place) : Option CObj := (s.vecs t.vec).items[t.pos]?

/-- One operation (the places are those of `BufOp`); `grow` is the growth policy of `std::vector` (used by FrequencyDelayLine.cpp:14). -/
noncomputable def step (grow : ℕ → ℕ) (s : Buffers) : BufOp → Option Buffers
  | .build k np ch d => (Vec.build grow s.heap (s.vecs k) np ch d).map fun r => ⟨r.2, Function.update s.vecs k r.1⟩
  | .write t c d => do { let b ← s.at? t; let h ← b.write s.heap c d; some { s with heap := h } }
  | .clear t => do { let b ← s.at? t; let h ← b.clear s.heap; some { s with heap := h } }
  | .mul t x y => do { let b ← s.at? t; let u ← s.at? x; let v ← s.at? y; let h ← b.mulFrom s.heap u v; some { s with heap := h } }
  | .add t x => do { let b ← s.at? t; let u ← s.at? x; let h ← b.addFrom s.heap u; some { s with heap := h } }
  | .mac t x y => do { let b ← s.at? t; let u ← s.at? x; let v ← s.at? y; let h ← b.mulAccFrom s.heap u v; some { s with heap := h } }
  | .drop k => ((s.vecs k).destroy s.heap).map fun h => ⟨h, Function.update s.vecs k {}⟩

/-- Any sequence of operations (for example FrequencyDelayLine.cpp:5-39 followed by UniformPartitionedConvolver.cpp:54-122). -/
noncomputable def run (grow : ℕ → ℕ) : Buffers → List BufOp → Option Buffers
  | s, [] => some s
  | s, o :: os => (s.step grow o).bind fun s => run grow s os

end Buffers

end Zones.Model
