import Verif.Model.Heap

/-!
# Buffers as values

What C100 compares the pointers with: a vector of buffers is a list of values (`CBuf`), and an operation changes the value it is told to change.
-/

namespace Zones.Spec
open Zones.Model

/-- The values of all buffers: a list for each vector. -/
abbrev Values := ℕ → List CBuf

/-- A buffer with the given channels. -/
def filled (np ch : ℕ) (d : ℕ → ℕ → ℂ) : CBuf := ⟨np, ch, fun i => d (i / np) (i % np)⟩

/-- The value in a place. -/
def Values.at? (vs : Values) (t : Place) : Option CBuf := (vs t.vec)[t.pos]?

/-- A new value in a place. -/
def Values.put (vs : Values) (t : Place) (b : CBuf) : Values := Function.update vs t.vec ((vs t.vec).set t.pos b)

/-- One operation on values; undefined if a place, a channel or a shape is wrong. -/
noncomputable def Values.step (vs : Values) : BufOp → Option Values
  | .build k np ch d => some (Function.update vs k (vs k ++ [filled np ch d]))
  | .write t c d => (vs.at? t).bind fun b => if c < b.ch then some (vs.put t (b.setChannel c d)) else none
  | .clear t => (vs.at? t).map fun b => vs.put t b.clear
  | .mul t x y => do { let b ← vs.at? t; let u ← vs.at? x; let v ← vs.at? y; (b.mulFrom u v).map (vs.put t) }
  | .add t x => do { let b ← vs.at? t; let u ← vs.at? x; (b.addFrom u).map (vs.put t) }
  | .mac t x y => do { let b ← vs.at? t; let u ← vs.at? x; let v ← vs.at? y; (b.mulAccFrom u v).map (vs.put t) }
  | .drop k => some (Function.update vs k [])

/-- Any sequence of operations on values. -/
noncomputable def Values.run : Values → List BufOp → Option Values
  | vs, [] => some vs
  | vs, o :: os => (vs.step o).bind fun vs => Values.run vs os

/-- Seen through the object `o`, the memory holds the value `v`: through the channel pointers and through the vector. -/
structure SeenAs (h : Heap) (o : CObj) (v : CBuf) : Prop where
  shape : o.np = v.np ∧ o.ch = v.ch
  pointers : ∀ c < v.ch, ∃ p, o.ptrs[c]? = some p ∧ ∀ i < v.np, h.load p i = some (v.get c i)
  vector : ∀ i < v.size, o.element h i = some (v.data i)

/-- The allocations that have not been freed. -/
def Heap.live (h : Heap) : Set ℕ := {a | h.cell a ≠ none}

end Zones.Spec
