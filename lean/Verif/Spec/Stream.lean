import Verif.Model.Buffers
import Verif.Spec.Signal

/-!
# Streams of audio blocks

Vocabulary for the properties: what a caller feeds to, and receives from, an object that processes blocks in place.
Only the data type `Buf` (channel count, length, samples) is taken from the model.
-/

namespace Zones.Spec
open Zones.Model

/-- Total number of samples in a sequence of blocks. -/
def totalLen : List Buf → ℕ
  | [] => 0
  | b :: bs => b.n + totalLen bs

/-- The concatenation of a sequence of blocks: sample `n` of channel `ch`. -/
def stream : List Buf → ℕ → ℕ → ℝ
  | [], _, _ => 0
  | b :: bs, ch, n => if n < b.n then b.data ch n else stream bs ch (n - b.n)

/-- Call an in-place `process` on one block after the other; the results are the blocks it leaves behind.
`none` if any call is undefined. -/
def feed {σ : Type} (process : σ → Buf → Option (σ × Buf)) : σ → List Buf → Option (σ × List Buf)
  | s, [] => some (s, [])
  | s, b :: bs => (process s b).bind fun r => (feed process r.1 bs).map fun q => (q.1, r.2 :: q.2)

/-- Two sequences of blocks of the same shape (number of blocks, channels, lengths). -/
def SameShape (xs ys : List Buf) : Prop := List.Forall₂ (fun a b => a.ch = b.ch ∧ a.n = b.n) xs ys

/-- The operations a caller can perform on a convolver. -/
inductive Op
  | process (b : Buf)
  | reset

/-- A history of operations; `none` if any of them is undefined. -/
def history {σ : Type} (process : σ → Buf → Option (σ × Buf)) (reset : σ → σ) : σ → List Op → Option σ
  | s, [] => some s
  | s, .process b :: ops => (process s b).bind fun r => history process reset r.1 ops
  | s, .reset :: ops => history process reset (reset s) ops

/-- The first `n` entries of a routing vector exist and name channels below `N`. -/
def ValidRouting (r : List ℤ) (n N : ℕ) : Prop := ∀ c < n, ∃ z, r[c]? = some z ∧ 0 ≤ z ∧ z < N

/-- Channel named by entry `c` of a routing vector. -/
def channelAt (r : List ℤ) (c : ℕ) : ℕ := (r.getD c 0).toNat

open Finset in
/-- What output channel `o` should be at sample `n`: the sum, over the convolution channels `c` routed to `o`, of the
convolution of impulse response channel `c` with the input channel routed to `c`. -/
noncomputable def routedConv (ir : Buf) (inRouting outRouting : List ℤ) (x : ℕ → ℕ → ℝ) (o n : ℕ) : ℝ :=
  ∑ c ∈ range ir.ch, if channelAt outRouting c = o then linConv ir.n (ir.data c) (x (channelAt inRouting c)) n else 0

end Zones.Spec
