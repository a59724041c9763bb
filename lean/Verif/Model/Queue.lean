import Mathlib.Data.List.Basic
import Mathlib.Logic.Function.Basic
import Mathlib.Data.Int.Basic
import Mathlib.Tactic.Common

/-!
# Model of `ConvolutionVisitorQueue` (ConvolutionEngine.h:11-58)

`juce::AbstractFifo` is external; it is modelled after its source (JUCE `juce_AbstractFifo.cpp`): two atomic
integers `validStart` and `validEnd`. A slot of `storage_` holds `some a`, or `none` when its `unique_ptr` is null
(never written, or moved from). Two models: whole operations (`Queue.push`, `Queue.service`), and single loads and
stores of a producer and a consumer thread (`QSys.step`), sequentially consistent (`juce::Atomic` is
`std::atomic` with the default memory order; the non-atomic slot accesses are shown to be race free).
-/

namespace Zones.Model

/-- `juce::AbstractFifo`: `bufferSize`, `validStart`, `validEnd` (ConvolutionEngine.h:56). -/
structure Fifo where
  size : ℤ
  vs : ℤ
  ve : ℤ
deriving DecidableEq

/-- What `ScopedRead` / `ScopedWrite` hold (ConvolutionEngine.h:23, 37). -/
structure Blocks where
  s1 : ℤ
  b1 : ℤ
  s2 : ℤ
  b2 : ℤ
deriving DecidableEq

namespace Fifo

/-- `AbstractFifo::getNumReady`, given the two values loaded. Called in ConvolutionEngine.h:23, 48. -/
def numReady (size vs ve : ℤ) : ℤ := if ve ≥ vs then ve - vs else size - (vs - ve)

/-- `AbstractFifo::getFreeSpace`. Called in ConvolutionEngine.h:34. -/
def freeSpace (size vs ve : ℤ) : ℤ := size - numReady size vs ve - 1

/-- `AbstractFifo::prepareToWrite`. Called by `fifo_.write` (ConvolutionEngine.h:37). -/
def prepareToWrite (size vs ve num : ℤ) : Blocks :=
  let free := if ve ≥ vs then size - (ve - vs) else vs - ve
  let num := min num (free - 1)
  if num ≤ 0 then ⟨0, 0, 0, 0⟩
  else
    let b1 := min (size - ve) num
    let num := num - b1
    ⟨ve, b1, 0, if num ≤ 0 then 0 else min num vs⟩

/-- `AbstractFifo::prepareToRead`. Called by `fifo_.read` (ConvolutionEngine.h:23). -/
def prepareToRead (size vs ve num : ℤ) : Blocks :=
  let num := min num (numReady size vs ve)
  if num ≤ 0 then ⟨0, 0, 0, 0⟩
  else
    let b1 := min (size - vs) num
    let num := num - b1
    ⟨vs, b1, 0, if num ≤ 0 then 0 else min num ve⟩

/-- The new position computed by `finishedRead` / `finishedWrite`.
Called by the destructors of the objects of ConvolutionEngine.h:23, 37. -/
def advance (size pos num : ℤ) : ℤ := if pos + num ≥ size then pos + num - size else pos + num

end Fifo

/-- The indices visited by `ScopedReadWrite::forEach` (ConvolutionEngine.h:24). -/
def Blocks.indices (b : Blocks) : List ℤ :=
  (List.range b.b1.toNat).map (fun i : ℕ => b.s1 + (i : ℤ)) ++ (List.range b.b2.toNat).map (fun i : ℕ => b.s2 + (i : ℤ))

/-- `kMaxQueueSize` (ConvolutionEngine.h:52). -/
def kMaxQueueSize : ℤ := 400

/-- `fifo_` and `storage_` (ConvolutionEngine.h:56-57). -/
structure Queue (α : Type) where
  fifo : Fifo
  storage : ℤ → Option α

namespace Queue
variable {α : Type}

/-- A new queue (ConvolutionEngine.h:56-57). -/
def init : Queue α := ⟨⟨kMaxQueueSize, 0, 0⟩, fun _ => none⟩

/-- Valid index of `storage_` (ConvolutionEngine.h:57). -/
abbrev InRange (i : ℤ) : Prop := 0 ≤ i ∧ i < kMaxQueueSize

/-- `PushCommand` (ConvolutionEngine.h:31-43); `none`: an access outside `storage_`. -/
def push (q : Queue α) (a : α) : Option (Bool × Queue α) :=
  if Fifo.freeSpace q.fifo.size q.fifo.vs q.fifo.ve = 0 then some (false, q)
  else
    let w := Fifo.prepareToWrite q.fifo.size q.fifo.vs q.fifo.ve 1
    let fifo := { q.fifo with ve := Fifo.advance q.fifo.size q.fifo.ve (w.b1 + w.b2) }
    if w.b1 ≠ 0 then
      if InRange w.s1 then some (true, ⟨fifo, Function.update q.storage w.s1 (some a)⟩) else none
    else if w.b2 ≠ 0 then
      if InRange w.s2 then some (true, ⟨fifo, Function.update q.storage w.s2 (some a)⟩) else none
    else some (true, ⟨fifo, q.storage⟩)

/-- The lambda of `Service` for one index (ConvolutionEngine.h:24-28): the slot is moved from, its content is handed
to the visitor (here: appended to the list of visited commands). -/
def visitOne (st : List (Option α) × (ℤ → Option α)) (i : ℤ) : Option (List (Option α) × (ℤ → Option α)) :=
  if InRange i then some (st.1 ++ [st.2 i], Function.update st.2 i none) else none

/-- `Service` (ConvolutionEngine.h:20-29): the commands handed to the visitor, in order, and the queue afterwards. -/
def service (q : Queue α) : Option (List (Option α) × Queue α) :=
  let r := Fifo.prepareToRead q.fifo.size q.fifo.vs q.fifo.ve (Fifo.numReady q.fifo.size q.fifo.vs q.fifo.ve)
  (r.indices.foldlM visitOne ([], q.storage)).map fun p =>
    (p.1, ⟨{ q.fifo with vs := Fifo.advance q.fifo.size q.fifo.vs (r.b1 + r.b2) }, p.2⟩)

/-- `HasPendingCommands` (ConvolutionEngine.h:45-48). -/
def hasPending (q : Queue α) : Bool := decide (Fifo.numReady q.fifo.size q.fifo.vs q.fifo.ve > 0)

end Queue

/-! ## Single steps of a producer and a consumer -/

/-- Where the pushing thread is in `PushCommand (a)` (ConvolutionEngine.h:31-43). -/
inductive PPc (α : Type)
  /-- not in a call -/
  | idle
  /-- `getFreeSpace`: about to load `validStart` -/
  | free1 (a : α)
  /-- `getFreeSpace`: about to load `validEnd` -/
  | free2 (a : α) (vs : ℤ)
  /-- `prepareToWrite`: about to load `validStart` -/
  | prep1 (a : α)
  /-- `prepareToWrite`: about to load `validEnd` -/
  | prep2 (a : α) (vs : ℤ)
  /-- about to choose the slot -/
  | write (a : α) (w : Blocks)
  /-- assigning to slot `i` -/
  | writing (a : α) (i : ℤ) (b : ℤ)
  /-- `finishedWrite (b)`: about to load `validEnd` -/
  | fin1 (a : α) (b : ℤ)
  /-- `finishedWrite`: about to store `validEnd` -/
  | fin2 (a : α) (ve : ℤ)

/-- Where the servicing thread is in `Service` (ConvolutionEngine.h:20-29). -/
inductive CPc
  | idle
  /-- `getNumReady`: about to load `validStart` -/
  | ready1
  /-- `getNumReady`: about to load `validEnd` -/
  | ready2 (vs : ℤ)
  /-- `prepareToRead (n)`: about to load `validStart` -/
  | prep1 (n : ℤ)
  /-- `prepareToRead (n)`: about to load `validEnd` -/
  | prep2 (n vs : ℤ)
  /-- `forEach`, indices still to visit; `b` samples in total -/
  | loop (is : List ℤ) (b : ℤ)
  /-- moving from slot `i` -/
  | reading (i : ℤ) (is : List ℤ) (b : ℤ)
  /-- `finishedRead (b)`: about to load `validStart` -/
  | fin1 (b : ℤ)
  /-- `finishedRead`: about to store `validStart` -/
  | fin2 (vs : ℤ)

/-- The queue, the two threads, and the history: `accepted` are the commands whose push has taken effect, `visited` the
commands handed to the visitor, `released` how many of these have been given back to the producer, `results` the
values returned by the pushes, `served` the number of completed services (ConvolutionEngine.h:12-58). -/
structure QSys (α : Type) where
  vs : ℤ
  ve : ℤ
  slots : ℤ → Option α
  p : PPc α
  c : CPc
  accepted : List α
  visited : List (Option α)
  released : ℕ
  results : List Bool
  served : ℕ

/-- Scheduler choices: a thread begins a call or performs its next step. (`PushCommand` and `Service`, ConvolutionEngine.h:21-44). -/
inductive QLabel (α : Type)
  | push (a : α)
  | producer
  | service
  | consumer

namespace QSys
variable {α : Type}

/-- A new queue, both threads idle (ConvolutionEngine.h:56-57). -/
def init : QSys α := ⟨0, 0, fun _ => none, .idle, .idle, [], [], 0, [], 0⟩

/-- Next step of the pushing thread (ConvolutionEngine.h:32-44). -/
def pstep (s : QSys α) : Option (QSys α) :=
  match s.p with
  | .idle => none
  | .free1 a => some { s with p := .free2 a s.vs }
  | .free2 a vs =>
    if Fifo.freeSpace kMaxQueueSize vs s.ve = 0 then some { s with p := .idle, results := s.results ++ [false] }
    else some { s with p := .prep1 a }
  | .prep1 a => some { s with p := .prep2 a s.vs }
  | .prep2 a vs => some { s with p := .write a (Fifo.prepareToWrite kMaxQueueSize vs s.ve 1) }
  | .write a w =>
    if w.b1 ≠ 0 then some { s with p := .writing a w.s1 (w.b1 + w.b2) }
    else if w.b2 ≠ 0 then some { s with p := .writing a w.s2 (w.b1 + w.b2) }
    else some { s with p := .fin1 a (w.b1 + w.b2) }
  | .writing a i b => some { s with p := .fin1 a b, slots := Function.update s.slots i (some a) }
  | .fin1 a b => some { s with p := .fin2 a (Fifo.advance kMaxQueueSize s.ve b) }
  | .fin2 a ve =>
    some { s with p := .idle, ve := ve, accepted := s.accepted ++ [a], results := s.results ++ [true] }

/-- Next step of the servicing thread (ConvolutionEngine.h:21-30). -/
def cstep (s : QSys α) : Option (QSys α) :=
  match s.c with
  | .idle => none
  | .ready1 => some { s with c := .ready2 s.vs }
  | .ready2 vs => some { s with c := .prep1 (Fifo.numReady kMaxQueueSize vs s.ve) }
  | .prep1 n => some { s with c := .prep2 n s.vs }
  | .prep2 n vs =>
    let r := Fifo.prepareToRead kMaxQueueSize vs s.ve n
    some { s with c := .loop r.indices (r.b1 + r.b2) }
  | .loop (i :: is) b => some { s with c := .reading i is b }
  | .loop [] b => some { s with c := .fin1 b }
  | .reading i is b =>
    some { s with c := .loop is b, visited := s.visited ++ [s.slots i], slots := Function.update s.slots i none }
  | .fin1 b => some { s with c := .fin2 (Fifo.advance kMaxQueueSize s.vs b) }
  | .fin2 vs => some { s with c := .idle, vs := vs, released := s.visited.length, served := s.served + 1 }

/-- One step of the system; `none`: not possible now (ConvolutionEngine.h:21-44). -/
def step (s : QSys α) : QLabel α → Option (QSys α)
  | .push a => match s.p with
    | .idle => some { s with p := .free1 a }
    | _ => none
  | .producer => s.pstep
  | .service => match s.c with
    | .idle => some { s with c := .ready1 }
    | _ => none
  | .consumer => s.cstep

/-- A schedule (ConvolutionEngine.h:21-44). -/
def run : QSys α → List (QLabel α) → Option (QSys α)
  | s, [] => some s
  | s, l :: ls => (s.step l).bind fun s' => s'.run ls

end QSys

end Zones.Model
