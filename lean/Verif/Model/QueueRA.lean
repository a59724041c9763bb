import Verif.Model.Queue

/-!
# `ConvolutionVisitorQueue` (ConvolutionEngine.h:11-58) on a weakly ordered memory

`Model/Queue.lean` interleaves single loads and stores of one memory. Here there is no such memory. `validStart` and `validEnd` are
C++ atomics of which only release/acquire ordering is assumed (`juce::Atomic` uses `memory_order_seq_cst`, which has no more
executions), in the usual operational presentation of release/acquire:

* an atomic variable is the list of all values ever stored to it (each of the two is stored to by one thread only, so their modification
  order is the order of these stores);
* a thread has a *view*: how far it knows each list, and how many accesses it knows of to each slot of `storage_`;
* a load may return any value that is not older than the view allows, and adds the view stored with the value to that of the thread
  (acquire); a store records the view of the thread with the value (release);
* the slots are not atomic: an access by a thread that does not know of all earlier accesses to the slot is a data race, that is,
  undefined behaviour. Both sides write to the slots (`Service` moves from them), so any two accesses conflict.

The labels `told` say that a thread comes to know all that the other one knows, by any other synchronisation in the program.
-/

namespace Zones.Model

/-- What a thread knows: positions in the lists of `validStart` and `validEnd`, and numbers of accesses to each slot.
(of `fifo_` and `storage_`, ConvolutionEngine.h:56-57). -/
structure Knowledge where
  vs : ℕ
  ve : ℕ
  slots : ℤ → ℕ

namespace Knowledge

/-- Knowing nothing but the initial state (ConvolutionEngine.h:56-57). -/
def none : Knowledge := ⟨0, 0, fun _ => 0⟩

/-- Knowing both. (at the loads of ConvolutionEngine.h:23, 34). -/
def join (a b : Knowledge) : Knowledge := ⟨max a.vs b.vs, max a.ve b.ve, fun i => max (a.slots i) (b.slots i)⟩

end Knowledge

/-- A value stored to an atomic variable, with the view of the storing thread. (the variables of `fifo_`, ConvolutionEngine.h:56). -/
structure Msg where
  val : ℤ
  view : Knowledge

/-- All stores to an atomic variable, in order: `msg 0`, ..., `msg (len - 1)`. (the variables of `fifo_`, ConvolutionEngine.h:56). -/
structure Loc where
  len : ℕ
  msg : ℕ → Msg

/-- The initial value of an atomic variable (ConvolutionEngine.h:56). -/
def Loc.init : Loc := ⟨1, fun _ => ⟨0, Knowledge.none⟩⟩

/-- A further store. (at the end of `read` and `write`, ConvolutionEngine.h:23, 37). -/
def Loc.store (l : Loc) (m : Msg) : Loc := ⟨l.len + 1, Function.update l.msg l.len m⟩

/-- The queue and the two threads as in `QSys`; `pv`, `cv`: the views of the pushing and of the servicing thread; `touched i`: number
of accesses to slot `i` so far; `race`: a data race has happened (ConvolutionEngine.h:12-58). -/
structure RSys (α : Type) where
  vs : Loc
  ve : Loc
  slots : ℤ → Option α
  touched : ℤ → ℕ
  pv : Knowledge
  cv : Knowledge
  p : PPc α
  c : CPc
  accepted : List α
  visited : List (Option α)
  released : ℕ
  results : List Bool
  served : ℕ
  race : Bool

/-- Scheduler choices: a thread begins a call, or performs its next step, where a load returns the `k`-th value of the variable.
(ConvolutionEngine.h:21-44). -/
inductive RLabel (α : Type)
  | push (a : α)
  | producer (k : ℕ)
  | service
  | consumer (k : ℕ)
  | producerTold
  | consumerTold

namespace RSys
variable {α : Type}

/-- A new queue; both threads know of its construction (ConvolutionEngine.h:56-57). -/
def init : RSys α := ⟨.init, .init, fun _ => none, fun _ => 0, .none, .none, .idle, .idle, [], [], 0, [], 0, false⟩

/-- An acquire load by a thread with view `v`, of which `pos` is its position in the list: the value and the new view; `none`: the `k`-th
value cannot be returned. (in ConvolutionEngine.h:23, 34, 37). -/
def load (l : Loc) (v : Knowledge) (pos : ℕ) (k : ℕ) : Option (ℤ × Knowledge) :=
  if pos ≤ k ∧ k < l.len then some ((l.msg k).val, v.join (l.msg k).view) else none

/-- Next step of the pushing thread (ConvolutionEngine.h:31-43). -/
def pstep (s : RSys α) (k : ℕ) : Option (RSys α) :=
  match s.p with
  | .idle => none
  | .free1 a => (load s.vs s.pv s.pv.vs k).map fun r => { s with p := .free2 a r.1, pv := r.2 }
  | .free2 a vs => (load s.ve s.pv s.pv.ve k).map fun r =>
    if Fifo.freeSpace kMaxQueueSize vs r.1 = 0 then { s with p := .idle, pv := r.2, results := s.results ++ [false] }
    else { s with p := .prep1 a, pv := r.2 }
  | .prep1 a => (load s.vs s.pv s.pv.vs k).map fun r => { s with p := .prep2 a r.1, pv := r.2 }
  | .prep2 a vs => (load s.ve s.pv s.pv.ve k).map fun r =>
    { s with p := .write a (Fifo.prepareToWrite kMaxQueueSize vs r.1 1), pv := r.2 }
  | .write a w =>
    if w.b1 ≠ 0 then some { s with p := .writing a w.s1 (w.b1 + w.b2) }
    else if w.b2 ≠ 0 then some { s with p := .writing a w.s2 (w.b1 + w.b2) }
    else some { s with p := .fin1 a (w.b1 + w.b2) }
  | .writing a i b =>
    some { s with
      p := .fin1 a b, slots := Function.update s.slots i (some a), race := s.race || decide (s.pv.slots i < s.touched i),
      touched := Function.update s.touched i (s.touched i + 1),
      pv := { s.pv with slots := Function.update s.pv.slots i (s.touched i + 1) } }
  | .fin1 a b => (load s.ve s.pv s.pv.ve k).map fun r => { s with p := .fin2 a (Fifo.advance kMaxQueueSize r.1 b), pv := r.2 }
  | .fin2 a ve =>
    let view := { s.pv with ve := s.ve.len }
    some { s with
      p := .idle, ve := s.ve.store ⟨ve, view⟩, pv := view, accepted := s.accepted ++ [a], results := s.results ++ [true] }

/-- Next step of the servicing thread (ConvolutionEngine.h:20-29). -/
def cstep (s : RSys α) (k : ℕ) : Option (RSys α) :=
  match s.c with
  | .idle => none
  | .ready1 => (load s.vs s.cv s.cv.vs k).map fun r => { s with c := .ready2 r.1, cv := r.2 }
  | .ready2 vs => (load s.ve s.cv s.cv.ve k).map fun r => { s with c := .prep1 (Fifo.numReady kMaxQueueSize vs r.1), cv := r.2 }
  | .prep1 n => (load s.vs s.cv s.cv.vs k).map fun r => { s with c := .prep2 n r.1, cv := r.2 }
  | .prep2 n vs => (load s.ve s.cv s.cv.ve k).map fun r =>
    let b := Fifo.prepareToRead kMaxQueueSize vs r.1 n
    { s with c := .loop b.indices (b.b1 + b.b2), cv := r.2 }
  | .loop (i :: is) b => some { s with c := .reading i is b }
  | .loop [] b => some { s with c := .fin1 b }
  | .reading i is b =>
    some { s with
      c := .loop is b, visited := s.visited ++ [s.slots i], slots := Function.update s.slots i none,
      race := s.race || decide (s.cv.slots i < s.touched i),
      touched := Function.update s.touched i (s.touched i + 1),
      cv := { s.cv with slots := Function.update s.cv.slots i (s.touched i + 1) } }
  | .fin1 b => (load s.vs s.cv s.cv.vs k).map fun r => { s with c := .fin2 (Fifo.advance kMaxQueueSize r.1 b), cv := r.2 }
  | .fin2 vs =>
    let view := { s.cv with vs := s.vs.len }
    some { s with
      c := .idle, vs := s.vs.store ⟨vs, view⟩, cv := view, released := s.visited.length, served := s.served + 1 }

/-- One step of the system; `none`: not possible now (ConvolutionEngine.h:21-44). -/
def step (s : RSys α) : RLabel α → Option (RSys α)
  | .push a => match s.p with
    | .idle => some { s with p := .free1 a }
    | _ => none
  | .producer k => s.pstep k
  | .service => match s.c with
    | .idle => some { s with c := .ready1 }
    | _ => none
  | .consumer k => s.cstep k
  | .producerTold => some { s with pv := s.pv.join s.cv }
  | .consumerTold => some { s with cv := s.cv.join s.pv }

/-- An execution (ConvolutionEngine.h:21-44). -/
def run : RSys α → List (RLabel α) → Option (RSys α)
  | s, [] => some s
  | s, l :: ls => (s.step l).bind fun s' => s'.run ls

end RSys

end Zones.Model
