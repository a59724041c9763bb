import Verif.Model.EngineSys
import Mathlib.Logic.Function.Basic

/-!
# The listeners of an engine

`ConvolutionEngine` is a `juce::ListenerList<ConvolutionEngineListener>` (ConvolutionEngine.h:113-116, 123). `EmitLoadingEvent` (ConvolutionEngine.cpp:285-288) calls the
listeners one after another: on the thread that calls `LoadIR`, which holds `load_mutex_` meanwhile (ConvolutionEngine.cpp:248-256), and on the message thread
(ConvolutionEngine.cpp:266-267). `Model/EngineSys.lean` does this in one step and has no listeners. Here each listener is called in a step of its own, so that everything else
(other threads, the other round of calls, and the listeners themselves when they are called) may act in between, also by adding and removing listeners.

`juce::ListenerList` is external; it is modelled after its documentation: a listener can be added only once; listeners added while the listeners are being called are not called in that
round; one that is removed before its turn is not called any more. Simplifications: that `ListenerList` is not thread safe (it may only be used by one thread at a time) is not
modelled; calls of `OnLoadingUpdated` are single steps, and all a listener does in them are other steps after it.
-/

namespace Zones.Model

/-- On which thread a listener is called: within `LoadIR`, or on the message thread (ConvolutionEngine.cpp:256, 266-267). -/
inductive Caller
  | loadIR
  | messages
deriving DecidableEq

/-- A call of `OnLoadingUpdated` (ConvolutionEngine.h:115), and what `IsLoading` (ConvolutionEngine.cpp:280-283) would return in it. -/
structure Told where
  eng : ℕ
  listener : ℕ
  caller : Caller
  loading : Bool
deriving DecidableEq

/-- The system with the listeners of its engines. `log`, `announced` and `completed` are a record of what has happened (ConvolutionEngine.h:118-123). -/
structure LSys (V R : Type) where
  sys : Sys V R := {}
  /-- the listeners of each engine, in the order in which they have been added -/
  regs : ℕ → List ℕ := fun _ => []
  /-- those the `LoadIR` in progress has still to call -/
  loud : ℕ → List ℕ := fun _ => []
  /-- the engine whose listeners the message thread is calling, and those it has still to call -/
  msg : ℕ × List ℕ := (0, [])
  /-- all calls of listeners -/
  log : List Told := []
  /-- the loads of each engine that have set `is_loading_`, in order -/
  announced : ℕ → List ℕ := fun _ => []
  /-- the loads of each engine that have been delivered or refused, in order -/
  completed : ℕ → List ℕ := fun _ => []

/-- The steps of the system (ConvolutionEngine.cpp:25-278), calls of one listener in the two rounds (ConvolutionEngine.cpp:287), and `add` and `remove` of `juce::ListenerList`. -/
inductive LLabel (R : Type)
  | sys (l : Label R)
  | tellLoadIR (e : ℕ)
  | tellMessages
  | register (e l : ℕ)
  | unregister (e l : ℕ)

variable {V R : Type}

/-- What a step of the system means for the listeners: `EmitLoadingEvent` begins to call them (ConvolutionEngine.cpp:256, 267, 285-288); they go with the engine
(ConvolutionEngine.cpp:53-56). Also kept: which loads have got so far as to set `is_loading_` (ConvolutionEngine.cpp:255) and to reset it (ConvolutionEngine.cpp:265). -/
def LSys.after (x : LSys V R) (l : Label R) (s' : Sys V R) : LSys V R :=
  match l with
  | .loadFlag e => match (s'.engs e).loader with
    | some (i, _, _) => { x with
        sys := s'
        loud := Function.update x.loud e (x.regs e)
        announced := Function.update x.announced e (x.announced e ++ [i]) }
    | none => { x with sys := s' }
  | .async => match x.sys.async with
    | e :: _ => { x with
        sys := s'
        msg := (e, x.regs e) }
    | [] => { x with sys := s' }
  | .jobDone i => match x.sys.jobs.find? fun j => j.id = i with
    | some j => if (x.sys.engs j.eng).status = .alive then { x with
        sys := s'
        completed := Function.update x.completed j.eng (x.completed j.eng ++ [i]) } else { x with sys := s' }
    | none => { x with sys := s' }
  | .destroy e => { x with
      sys := s'
      regs := Function.update x.regs e [] }
  | _ => { x with sys := s' }

/-- The steps. The caller must not destroy an engine while its listeners are being called, and not use it afterwards. -/
inductive LStep (ops : ConvOps V) (build : R → ProcSpec → V) : LSys V R → LLabel R → LSys V R → Prop
  /-- the steps of the system (ConvolutionEngine.cpp:25-278): `LoadIR` adds the job when all listeners have been called (ConvolutionEngine.cpp:256-258), the message thread takes the next
  callback when all have been called (ConvolutionEngine.cpp:266-267) -/
  | sys {x : LSys V R} {l : Label R} {s' : Sys V R} (h : Step ops build x.sys l s') (h1 : ∀ e, l = .loadAdd e → x.loud e = [])
      (h2 : l = .async → x.msg.2 = []) (h3 : ∀ e, l = .destroy e → x.msg.1 = e → x.msg.2 = []) : LStep ops build x (.sys l) (x.after l s')
  /-- `LoadIR` calls the next listener (ConvolutionEngine.cpp:256, 287) -/
  | tellLoadIR {x : LSys V R} {e l : ℕ} {rest : List ℕ} (h : x.loud e = l :: rest) :
      LStep ops build x (.tellLoadIR e) { x with
        loud := Function.update x.loud e rest
        log := x.log ++ [⟨e, l, .loadIR, (x.sys.engs e).loading⟩] }
  /-- the message thread calls the next listener (ConvolutionEngine.cpp:267, 287) -/
  | tellMessages {x : LSys V R} {l : ℕ} {rest : List ℕ} (h : x.msg.2 = l :: rest) :
      LStep ops build x .tellMessages { x with
        msg := (x.msg.1, rest)
        log := x.log ++ [⟨x.msg.1, l, .messages, (x.sys.engs x.msg.1).loading⟩] }
  /-- `ListenerList::add` (ConvolutionEngine.h:123) -/
  | register {x : LSys V R} {e l : ℕ} (ha : (x.sys.engs e).status = .alive) :
      LStep ops build x (.register e l) { x with regs := Function.update x.regs e (if l ∈ x.regs e then x.regs e else x.regs e ++ [l]) }
  /-- `ListenerList::remove` (ConvolutionEngine.h:123) -/
  | unregister {x : LSys V R} {e l : ℕ} (ha : (x.sys.engs e).status = .alive) :
      LStep ops build x (.unregister e l) { x with
        regs := Function.update x.regs e ((x.regs e).erase l)
        loud := Function.update x.loud e ((x.loud e).erase l)
        msg := if x.msg.1 = e then (e, x.msg.2.erase l) else x.msg }

/-- A sequence of steps (the lines of ConvolutionEngine.cpp are cited at the rules of `LStep`). -/
inductive LRun (ops : ConvOps V) (build : R → ProcSpec → V) : LSys V R → List (LLabel R) → LSys V R → Prop
  | nil (x : LSys V R) : LRun ops build x [] x
  | cons {x x1 x2 : LSys V R} {l : LLabel R} {ls : List (LLabel R)} (h : LStep ops build x l x1) (t : LRun ops build x1 ls x2) : LRun ops build x (l :: ls) x2

end Zones.Model
