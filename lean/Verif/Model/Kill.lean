import Verif.Model.EngineSys

/-!
# Destroying an engine whose background thread does not stop in time

`~ConvolutionEngine` calls `stopThread (100)` (ConvolutionEngine.cpp:53-56): the background thread is asked to stop (ConvolutionEngine.cpp:60), and if it is still running after
100 milliseconds, `juce::Thread::stopThread` kills it. `Model/EngineSys.lean` only has destructors that wait for it. Here it may also be killed, wherever it is in
`Service` (ConvolutionEngine.h:20-29): between two commands, or inside the visitor (ConvolutionEngine.cpp:67-71), after the command has been moved out of the
queue's storage into a variable of the killed thread.

Simplifications: time is not modelled, so the thread may be killed whenever it is in `Service`; a convolver whose destruction is interrupted counts as not
destroyed, however far its destructor has come. Not modelled: what else a killed thread leaves behind (for example a locked mutex of the memory allocator).
-/

namespace Zones.Model

/-- The system, and for each engine the convolvers that were on the stack of its background thread when that was killed (`command`, ConvolutionEngine.h:26). -/
structure KSys (V R : Type) where
  sys : Sys V R := {}
  lost : ℕ → List ℕ := fun _ => []

/-- The steps of the system (ConvolutionEngine.cpp:25-278), and a destructor that kills the background thread (ConvolutionEngine.cpp:53-56). -/
inductive KLabel (R : Type)
  | sys (l : Label R)
  | kill (e : ℕ)

/-- The engine after its destruction, its convolvers having been destroyed with its members (ConvolutionEngine.h:153-155, 163-164). The killed thread does nothing any more. -/
def Eng.killed {V R : Type} (x : Eng V R) : Eng V R :=
  { x with
    status := .dead
    core := {}
    cmd := []
    ntf := []
    ntfTaken := 0
    bg := none
    freed := x.freed ++ x.holding.map fun h => (h.id, .destructor) }

/-- The steps. The caller must not destroy an engine in use. -/
inductive KStep {V R : Type} (ops : ConvOps V) (build : R → ProcSpec → V) : KSys V R → KLabel R → KSys V R → Prop
  /-- the steps of the system (ConvolutionEngine.cpp:25-278) -/
  | sys {s : KSys V R} {l : Label R} {s' : Sys V R} (h : Step ops build s.sys l s') : KStep ops build s (.sys l) ⟨s', s.lost⟩
  /-- the background thread is killed in `Service`, between two commands (ConvolutionEngine.cpp:53-56, ConvolutionEngine.h:20-29) -/
  | kill {s : KSys V R} {e n : ℕ} (ha : (s.sys.engs e).status = .alive) (h : (s.sys.engs e).pc = .idle) (hl : (s.sys.engs e).loader = none)
      (hb : (s.sys.engs e).bg = some n) : KStep ops build s (.kill e) ⟨s.sys.setEng e (s.sys.engs e).killed, s.lost⟩
  /-- it is killed while it destroys a convolver (ConvolutionEngine.cpp:53-56, 67-71, ConvolutionEngine.h:26-27) -/
  | killVisiting {s : KSys V R} {e n : ℕ} {o : Option (Held V)} {rest : List (Option (Held V))} (ha : (s.sys.engs e).status = .alive) (h : (s.sys.engs e).pc = .idle)
      (hl : (s.sys.engs e).loader = none) (hb : (s.sys.engs e).bg = some (n + 1)) (hc : (s.sys.engs e).ntf = o :: rest) :
      KStep ops build s (.kill e)
        ⟨s.sys.setEng e ({ s.sys.engs e with ntf := rest }).killed, Function.update s.lost e (s.lost e ++ o.toList.map Held.id)⟩

/-- A sequence of steps (the lines of ConvolutionEngine.cpp are cited at the rules of `KStep`). -/
inductive KRun {V R : Type} (ops : ConvOps V) (build : R → ProcSpec → V) : KSys V R → List (KLabel R) → KSys V R → Prop
  | nil (s : KSys V R) : KRun ops build s [] s
  | cons {s s1 s2 : KSys V R} {l : KLabel R} {ls : List (KLabel R)} (h : KStep ops build s l s1) (t : KRun ops build s1 ls s2) : KRun ops build s (l :: ls) s2

end Zones.Model
