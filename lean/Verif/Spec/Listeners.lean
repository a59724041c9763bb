import Verif.Model.Listeners
import Verif.Spec.EngineSys

/-!
# What C108 says about listeners
-/

namespace Zones.Spec

open Zones.Model

variable {V R : Type}

/-- An execution from the beginning, without engines and listeners. -/
def LExec (ops : ConvOps V) (build : R → ProcSpec → V) (ls : List (LLabel R)) (x : LSys V R) : Prop := LRun ops build {} ls x

/-- The steps other than those of the listeners. -/
def sysSteps : List (LLabel R) → List (Label R)
  | [] => []
  | .sys l :: ls => l :: sysSteps ls
  | _ :: ls => sysSteps ls

/-- The calls of listener `l` by engine `e`, in order. -/
def callsOf (e l : ℕ) (log : List Told) : List Told := log.filter fun t => t.eng = e ∧ t.listener = l

/-- The listener is among those still to be called in a round of calls that has begun. -/
def BeingCalled (x : LSys V R) (e l : ℕ) : Prop := l ∈ x.loud e ∨ x.msg.1 = e ∧ l ∈ x.msg.2

/-- Engine `e` has been reset, prepared or cleared since it last called listener `l`. -/
def ResetSince (ops : ConvOps V) (build : R → ProcSpec → V) (ls : List (LLabel R)) (x : LSys V R) (e l : ℕ) : Prop :=
  ∃ before k after x₀, ls = before ++ .sys (.call e k) :: after ∧ (∀ blk, k ≠ .process blk) ∧ LExec ops build before x₀ ∧ callsOf e l x₀.log = callsOf e l x.log

end Zones.Spec
