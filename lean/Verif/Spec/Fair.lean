import Verif.Spec.EngineSys

/-!
# Endless behaviours of the system and fair scheduling

For the properties that something finally happens.
-/

namespace Zones.Spec
open Zones.Model

variable {V R : Type}

/-- What happens in the system for ever: the states it goes through and the step taken in each, if any. -/
structure Behaviour (ops : ConvOps V) (build : R → ProcSpec → V) where
  state : ℕ → Sys V R
  act : ℕ → Option (Label R)
  start : state 0 = {}
  step : ∀ n l, act n = some l → Step ops build (state n) l (state (n + 1))
  rest : ∀ n, act n = none → state (n + 1) = state n

/-- The step can be taken. -/
def Enabled (ops : ConvOps V) (build : R → ProcSpec → V) (s : Sys V R) (l : Label R) : Prop := ∃ s', Step ops build s l s'

namespace Behaviour
variable {ops : ConvOps V} {build : R → ProcSpec → V}

/-- The scheduler is fair to some threads, whose steps are `T`: it is not the case that one of these steps can be taken at every moment from some moment on and
yet none of them ever is. -/
def Fair (b : Behaviour ops build) (T : Label R → Prop) : Prop :=
  ∀ n, (∀ m, n ≤ m → ∃ l, T l ∧ Enabled ops build (b.state m) l) → ∃ m, n ≤ m ∧ ∃ l, b.act m = some l ∧ T l

/-- The steps taken from moment `n` on, `k` moments long. -/
def during (b : Behaviour ops build) (n : ℕ) : ℕ → List (Label R)
  | 0 => []
  | k + 1 => b.during n k ++ (b.act (n + k)).toList

/-- The steps taken before moment `n`. -/
def upTo (b : Behaviour ops build) (n : ℕ) : List (Label R) := b.during 0 n

/-- No call of `LoadIR` gets the lock of its engine at moment `n` or later. -/
def NoLoadsFrom (b : Behaviour ops build) (n : ℕ) : Prop := ∀ m, n ≤ m → ∀ e req, b.act m ≠ some (.loadLock e req)

/-- From moment `n` on no engine is destroyed that has a job in the thread pool. -/
def NoDanglingFrom (b : Behaviour ops build) (n : ℕ) : Prop :=
  (∀ j ∈ (b.state n).jobs, ((b.state n).engs j.eng).status = .alive) ∧
    ∀ m, n ≤ m → ∀ e, b.act m = some (.destroy e) → ∀ j ∈ (b.state m).jobs, j.eng ≠ e

end Behaviour

/-- Steps of `LoadIR` calls that have the lock, and of the workers of the thread pool. -/
def loadingSteps : Label R → Prop
  | .loadRemove _ | .loadFlag _ | .loadAdd _ => True
  | l => workerSteps l

/-- Steps of the background thread of engine `e`. -/
def backgroundSteps (e : ℕ) : Label R → Prop
  | .bgBegin e' | .bgVisit e' | .bgEnd e' => e' = e
  | _ => False

end Zones.Spec
