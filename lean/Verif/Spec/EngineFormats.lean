import Verif.Spec.EngineSys

/-!
# The format for which a convolver is made
-/

namespace Zones.Spec
open Zones.Model

variable {R : Type}

/-- Number `i` of the `LoadIR` calls is the latest to engine `e`, and it asks for `req`. -/
def LatestLoad (e i : ℕ) (req : R) (ls : List (Label R)) : Prop :=
  (loadsIn ls)[i]? = some (e, req) ∧ ∀ (j : ℕ) (x : ℕ × R), i < j → (loadsIn ls)[j]? = some x → x.1 ≠ e

/-- In the execution, `LoadIR` call number `i`, to engine `e`, asking for `req`, hands a job to the thread pool; when it does so, `p` is the format the engine has last been prepared for. -/
def HandedOver (e i : ℕ) (req : R) (p : ProcSpec) (ls : List (Label R)) : Prop :=
  ∃ ls1 ls2, ls = ls1 ++ .loadAdd e :: ls2 ∧ LatestLoad e i req ls1 ∧ (formatsIn e ls1).getLast? = some p

end Zones.Spec
