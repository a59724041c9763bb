import Verif.Model.Kill
import Verif.Spec.EngineSys

/-! # What the kill of a background thread may change (for C106) -/

namespace Zones.Spec
open Zones.Model

variable {V R : Type}

/-- `s` is a state the system can be in after the steps `ls`. -/
def KExec (ops : ConvOps V) (build : R → ProcSpec → V) (ls : List (KLabel R)) (s : KSys V R) : Prop := KRun ops build {} ls s

/-- The same step in a system whose destructors wait. -/
def KLabel.asIfWaited : KLabel R → Label R
  | .sys l => l
  | .kill e => .destroy e

/-- A step of some background thread. -/
def inBackground : Label R → Bool
  | .bgBegin _ | .bgVisit _ | .bgEnd _ => true
  | _ => false

/-- The steps of all other threads, in their order. -/
def foreground (ls : List (Label R)) : List (Label R) := ls.filter fun l => !inBackground l

/-- The same in everything but which convolvers have been destroyed, in which order, by whom. -/
def SameButFreed (x y : Eng V R) : Prop := y = { x with freed := y.freed }

end Zones.Spec
