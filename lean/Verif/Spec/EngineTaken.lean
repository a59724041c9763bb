import Verif.Spec.EngineSys

/-!
# How many convolvers an audio-side call takes from the queue
-/

namespace Zones.Spec
open Zones.Model

variable {R : Type}

/-- One more step: a call of engine `e` begins, having taken nothing; or it takes another convolver. -/
def countTaken (e : ℕ) (taken : List ℕ) : Label R → List ℕ
  | .call e' _ => if e' = e then taken ++ [0] else taken
  | .visit e' => if e' = e then taken.dropLast ++ [taken.getLastD 0 + 1] else taken
  | _ => taken

/-- For each audio-side call of engine `e` in an execution, the number of convolvers it has taken from the queue. -/
def takenBy (e : ℕ) (ls : List (Label R)) : List ℕ := ls.foldl (countTaken e) []

end Zones.Spec
