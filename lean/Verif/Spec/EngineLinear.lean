import Verif.Spec.EngineSys

/-!
# The same calls with other samples

For C102: histories of an engine that differ in the samples only.
-/

namespace Zones.Spec
open Zones.Model

/-- The same call; `process` is given a block of the same shape, with any samples. (What `prepare` finds in newly allocated memory may differ, too.) -/
inductive LikeCall : Call → Call → Prop
  | process {b b' : Buf} (ch : b'.ch = b.ch) (n : b'.n = b.n) : LikeCall (.process b) (.process b')
  | reset : LikeCall .reset .reset
  | clear : LikeCall .clear .clear
  | prepare (p : ProcSpec) (g g' : ℕ → ℕ → ℝ) : LikeCall (.prepare p g) (.prepare p g')

/-- The same calls, finding the same arriving responses. -/
def LikeCalls {H : Type} (h h' : List (List H × Call)) : Prop := List.Forall₂ (fun x y => x.1 = y.1 ∧ LikeCall x.2 y.2) h h'

/-- The block a call brings. -/
def blockOf : Call → Option Buf
  | .process b => some b
  | _ => none

/-- All blocks a history brings, in order. -/
def inputs {H : Type} (h : List (H × Call)) : List Buf := h.filterMap fun b => blockOf b.2

end Zones.Spec
