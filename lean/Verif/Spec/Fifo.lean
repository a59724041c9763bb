import Mathlib.Data.List.Basic

/-! # Specification of a bounded first-in first-out queue -/

namespace Zones.Spec

/-- Operations on a queue of commands. -/
inductive QOp (α : Type)
  | push (a : α)
  | service

/-- Their results: was the command accepted; which commands were handed to the visitor. -/
inductive QRes (β : Type)
  | pushed (accepted : Bool)
  | serviced (commands : List β)

/-- A queue with room for `cap` commands that currently holds `waiting` (oldest first). -/
def boundedFifo {α β : Type} (show_ : α → β) (cap : ℕ) : List α → List (QOp α) → List (QRes β)
  | _, [] => []
  | waiting, .push a :: ops =>
    if waiting.length < cap then .pushed true :: boundedFifo show_ cap (waiting ++ [a]) ops
    else .pushed false :: boundedFifo show_ cap waiting ops
  | waiting, .service :: ops => .serviced (waiting.map show_) :: boundedFifo show_ cap [] ops

/-- The commands waiting in such a queue after some operations. -/
def waitingAfter {α : Type} (cap : ℕ) : List α → List (QOp α) → List α
  | waiting, [] => waiting
  | waiting, .push a :: ops => waitingAfter cap (if waiting.length < cap then waiting ++ [a] else waiting) ops
  | _, .service :: ops => waitingAfter cap [] ops

end Zones.Spec
