import Mathlib.Data.List.Basic

/-! # Specification of a bounded queue whose operations are atomic steps

A push is one step. A service is one step that decides how many commands it will hand over (all that are waiting), one step for each of
them, and one step that gives their places back. -/

namespace Zones.Spec

/-- `waiting`: the commands in the queue, oldest first; `taken`: places of commands handed over that have not been given back;
`left`: a service is under way and has so many commands left; `visited`: all commands handed over so far; `answers`: what the pushes
have returned. -/
structure AtomicQueue (α : Type) where
  waiting : List α := []
  taken : ℕ := 0
  left : Option ℕ := none
  visited : List α := []
  answers : List Bool := []

/-- The steps of a queue with `cap` places. -/
inductive AtomicQueue.Step {α : Type} (cap : ℕ) : AtomicQueue α → AtomicQueue α → Prop
  | accept {q : AtomicQueue α} (a : α) (h : q.waiting.length + q.taken < cap) :
      Step cap q { q with waiting := q.waiting ++ [a], answers := q.answers ++ [true] }
  | refuse {q : AtomicQueue α} (h : q.waiting.length + q.taken = cap) :
      Step cap q { q with answers := q.answers ++ [false] }
  | begin {q : AtomicQueue α} (h : q.left = none) : Step cap q { q with left := some q.waiting.length }
  | visit {q : AtomicQueue α} {a : α} {rest : List α} {n : ℕ} (h : q.left = some (n + 1)) (hw : q.waiting = a :: rest) :
      Step cap q { q with waiting := rest, taken := q.taken + 1, left := some n, visited := q.visited ++ [a] }
  | finish {q : AtomicQueue α} (h : q.left = some 0) : Step cap q { q with taken := 0, left := none }

/-- Any number of steps. -/
inductive AtomicQueue.Steps {α : Type} (cap : ℕ) : AtomicQueue α → AtomicQueue α → Prop
  | refl (q : AtomicQueue α) : Steps cap q q
  | tail {q r t : AtomicQueue α} (h : Steps cap q r) (e : AtomicQueue.Step cap r t) : Steps cap q t

end Zones.Spec
