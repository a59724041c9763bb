import Verif.Spec.Engine
import Verif.Spec.Levels

/-!
# Two engines that get the same calls
-/

namespace Zones.Spec
open Zones.Model

/-- Two blocks of `N` channels with the same samples. -/
def SameBlock (N : ℕ) (a b : Buf) : Prop := a.ch = N ∧ b.ch = N ∧ a.n = b.n ∧ ∀ ch < N, ∀ i < a.n, a.data ch i = b.data ch i

/-- The same convolvers, by number. -/
def SameBatch {V : Type} (b b' : List (Held V)) : Prop := b.map Held.id = b'.map Held.id

/-- Two calls of the same kind, the blocks related by `R`. The memory that `prepare` gets for its buffer may have any contents. -/
inductive SameKind (R : Buf → Buf → Prop) : Call → Call → Prop
  | process {a b : Buf} (h : R a b) : SameKind R (.process a) (.process b)
  | reset : SameKind R .reset .reset
  | clear : SameKind R .clear .clear
  | prepare (p : ProcSpec) (g g' : ℕ → ℕ → ℝ) : SameKind R (.prepare p g) (.prepare p g')

/-- Two histories of the same calls, the blocks related by `R`. -/
def SameCalls {V : Type} (R : Buf → Buf → Prop) : List (List (Held V) × Call) → List (List (Held V) × Call) → Prop :=
  List.Forall₂ fun a b => SameBatch a.1 b.1 ∧ SameKind R a.2 b.2

/-- Histories of the same calls on blocks of the same sizes, with any samples in them. -/
abbrev SameSizes {V : Type} (h h' : List (List (Held V) × Call)) : Prop := SameCalls (fun a b => a.ch = b.ch ∧ a.n = b.n) h h'

/-- Histories of the same calls on blocks with the same samples. -/
abbrev SameInput {V : Type} (N : ℕ) (h h' : List (List (Held V) × Call)) : Prop := SameCalls (SameBlock N) h h'

end Zones.Spec
