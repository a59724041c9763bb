import Verif.Spec.Splitting
import Verif.Spec.Cuts
import Verif.Spec.Twins
import Verif.Model.Arith

/-!
# The same calls with other block lengths, bit for bit

For C105.
-/

namespace Zones.Spec
open Zones.Model

/-- The arithmetic of the fades leaves a value as it is when the other response's gain is 0 and its own is 1; the values are 0 and sums as the convolver computes them. -/
structure CleanGains [Arith] (A : GainArith) : Prop where
  silent : ∀ a, A.mul a 0 = 0
  full0 : A.mul 0 1 = 0
  full : ∀ a b, A.mul (Arith.addF a b) 1 = Arith.addF a b
  alone0 : A.add 0 0 = 0
  alone : ∀ a b, A.add 0 (Arith.addF a b) = Arith.addF a b

/-- The same signal in other blocks, which convolvers with internal block sizes in `Z` cut into the same pieces; or the same call. -/
inductive RecutBits (N : ℕ) (Z : ℕ → Prop) : Piece → Piece → Prop
  | play {b b' : Buf} {bs bs' : List Buf} (same : SameSignal N (b :: bs) (b' :: bs')) (pieces : ∀ B, Z B → cuts B (b :: bs) = cuts B (b' :: bs')) :
      RecutBits N Z (.play b bs) (.play b' bs')
  | reset : RecutBits N Z (.other .reset) (.other .reset)
  | clear : RecutBits N Z (.other .clear) (.other .clear)

/-- Responses with the same numbers arrive, and the same signals are played in other blocks. -/
def RecutsBits {V : Type} (N : ℕ) (Z : ℕ → Prop) (ps qs : List (List (Held V) × Piece)) : Prop := List.Forall₂ (fun p q => SameBatch p.1 q.1 ∧ RecutBits N Z p.2 q.2) ps qs

end Zones.Spec
