import Verif.Spec.Reference

/-!
# The same calls with other block lengths

For C103: histories in which the host cuts the same signal into other blocks.
-/

namespace Zones.Spec
open Zones.Model

/-- What happens after responses have arrived: the host plays a signal in one or more blocks (nothing else arrives before it is over), or makes some call. -/
inductive Piece
  | play (b : Buf) (bs : List Buf)
  | other (k : Call)

/-- The calls of a piece: the responses arrive with the first. -/
def Piece.calls {H : Type} (batch : List H) : Piece → List (List H × Call)
  | .play b bs => (batch, .process b) :: bs.map fun b => ([], .process b)
  | .other k => [(batch, k)]

/-- The whole history. -/
def pieced {H : Type} (ps : List (List H × Piece)) : List (List H × Call) := ps.flatMap fun p => p.2.calls p.1

/-- The same signal, in whatever blocks. -/
def SameSignal (N : ℕ) (xs ys : List Buf) : Prop := totalLen xs = totalLen ys ∧ ∀ ch < N, ∀ t, stream xs ch t = stream ys ch t

/-- The same signal in other (nonempty) blocks, or the same call. -/
inductive Recut (N : ℕ) : Piece → Piece → Prop
  | play {b b' : Buf} {bs bs' : List Buf} (same : SameSignal N (b :: bs) (b' :: bs')) (pos : ∀ q ∈ b :: bs, 0 < q.n) (pos' : ∀ q ∈ b' :: bs', 0 < q.n) :
      Recut N (.play b bs) (.play b' bs')
  | other (k : Call) : Recut N (.other k) (.other k)

/-- The same arriving responses, and the same signals in other blocks. -/
def Recuts {H : Type} (N : ℕ) (ps qs : List (List H × Piece)) : Prop := List.Forall₂ (fun p q => p.1 = q.1 ∧ Recut N p.2 q.2) ps qs

/-- Can the next `len` samples be cut anywhere? Yes, if no fade is running; or if a crossfade or fade-in is running, and either no further response waits for its end or the end
is not within these samples; or if the old response is being faded out, and the end of that is not within these samples. No, if a reset has stopped the fade. -/
def Cuttable (len : ℕ) : Stage → Prop
  | .steady _ _ => True
  | .fading _ _ w (.crossfade n j) => 0 < n ∧ (w = none ∨ j + len ≤ n)
  | .fading _ _ w (.fadeIn n j) => 0 < n ∧ (w = none ∨ j + len ≤ n)
  | .fading _ _ _ (.fadeOut n j) => j + len ≤ n
  | .fading _ _ w (.jump _) => w = none
  | .fading _ _ _ (.stuck _) => False

/-- Every signal that is played is cuttable when it begins (the responses it begins with having arrived). -/
def Unhurried (irs : ℕ → Buf) (specs : ℕ → ConvolverSpec) : Reference → List (List ℕ × Piece) → Prop
  | _, [] => True
  | r, (batch, p) :: ps =>
    (∀ b bs, p = .play b bs → Cuttable (totalLen (b :: bs)) (batch.foldl (Stage.arrive irs specs r.rate) r.stage)) ∧
      Unhurried irs specs (Reference.run irs specs r (p.calls batch)).1 ps

/-- The pieces with the numbers of the responses only. -/
def numberedPieces {V : Type} (ps : List (List (Held V) × Piece)) : List (List ℕ × Piece) := ps.map fun p => (p.1.map Held.id, p.2)

end Zones.Spec
