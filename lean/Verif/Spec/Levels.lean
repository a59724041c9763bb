import Verif.Spec.Engine

/-!
# Levels
-/

open Finset

namespace Zones.Spec
open Zones.Model

/-- Every sample of the block has at most the absolute value `X`. -/
def AtMost (X : ℝ) (b : Buf) : Prop := ∀ ch < b.ch, ∀ i < b.n, |b.data ch i| ≤ X

/-- By how much an impulse response can raise the level, at output `o`: the sum of the absolute values of the samples of the channels
routed to it. -/
noncomputable def responseGain (ir : Buf) (outRouting : List ℤ) (o : ℕ) : ℝ :=
  ∑ c ∈ range ir.ch, if channelAt outRouting c = o then ∑ k ∈ range ir.n, |ir.data c k| else 0

/-- All blocks processed in a history are at most at level `X`. -/
def InputAtMost {V : Type} (X : ℝ) (hist : List (List (Held V) × Call)) : Prop :=
  ∀ b ∈ hist, ∀ blk, b.2 = .process blk → AtMost X blk

/-- The number of samples processed in a history. -/
def samplesIn {V : Type} : List (List (Held V) × Call) → ℕ
  | [] => 0
  | (_, .process blk) :: rest => blk.n + samplesIn rest
  | _ :: rest => samplesIn rest

end Zones.Spec
