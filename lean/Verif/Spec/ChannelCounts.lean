import Verif.Spec.EngineSys
import Verif.Spec.Reference

/-!
# Hosts that change the number of channels

`prepare` may be called again with another number of channels, e.g. when a track is switched from stereo to 5.1. The engine keeps the responses it holds.
-/

namespace Zones.Spec
open Zones.Model

/-- The block `b` with silent channels added, `M` channels in all. -/
def widen (M : ℕ) (b : Buf) : Buf := ⟨M, b.n, fun c i => if c < b.ch then b.data c i else 0⟩

/-- The same call made for `M` channels. -/
def widenCall (M : ℕ) : Call → Call
  | .process b => .process (widen M b)
  | .prepare p g => .prepare { p with numChannels := M } g
  | .reset => .reset
  | .clear => .clear

/-- The same history for `M` channels throughout. -/
def widened {V : Type} (M : ℕ) (hist : List (List (Held V) × Call)) : List (List (Held V) × Call) := hist.map fun b => (b.1, widenCall M b.2)

/-- A history in which every `prepare` may set another number of channels, at least `N` and at most `M`: blocks have the channels (`K`) and at most the
block size (`m`) of the last `prepare`, and any number of channels before the first one. Apart from that as `WellFormed`. -/
def ChangesChannels {V : Type} (N M : ℕ) (Good : V → Prop) : Option (ℕ × ℕ) → List (List (Held V) × Call) → Prop
  | _, [] => True
  | S, (batch, k) :: rest =>
    (∀ g ∈ batch, Good g.obj) ∧ (S = none → (∀ p g, k ≠ .prepare p g) → batch = []) ∧
    match k with
    | .process blk => (N ≤ blk.ch ∧ blk.ch ≤ M) ∧ (∀ K m, S = some (K, m) → blk.ch = K ∧ blk.n ≤ m) ∧ ChangesChannels N M Good S rest
    | .reset => ChangesChannels N M Good S rest
    | .clear => ChangesChannels N M Good S rest
    | .prepare p _ => (N ≤ p.numChannels ∧ p.numChannels ≤ M ∧ ValidFormat p.numChannels p) ∧
        ChangesChannels N M Good (some (p.numChannels, p.maximumBlockSize)) rest

/-- The blocks handed to `process` in a history. -/
def blocksIn {V : Type} : List (List (Held V) × Call) → List Buf
  | [] => []
  | (_, .process b) :: rest => b :: blocksIn rest
  | _ :: rest => blocksIn rest

/-- The samples of `a` are the samples of the first channels of `b`. -/
def FirstChannels (a b : Buf) : Prop := a.ch ≤ b.ch ∧ a.n = b.n ∧ ∀ c < a.ch, ∀ i < a.n, a.data c i = b.data c i

/-- Every channel number the convolver looks up is one of the first `N`. -/
def RoutedWithin (N : ℕ) (v : Convolver) : Prop := ValidRouting v.spec.inputRouting v.numConv N ∧ ValidRouting v.spec.outputRouting v.numConv N

/-- `ChangesChannels` without the responses. -/
def HostChanges (N M : ℕ) : Option (ℕ × ℕ) → List Call → Prop
  | _, [] => True
  | S, .process blk :: rest => (N ≤ blk.ch ∧ blk.ch ≤ M) ∧ (∀ K m, S = some (K, m) → blk.ch = K ∧ blk.n ≤ m) ∧ HostChanges N M S rest
  | S, .reset :: rest => HostChanges N M S rest
  | S, .clear :: rest => HostChanges N M S rest
  | _, .prepare p _ :: rest => (N ≤ p.numChannels ∧ p.numChannels ≤ M ∧ ValidFormat p.numChannels p) ∧ HostChanges N M (some (p.numChannels, p.maximumBlockSize)) rest

end Zones.Spec
