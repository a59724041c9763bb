import Verif.Spec.Engine
import Mathlib.Algebra.Order.Group.Multiset

/-!
# Convolvers that remember how often they have been run

The engine is generic in the convolvers it plays. `logged ops` are the convolvers `ops` with a notebook: every call of `Process` writes down
the size of the block it was given. Nothing else looks at the notebook (`C90_notebooks_are_only_written`).
-/

namespace Zones.Spec
open Zones.Model

variable {V : Type}

/-- Convolvers with a notebook. -/
noncomputable def logged (ops : ConvOps V) : ConvOps (V × Multiset ℕ) where
  process v blk := (ops.process v.1 blk).map fun r => ((r.1, blk.n ::ₘ v.2), r.2)
  reset v := (ops.reset v.1, v.2)
  numSamples v := ops.numSamples v.1
  strategy v := ops.strategy v.1
  gains := ops.gains

/-- Convolvers with any kind of notebook: `note` says what `Process` writes. -/
def noted {A : Type} (ops : ConvOps V) (note : V × A → Buf → A) : ConvOps (V × A) where
  process v blk := (ops.process v.1 blk).map fun r => ((r.1, note v blk), r.2)
  reset v := (ops.reset v.1, v.2)
  numSamples v := ops.numSamples v.1
  strategy v := ops.strategy v.1
  gains := ops.gains

/-- The convolver without its notebook. -/
def plainHeld {A : Type} (h : Held (V × A)) : Held V := ⟨h.id, h.obj.1⟩

/-- The engine without the notebooks of its convolvers. -/
def plainCore {A : Type} (c : Core (V × A)) : Core V where
  active := c.active.map plainHeld
  fade := c.fade.map plainHeld
  pending := c.pending.map plainHeld
  sIn := c.sIn
  sOut := c.sOut
  fadeBuf := c.fadeBuf
  spec := c.spec
  strategy := c.strategy
  lower := c.lower
  upper := c.upper
  maxCrossfade := c.maxCrossfade
  inOut := c.inOut

/-- What a call leaves behind, without the notebooks. -/
def plainEffects {A : Type} (e : Core.Effects (V × A)) : Core.Effects V where
  out := e.out
  pushed := e.pushed.map (Option.map plainHeld)
  destroyed := e.destroyed.map plainHeld

/-- The convolvers an engine holds. -/
def heldBy {W : Type} (c : Core W) : List (Held W) := c.active.toList ++ c.fade.toList ++ c.pending.toList

/-- The convolvers a call hands to the background thread or destroys. -/
def leaving {W : Type} (e : Core.Effects W) : List (Held W) := e.pushed.flatMap Option.toList ++ e.destroyed

/-- The sizes of all blocks these convolvers have been given. -/
def blocksGiven (hs : List (Held (V × Multiset ℕ))) : Multiset ℕ := (hs.map fun h => h.obj.2).sum

/-- How many convolvers have to run for one block: none if there is no impulse response; the one that plays if there is no fade; both in a crossfade; in
an in/out fade the one that can be heard (the old one in the first half, the new one in the second). -/
def convolversHeard {W : Type} (c : Core W) : ℕ :=
  match c.active, c.fade with
  | none, none => 0
  | some _, none => 1
  | a, some _ => if c.strategy = .crossfade then a.toList.length + 1 else if c.sOut.isSmoothing then a.toList.length else 1

/-- The sizes of the blocks of a history of calls. -/
def sizesProcessed {W : Type} (hist : List (List (Held W) × Call)) : Multiset ℕ :=
  (hist.map fun k => match k.2 with
    | .process blk => ({blk.n} : Multiset ℕ)
    | _ => 0).sum

end Zones.Spec
