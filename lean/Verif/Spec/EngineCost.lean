import Verif.Model.Cost
import Verif.Spec.EngineWork

/-!
# The engine with counting convolvers

For C104: the engine of `Model/Engine.lean` run with the convolvers of `Model/Cost.lean`, each of which carries its counters with it.
-/

namespace Zones.Spec
open Zones.Model

/-- Convolvers with counters: `Process` is the counting program. -/
noncomputable def countedOps (F : RealFFT) : ConvOps (Convolver × Cost) where
  process v blk := (Convolver.processC F v.1 blk v.2).map fun r => ((r.1.1, r.2), r.1.2)
  reset v := (v.1.reset, v.2)
  numSamples v := v.1.numSamples
  strategy v := v.1.spec.fadeStrategy
  gains := .exact

/-- What the counters of these convolvers show together. -/
def counted (hs : List (Held (Convolver × Cost))) : Cost := (hs.map fun h => h.obj.2).foldr (· + ·) 0

/-- The convolvers that can be heard in the next block: the one that plays if there is no fade; both in a crossfade; in an in/out fade the old one in the first half, the new one in
the second. -/
def heardBy {W : Type} (c : Core W) : List (Held W) :=
  match c.fade with
  | none => c.active.toList
  | some f => if c.strategy = .crossfade then c.active.toList ++ [f] else if c.sOut.isSmoothing then c.active.toList else [f]

end Zones.Spec
