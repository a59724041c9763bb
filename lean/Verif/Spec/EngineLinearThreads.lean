import Verif.Spec.EngineLinear
import Verif.Spec.EngineTaken
import Verif.Spec.Reference

/-!
# Concurrent executions that differ in samples only
-/

namespace Zones.Spec
open Zones.Model

/-- As far as engine `e` is concerned the two executions do the same, but with other samples: its audio-side calls are alike (blocks of the same shapes); each of them takes as many convolvers
from the queue; the same loads have been delivered to it, and had asked for the same. All else may differ: what other engines do, which loads fail to be delivered, and how the threads'
steps are interleaved. -/
structure AlikeFor {V : Type} (e : ℕ) (ls : List (Label (Buf × ConvolverSpec))) (s : Sys V (Buf × ConvolverSpec)) (ls' : List (Label (Buf × ConvolverSpec)))
    (s' : Sys V (Buf × ConvolverSpec)) : Prop where
  calls : List.Forall₂ LikeCall (callsIn e ls) (callsIn e ls')
  taken : takenBy e ls' = takenBy e ls
  delivered : (s'.engs e).delivered.map Held.id = (s.engs e).delivered.map Held.id
  requests : ∀ d ∈ (s.engs e).delivered, (loadsIn ls')[d.id]? = (loadsIn ls)[d.id]?

/-- The blocks given to engine `e`, in order. -/
def inputsIn {R : Type} (e : ℕ) (ls : List (Label R)) : List Buf := (callsIn e ls).filterMap blockOf

end Zones.Spec
