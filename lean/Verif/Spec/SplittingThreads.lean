import Verif.Spec.Splitting
import Verif.Spec.EngineTaken

/-!
# What an engine has been told in a concurrent execution
-/

namespace Zones.Spec
open Zones.Model

/-- In the execution, the calls made to engine `e` are those of `hist`, each finds as many responses as it does in `hist`, and, in the order of their delivery, they are the same:
responses are numbered by the `LoadIR` calls. -/
structure Plays {V R : Type} (e : ℕ) (ls : List (Label R)) (s : Sys V R) (hist : List (List ℕ × Call)) : Prop where
  calls : callsIn e ls = hist.map Prod.snd
  taken : takenBy e ls = hist.map fun b => b.1.length
  found : hist.flatMap Prod.fst <+: (s.engs e).delivered.map Held.id

end Zones.Spec
