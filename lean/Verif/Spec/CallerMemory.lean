import Verif.Model.CallerMemory
import Verif.Spec.EngineSys

/-!
# What the caller of `LoadIR` may rely on

For C101: the same calls with the samples instead of references to them.
-/

namespace Zones.Spec
open Zones.Model

/-- A step without what it was asked to load. -/
def labelAs {R R' : Type} (f : R → R') : Label R → Label R'
  | .create e => .create e
  | .loadLock e req => .loadLock e (f req)
  | .loadRemove e => .loadRemove e
  | .loadFlag e => .loadFlag e
  | .loadAdd e => .loadAdd e
  | .pick => .pick
  | .build i => .build i
  | .jobLock i => .jobLock i
  | .jobCheck i => .jobCheck i
  | .jobDone i => .jobDone i
  | .call e k => .call e k
  | .service e => .service e
  | .visit e => .visit e
  | .serviced e => .serviced e
  | .body e => .body e
  | .bgBegin e => .bgBegin e
  | .bgVisit e => .bgVisit e
  | .bgEnd e => .bgEnd e
  | .async => .async
  | .destroy e => .destroy e

/-- What happens, if every call of `LoadIR` were given the samples that are in the caller's memory *when it is called*. -/
def atCallTime {A : Type} (garbage : A) : (ℕ → Option A) → List (MLabel A) → List (Label A)
  | _, [] => []
  | m, .sys l :: ls => labelAs (Ref.read garbage m) l :: atCallTime garbage m ls
  | m, .write r a :: ls => atCallTime garbage (Function.update m r (some a)) ls
  | m, .release r :: ls => atCallTime garbage (Function.update m r none) ls

/-- Two engines are in the same state, except for what a running call of `LoadIR` was asked to load. -/
structure SameEngine {V R R' : Type} (x : Eng V R) (y : Eng V R') : Prop where
  status : x.status = y.status
  core : x.core = y.core
  cmd : x.cmd = y.cmd ∧ x.cmdTaken = y.cmdTaken
  ntf : x.ntf = y.ntf ∧ x.ntfTaken = y.ntfTaken
  loading : x.loading = y.loading
  threads : x.pc = y.pc ∧ x.bg = y.bg ∧ x.holder = y.holder
  history : x.delivered = y.delivered ∧ x.hist = y.hist ∧ x.outs = y.outs
  life : x.made = y.made ∧ x.freed = y.freed ∧ x.notified = y.notified ∧ x.touched = y.touched

end Zones.Spec
