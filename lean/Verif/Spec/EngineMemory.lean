import Verif.Spec.EngineSys

/-!
# The convolvers that exist at a moment of the concurrent system
-/

namespace Zones.Spec
open Zones.Model

variable {V R : Type}

/-- The convolver a job has constructed and not passed on. -/
def Job.object (j : Job V R) : Option V := match j.pc with
  | .built v | .locked v => some v
  | _ => none

/-- The convolvers that exist for engine `e`: with the jobs that have constructed them, or in the engine (its queues and slots). -/
def existing (s : Sys V R) (e : ℕ) : List V :=
  (s.jobs.filterMap fun j => if j.eng = e then Job.object j else none) ++ (s.engs e).holding.map Held.obj

/-- The jobs that a worker of the thread pool is running. -/
def running (s : Sys V R) : List (Job V R) := s.jobs.filter fun j => !j.waiting

/-- The jobs that wait for a worker. -/
def queued (s : Sys V R) : List (Job V R) := s.jobs.filter fun j => j.waiting

end Zones.Spec
