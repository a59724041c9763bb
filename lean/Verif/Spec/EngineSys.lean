import Verif.Model.EngineSys
import Verif.Spec.Engine

/-!
# Vocabulary for the properties of the concurrent system

An execution is a sequence of labels; what was requested can be read off the labels.
-/

namespace Zones.Spec
open Zones.Model

variable {V R : Type}

/-- The calls of `LoadIR` in an execution, of all engines, in the order they obtained the lock: engine and request. Load number `i`
is entry `i` of this list. -/
def loadsIn (ls : List (Label R)) : List (ℕ × R) :=
  ls.filterMap fun l => match l with
    | .loadLock e req => some (e, req)
    | _ => none

/-- The audio-side calls made to engine `e`. -/
def callsIn (e : ℕ) (ls : List (Label R)) : List Call :=
  ls.filterMap fun l => match l with
    | .call e' k => if e' = e then some k else none
    | _ => none

/-- The formats engine `e` has been prepared with. -/
def formatsIn (e : ℕ) (ls : List (Label R)) : List ProcSpec :=
  (callsIn e ls).filterMap fun k => match k with
    | .prepare p _ => some p
    | _ => none

/-- A sequence of audio-side calls a well-behaved host may make: formats are valid for `N` channels, blocks have `N` channels and
at most the block size of the last `prepare`. (`WellFormed` without the responses.) -/
def HostBehaves (N : ℕ) : Option ℕ → List Call → Prop
  | _, [] => True
  | M, .process blk :: rest => blk.ch = N ∧ (∀ m, M = some m → blk.n ≤ m) ∧ HostBehaves N M rest
  | M, .reset :: rest => HostBehaves N M rest
  | M, .clear :: rest => HostBehaves N M rest
  | _, .prepare p _ :: rest => ValidFormat N p ∧ HostBehaves N (some p.maximumBlockSize) rest

/-- `s` is a state the system can be in after the steps `ls`. -/
def Exec (ops : ConvOps V) (build : R → ProcSpec → V) (ls : List (Label R)) (s : Sys V R) : Prop := Run ops build {} ls s

/-- The convolvers built for engine `e` are good. -/
def GoodLoads (build : R → ProcSpec → V) (Good : V → Prop) (e : ℕ) (ls : List (Label R)) : Prop :=
  ∀ (i : ℕ) (req : R) (p : ProcSpec), (loadsIn ls)[i]? = some (e, req) → p ∈ formatsIn e ls → Good (build req p)

/-- Steps of the thread that makes the audio-side calls of engine `e`, in such a call. -/
def audioSteps (e : ℕ) : Label R → Prop
  | .service e' | .visit e' | .serviced e' | .body e' => e' = e
  | _ => False

/-- Steps of the workers of the thread pool. -/
def workerSteps : Label R → Prop
  | .pick | .build _ | .jobLock _ | .jobCheck _ | .jobDone _ => True
  | _ => False

/-- The convolvers that jobs for engine `e` hold. -/
def inJobs (s : Sys V R) (e : ℕ) : List ℕ :=
  s.jobs.filterMap fun j => if j.eng = e then
      match j.pc with
      | .built _ | .locked _ => some j.id
      | _ => none
    else none

/-- `IsLoading` should be true: a call of `LoadIR` has announced the load, or its job has neither delivered nor been superseded. -/
def Outstanding (s : Sys V R) (e : ℕ) : Prop :=
  (∃ i r, (s.engs e).loader = some (i, r, .flagged)) ∨ ∃ j ∈ s.jobs, j.eng = e ∧ j.stop = false

/-- The sequential engine: audio-side calls one after another, each finding the given convolvers in the queue. The state it ends in,
and the blocks the `process` calls leave behind. -/
noncomputable def perform (ops : ConvOps V) : Core V → List (List (Held V) × Call) → Option (Core V × List Buf)
  | c, [] => some (c, [])
  | c, b :: bs => (c.call ops b.1 b.2).bind fun r => (perform ops r.1 bs).map fun q => (q.1, r.2.out.toList ++ q.2)

end Zones.Spec
