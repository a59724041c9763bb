import Verif.Model.EngineSys

/-!
# Data races

Who does the steps of the system, what memory they access without synchronisation, and what orders them: the happens-before relation of
C++ is the closure of the order of the steps of one thread and of the synchronisation through locks, queues, thread creation and joining.
Every call of `LoadIR` and every job is a thread of its own here (in reality a thread makes several calls, a worker runs several jobs, which
orders more).
-/

namespace Zones.Spec
open Zones.Model

variable {V R : Type}

/-- Who does a step. -/
inductive Thread
  /-- the thread that makes and destroys engine `e` -/
  | owner (e : ℕ)
  /-- the thread that makes the `i`-th call of `LoadIR` -/
  | caller (i : ℕ)
  /-- the worker that runs the job of that call -/
  | worker (i : ℕ)
  /-- the thread that makes the audio-side calls of engine `e` -/
  | audio (e : ℕ)
  /-- the background thread of engine `e` -/
  | background (e : ℕ)
  /-- the message thread -/
  | message

/-- Memory that is accessed without synchronisation. -/
inductive Loc
  /-- the convolver made for load `i` and everything it owns -/
  | convolver (i : ℕ)
  /-- the job of load `i`, with its copy of the impulse response -/
  | request (i : ℕ)
  /-- the members of engine `e` that hold its convolvers and the state of its fades -/
  | fades (e : ℕ)
  /-- `spec_` -/
  | spec (e : ℕ)
  /-- `is_loading_` -/
  | loading (e : ℕ)

/-- What orders steps of different threads: a step that acquires a token happens after all earlier steps that release it. -/
inductive Token
  /-- whatever the user of engine `e` does so that the audio-side calls and the destructor are not concurrent with each other -/
  | client (e : ℕ)
  /-- the engine has been constructed before it is used, and before its background thread starts -/
  | created (e : ℕ)
  /-- `load_mutex_` -/
  | mutex (e : ℕ)
  /-- the lock of the thread pool -/
  | pool
  /-- command with convolver `i` in `command_queue_` -/
  | command (e i : ℕ)
  /-- command with convolver `i` in `notification_queue_` -/
  | notice (e i : ℕ)
  /-- `stopThread`: the end of the background thread -/
  | joined (e : ℕ)
  /-- the message queue -/
  | messages

/-- A step. -/
structure Event (V R : Type) where
  pre : Sys V R
  label : Label R
  post : Sys V R

namespace Event

/-- The engine of a job. -/
def engOf (s : Sys V R) (i : ℕ) : ℕ := ((s.jobs.find? fun j => j.id = i).map Job.eng).getD 0

/-- The thread that does the step. -/
def thread (v : Event V R) : Thread :=
  let caller (e : ℕ) : Thread := match (v.pre.engs e).loader with
    | some (i, _, _) => .caller i
    | none => .message
  match v.label with
  | .create e | .destroy e => .owner e
  | .loadLock _ _ => .caller v.pre.next
  | .loadRemove e | .loadFlag e | .loadAdd e => caller e
  | .pick => match v.pre.jobs.find? Job.waiting with
    | some j => .worker j.id
    | none => .message
  | .build i | .jobLock i | .jobCheck i | .jobDone i => .worker i
  | .call e _ | .service e | .visit e | .serviced e | .body e => .audio e
  | .bgBegin e | .bgVisit e | .bgEnd e => .background e
  | .async => .message

/-- The convolvers in the slots of an engine. -/
def inSlots (x : Eng V R) : List ℕ :=
  (x.core.active.toList ++ x.core.fade.toList ++ x.core.pending.toList).map Held.id

/-- Convolvers, jobs and members for the fades the step accesses, to read or to write. Moving a pointer to a convolver counts as accessing it. -/
def touches (v : Event V R) : List Loc :=
  let slots (e : ℕ) : List Loc := .fades e :: (inSlots (v.pre.engs e)).map .convolver
  match v.label with
  | .create e => [.fades e]
  | .loadAdd e => match (v.pre.engs e).loader with
    | some (i, _, _) => [.request i]
    | none => []
  | .loadRemove _ => (v.pre.jobs.filter Job.waiting).map fun j => .request j.id
  | .pick => match v.pre.jobs.find? Job.waiting with
    | some j => [.request j.id]
    | none => []
  | .build i => [.request i, .convolver i]
  | .jobLock i => [.request i, .convolver i]
  | .jobCheck i => [.request i, .convolver i]
  | .jobDone i => [.request i]
  | .call e _ | .service e | .serviced e | .body e => slots e
  | .visit e => slots e ++ ((v.pre.engs e).cmd.head?.toList.map fun h => .convolver h.id)
  | .bgVisit e => (v.pre.engs e).ntf.head?.toList.flatMap fun o => o.toList.map fun h => .convolver h.id
  | .destroy e => .fades e :: (v.pre.engs e).holding.map fun h => .convolver h.id
  | _ => []

/-- Which of `spec_` and `is_loading_` the step reads. -/
def reads (v : Event V R) : List Loc :=
  match v.label with
  | .loadFlag e | .loadAdd e => [.spec e]
  | .async => match v.pre.async with
    | e :: _ => [.loading e]
    | [] => []
  | _ => []

/-- Which of them it writes. -/
def writes (v : Event V R) : List Loc :=
  match v.label with
  | .create e | .destroy e => [.spec e, .loading e]
  | .loadFlag e => if (v.pre.engs e).core.spec.isSome then [.loading e] else []
  | .jobDone i => [.loading (engOf v.pre i)]
  | .call e (.prepare _ _) => [.spec e, .loading e]
  | .call e .reset | .call e .clear => [.loading e]
  | _ => []

/-- The commands the step has appended to the engine's queues. -/
def pushes (v : Event V R) (e : ℕ) : List Token :=
  ((v.post.engs e).cmd.drop (v.pre.engs e).cmd.length).map (fun h => .command e h.id) ++
    ((v.post.engs e).ntf.drop (v.pre.engs e).ntf.length).flatMap fun o => o.toList.map fun h => .notice e h.id

/-- The tokens the step releases. (All steps of an audio-side call release `client`; the user can rely only on the end of the call, but
nothing acquires it before.) -/
def releases (v : Event V R) : List Token :=
  match v.label with
  | .create e => [.client e, .created e]
  | .loadRemove _ | .pick => [.pool]
  | .loadFlag e => if (v.pre.engs e).core.spec.isSome then [] else [.mutex e]
  | .loadAdd e => [.pool, .mutex e]
  | .jobCheck i => v.pushes (engOf v.pre i) ++ (if (v.post.engs (engOf v.pre i)).holder.isNone then [.mutex (engOf v.pre i), .pool] else [])
  | .jobDone i => [.mutex (engOf v.pre i), .messages, .pool]
  | .call e _ | .service e | .serviced e => [.client e]
  | .visit e | .body e => .client e :: v.pushes e
  | .bgBegin e | .bgVisit e | .bgEnd e => [.joined e]
  | _ => []

/-- The tokens it acquires. -/
def acquires (v : Event V R) : List Token :=
  match v.label with
  | .loadLock e _ => [.created e, .mutex e]
  | .loadRemove _ | .loadAdd _ | .pick => [.pool]
  | .jobLock i => [.mutex (engOf v.pre i)]
  | .jobDone _ => [.pool]
  | .call e _ => [.client e, .created e]
  | .visit e => (v.pre.engs e).cmd.head?.toList.map fun h => .command e h.id
  | .bgBegin e => [.created e]
  | .bgVisit e => (v.pre.engs e).ntf.head?.toList.flatMap fun o => o.toList.map fun h => .notice e h.id
  | .async => [.messages]
  | .destroy e => [.client e, .joined e]
  | _ => []

end Event

/-- Step `i` of the history happens before step `j`. -/
inductive HappensBefore (tr : List (Event V R)) : ℕ → ℕ → Prop
  /-- in one thread -/
  | program {i j : ℕ} {a b : Event V R} (h : i < j) (ha : tr[i]? = some a) (hb : tr[j]? = some b) (ht : a.thread = b.thread) : HappensBefore tr i j
  /-- by synchronisation -/
  | sync {i j : ℕ} {a b : Event V R} {x : Token} (h : i < j) (ha : tr[i]? = some a) (hb : tr[j]? = some b) (h1 : x ∈ a.releases) (h2 : x ∈ b.acquires) :
      HappensBefore tr i j
  | trans {i j k : ℕ} (h1 : HappensBefore tr i j) (h2 : HappensBefore tr j k) : HappensBefore tr i k

/-- `tr` are the steps of an execution that ends in `s`. -/
inductive History (ops : ConvOps V) (build : R → ProcSpec → V) : List (Event V R) → Sys V R → Prop
  | start : History ops build [] {}
  | step {tr : List (Event V R)} {s s' : Sys V R} {l : Label R} (h : History ops build tr s) (hs : Step ops build s l s') :
      History ops build (tr ++ [⟨s, l, s'⟩]) s'

end Zones.Spec
