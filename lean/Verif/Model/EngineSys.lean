import Verif.Model.Engine

/-!
# Model of `ConvolutionEngine` with its queues, threads and thread pool

Any number of engines share one `juce::ThreadPool`. The threads: callers of `LoadIR`, the pool's workers (`LoadIRJob::runJob`), for each
engine the thread that makes the audio-side calls (`process`, `reset`, `prepare`, `Clear`; not concurrent with each other), for each engine
its background thread (`run`), and the message thread (callbacks of `callAsync`). Every execution of the system is a sequence of the
steps below, in any order the guards allow.

Simplifications: shared variables are sequentially consistent; a push to a queue is one step, and a `Service` is one step that
determines how many commands it will visit, one step per command, and one that gives their slots back — what the single
loads and stores of `Model/Queue.lean` amount to (`Proofs/QueueRefine.lean`). Building a convolver (`build`) is one step and always
succeeds. `std::mutex`, `juce::ThreadPool` (`addJob`, `removeAllJobs`, picking and removing jobs), `juce::Thread` and
`juce::MessageManager::callAsync` are external and modelled after their documentation and source.
-/

namespace Zones.Model

/-- Where a convolver was destroyed (ConvolutionEngine.cpp:42, 53-56, 70, 87-88, 204, 237-239, 276-277). -/
inductive Site
  /-- the thread that makes the audio-side calls -/
  | audio
  /-- the engine's background thread -/
  | background
  /-- a worker of the thread pool -/
  | worker
  /-- `~ConvolutionEngine` -/
  | destructor
deriving DecidableEq

/-- Where the thread that makes the audio-side calls is. `done` are the commands its `Service` has visited.
(ConvolutionEngine.cpp:135-243, 273-278). -/
inductive APc (V : Type)
  | idle
  /-- before `Service` -/
  | entered (k : Call)
  /-- in `Service`, with `n` commands still to visit -/
  | serving (k : Call) (done : List (Held V)) (n : ℕ)
  /-- after `Service` -/
  | served (k : Call) (done : List (Held V))

/-- Where a call of `LoadIR` is that has locked `load_mutex_` (ConvolutionEngine.cpp:245-271). -/
inductive LPc
  /-- before `removeAllJobs` -/
  | locked
  /-- after `removeAllJobs` -/
  | removed
  /-- after `is_loading_ = true` and `EmitLoadingEvent` -/
  | flagged
deriving DecidableEq

/-- Life of an engine (ConvolutionEngine.cpp:44-56). -/
inductive Status
  | unborn
  | alive
  | dead
deriving DecidableEq

/-- A `ConvolutionEngine`. `delivered`, `hist`, `outs`, `made`, `freed`, `notified` and `touched` are a record of what has
happened (ConvolutionEngine.h:118-180). -/
structure Eng (V R : Type) where
  status : Status := .unborn
  core : Core V := {}
  /-- the commands waiting in `command_queue_` -/
  cmd : List (Held V) := []
  /-- commands its current `Service` has visited, whose slots have not been given back yet -/
  cmdTaken : ℕ := 0
  /-- the commands waiting in `notification_queue_` -/
  ntf : List (Option (Held V)) := []
  ntfTaken : ℕ := 0
  /-- `is_loading_` -/
  loading : Bool := false
  pc : APc V := .idle
  /-- background thread in `Service`, with so many commands still to visit -/
  bg : Option ℕ := none
  /-- the call of `LoadIR` that holds `load_mutex_` -/
  loader : Option (ℕ × R × LPc) := none
  /-- the job that holds `load_mutex_` -/
  holder : Option ℕ := none
  /-- the convolvers accepted by `command_queue_`, in order -/
  delivered : List (Held V) := []
  /-- completed audio-side calls, with the convolvers their `Service` found -/
  hist : List (List (Held V) × Call) := []
  /-- the blocks its `process` calls have left behind -/
  outs : List Buf := []
  /-- loads whose convolver has been constructed -/
  made : List ℕ := []
  /-- convolvers destroyed -/
  freed : List (ℕ × Site) := []
  /-- what `IsLoading` would have returned at each call of the listeners -/
  notified : List Bool := []
  /-- it has been accessed after its destruction -/
  touched : Bool := false

/-- Where a job is in `runJob` (ConvolutionEngine.cpp:25-42). -/
inductive JPc (V : Type)
  /-- waiting for a worker -/
  | queued
  /-- constructing the convolver -/
  | building
  /-- waiting for `load_mutex_` -/
  | built (v : V)
  /-- holding `load_mutex_`, before `shouldExit` -/
  | locked (v : V)
  /-- after `PushCommand` -/
  | pushed

/-- A `LoadIRJob` (ConvolutionEngine.h:92-111). `stop`: `signalJobShouldExit` has been called. -/
structure Job (V R : Type) where
  id : ℕ
  eng : ℕ
  req : R
  spec : ProcSpec
  stop : Bool
  pc : JPc V

/-- No worker has picked the job yet. It is in the pool but `runJob` (ConvolutionEngine.cpp:25) has not been called. -/
def Job.waiting {V R : Type} (j : Job V R) : Bool := match j.pc with
  | .queued => true
  | _ => false

/-- The whole system. `next` is the number of calls of `LoadIR` so far.
The engines (ConvolutionEngine.h:118-180) and the thread pool they refer to (ConvolutionEngine.h:162). -/
structure Sys (V R : Type) where
  engs : ℕ → Eng V R := fun _ => {}
  /-- the jobs of the thread pool, oldest first -/
  jobs : List (Job V R) := []
  /-- engines whose `callAsync` callback is waiting on the message thread -/
  async : List ℕ := []
  next : ℕ := 0

/-- Number of commands a queue can hold (`kMaxQueueSize` minus one, see C29) (ConvolutionEngine.h:52, 56). -/
def queueRoom : ℕ := 399

namespace Eng
variable {V R : Type}

/-- `load_mutex_` is free (ConvolutionEngine.h:178). -/
def unlocked (x : Eng V R) : Prop := x.loader = none ∧ x.holder = none

/-- `notification_queue_.PushCommand` (ConvolutionEngine.cpp:84-88, 201-204): if the queue is full the command keeps its convolver, which is
destroyed at the end of the scope, on this thread. -/
def notify (x : Eng V R) (o : Option (Held V)) : Eng V R :=
  if x.ntf.length + x.ntfTaken < queueRoom then { x with ntf := x.ntf ++ [o] }
  else { x with freed := x.freed ++ o.toList.map fun h => (h.id, .audio) }

/-- Several of them (ConvolutionEngine.cpp:84-88, 201-204). -/
def notifyAll (x : Eng V R) (os : List (Option (Held V))) : Eng V R := os.foldl notify x

/-- The visitor for a command of `command_queue_` (ConvolutionEngine.cpp:73-99). -/
noncomputable def visit (ops : ConvOps V) (x : Eng V R) (h : Held V) : Eng V R :=
  let r := x.core.handle ops h
  { x with core := r.1 }.notifyAll r.2

/-- The rest of an audio-side call after `Service`, given what it does to the slots.
(ConvolutionEngine.cpp:162-225, 234-243, 276-278). -/
def finish (x : Eng V R) (done : List (Held V)) (k : Call) (r : Core V × Core.Effects V) : Eng V R :=
  let y := { x with core := r.1 }.notifyAll r.2.pushed
  { y with
    pc := .idle
    hist := y.hist ++ [(done, k)]
    outs := y.outs ++ r.2.out.toList
    freed := y.freed ++ r.2.destroyed.map fun h => (h.id, .audio) }

/-- The convolvers still held by an engine. These are destroyed with its members (ConvolutionEngine.h:153-155, 163-164). -/
def holding (x : Eng V R) : List (Held V) :=
  x.cmd ++ x.core.active.toList ++ x.core.fade.toList ++ x.core.pending.toList ++ x.ntf.flatMap Option.toList

end Eng

/-- The audio-side calls that assign `false` to `is_loading_`: all that call `reset` (ConvolutionEngine.cpp:155, 230, 275). -/
def Call.resets : Call → Bool
  | .process _ => false
  | _ => true

/-- `ThreadPool::removeAllJobs (true, 0)`: jobs that no worker has picked are removed, the others are told to stop.
Called in ConvolutionEngine.cpp:251. -/
def removeAllJobs {V R : Type} (jobs : List (Job V R)) : List (Job V R) :=
  (jobs.filter fun j => !j.waiting).map fun j => { j with stop := true }

namespace Sys
variable {V R : Type}

/-- Replace an engine (ConvolutionEngine.h:118-180). -/
def setEng (s : Sys V R) (e : ℕ) (x : Eng V R) : Sys V R := { s with engs := Function.update s.engs e x }

/-- Replace the job with identity `j.id`. For the steps of `runJob` (ConvolutionEngine.cpp:25-42). -/
def setJob (s : Sys V R) (j : Job V R) : Sys V R := { s with jobs := s.jobs.map fun i => if i.id = j.id then j else i }

/-- Remove a finished job. After `return jobHasFinished` (ConvolutionEngine.cpp:41). -/
def dropJob (s : Sys V R) (id : ℕ) : Sys V R := { s with jobs := s.jobs.filter fun i => i.id ≠ id }

end Sys

/-- The steps of the system (ConvolutionEngine.cpp:25-56, 58-65, 135-278). -/
inductive Label (R : Type)
  /-- constructor -/
  | create (e : ℕ)
  /-- `LoadIR`: lock, `removeAllJobs`, `is_loading_ = true` and event (or return), `addJob` and unlock -/
  | loadLock (e : ℕ) (req : R)
  | loadRemove (e : ℕ)
  | loadFlag (e : ℕ)
  | loadAdd (e : ℕ)
  /-- a worker picks the first waiting job; constructs the convolver; locks; checks and pushes; completes and unlocks -/
  | pick
  | build (id : ℕ)
  | jobLock (id : ℕ)
  | jobCheck (id : ℕ)
  | jobDone (id : ℕ)
  /-- an audio-side call begins; its `Service` begins, visits, ends; the rest of the call -/
  | call (e : ℕ) (k : Call)
  | service (e : ℕ)
  | visit (e : ℕ)
  | serviced (e : ℕ)
  | body (e : ℕ)
  /-- the background thread's `Service` begins, visits, ends -/
  | bgBegin (e : ℕ)
  | bgVisit (e : ℕ)
  | bgEnd (e : ℕ)
  /-- the message thread runs a callback -/
  | async
  /-- destructor -/
  | destroy (e : ℕ)

variable {V R : Type}

/-- One step of the system. `build req spec` is the convolver constructed for a request.
The lines of ConvolutionEngine.cpp are cited at each rule. -/
inductive Step (ops : ConvOps V) (build : R → ProcSpec → V) : Sys V R → Label R → Sys V R → Prop
  /-- ConvolutionEngine.cpp:44-51 -/
  | create {s : Sys V R} {e : ℕ} (h : (s.engs e).status = .unborn) :
      Step ops build s (.create e) (s.setEng e { s.engs e with status := .alive })
  /-- ConvolutionEngine.cpp:248-249; the caller must not use a dead engine -/
  | loadLock {s : Sys V R} {e : ℕ} {req : R} (h : (s.engs e).status = .alive) (hm : (s.engs e).unlocked) :
      Step ops build s (.loadLock e req)
        { s.setEng e { s.engs e with loader := some (s.next, req, .locked) } with next := s.next + 1 }
  /-- ConvolutionEngine.cpp:251 -/
  | loadRemove {s : Sys V R} {e i : ℕ} {req : R} (h : (s.engs e).loader = some (i, req, .locked)) :
      Step ops build s (.loadRemove e)
        { s.setEng e { s.engs e with loader := some (i, req, .removed) } with jobs := removeAllJobs s.jobs }
  /-- ConvolutionEngine.cpp:253-256 -/
  | loadFlag {s : Sys V R} {e i : ℕ} {req : R} (h : (s.engs e).loader = some (i, req, .removed)) (hs : (s.engs e).core.spec ≠ none) :
      Step ops build s (.loadFlag e)
        (s.setEng e { s.engs e with
          loader := some (i, req, .flagged)
          loading := true
          notified := (s.engs e).notified ++ [true] })
  /-- ConvolutionEngine.cpp:253, 271: not prepared, nothing more to do -/
  | loadSkip {s : Sys V R} {e i : ℕ} {req : R} (h : (s.engs e).loader = some (i, req, .removed)) (hs : (s.engs e).core.spec = none) :
      Step ops build s (.loadFlag e) (s.setEng e { s.engs e with loader := none })
  /-- ConvolutionEngine.cpp:258-271; the job copies the impulse response and the specification (ConvolutionEngine.cpp:7-23) -/
  | loadAdd {s : Sys V R} {e i : ℕ} {req : R} {p : ProcSpec} (h : (s.engs e).loader = some (i, req, .flagged)) (hs : (s.engs e).core.spec = some p) :
      Step ops build s (.loadAdd e)
        { s.setEng e { s.engs e with loader := none } with jobs := s.jobs ++ [⟨i, e, req, p, false, .queued⟩] }
  /-- `ThreadPool::pickNextJobToRun` -/
  | pick {s : Sys V R} {j : Job V R} (h : s.jobs.find? Job.waiting = some j) :
      Step ops build s .pick (s.setJob { j with pc := .building })
  /-- ConvolutionEngine.cpp:27-31 -/
  | build {s : Sys V R} {j : Job V R} (h : j ∈ s.jobs) (hj : j.pc = .building) :
      Step ops build s (.build j.id)
        ((s.setJob { j with pc := .built (build j.req j.spec) }).setEng j.eng { s.engs j.eng with made := (s.engs j.eng).made ++ [j.id] })
  /-- ConvolutionEngine.cpp:33 -/
  | jobLock {s : Sys V R} {j : Job V R} {v : V} (h : j ∈ s.jobs) (hj : j.pc = .built v) (ha : (s.engs j.eng).status = .alive)
      (hm : (s.engs j.eng).unlocked) :
      Step ops build s (.jobLock j.id) ((s.setJob { j with pc := .locked v }).setEng j.eng { s.engs j.eng with holder := some j.id })
  /-- the engine is gone: the job locks a destroyed mutex -/
  | jobLockDead {s : Sys V R} {j : Job V R} {v : V} (h : j ∈ s.jobs) (hj : j.pc = .built v) (ha : (s.engs j.eng).status = .dead) :
      Step ops build s (.jobLock j.id) (s.setEng j.eng { s.engs j.eng with touched := true })
  /-- ConvolutionEngine.cpp:35, 41-42: the job has been told to stop; the convolver is destroyed with the command, the mutex unlocked -/
  | jobStop {s : Sys V R} {j : Job V R} {v : V} (h : j ∈ s.jobs) (hj : j.pc = .locked v) (ha : (s.engs j.eng).status = .alive) (hst : j.stop = true) :
      Step ops build s (.jobCheck j.id)
        ((s.dropJob j.id).setEng j.eng { s.engs j.eng with
          holder := none
          freed := (s.engs j.eng).freed ++ [(j.id, .worker)] })
  /-- ConvolutionEngine.cpp:35-37: accepted by the queue -/
  | jobPush {s : Sys V R} {j : Job V R} {v : V} (h : j ∈ s.jobs) (hj : j.pc = .locked v) (ha : (s.engs j.eng).status = .alive) (hst : j.stop = false)
      (hroom : (s.engs j.eng).cmd.length + (s.engs j.eng).cmdTaken < queueRoom) :
      Step ops build s (.jobCheck j.id)
        ((s.setJob { j with pc := .pushed }).setEng j.eng { s.engs j.eng with
          cmd := (s.engs j.eng).cmd ++ [⟨j.id, v⟩]
          delivered := (s.engs j.eng).delivered ++ [⟨j.id, v⟩] })
  /-- the queue is full: the convolver is destroyed with the command -/
  | jobRefused {s : Sys V R} {j : Job V R} {v : V} (h : j ∈ s.jobs) (hj : j.pc = .locked v) (ha : (s.engs j.eng).status = .alive) (hst : j.stop = false)
      (hfull : ¬ (s.engs j.eng).cmd.length + (s.engs j.eng).cmdTaken < queueRoom) :
      Step ops build s (.jobCheck j.id)
        ((s.setJob { j with pc := .pushed }).setEng j.eng { s.engs j.eng with
          freed := (s.engs j.eng).freed ++ [(j.id, .worker)] })
  | jobCheckDead {s : Sys V R} {j : Job V R} {v : V} (h : j ∈ s.jobs) (hj : j.pc = .locked v) (ha : (s.engs j.eng).status = .dead) :
      Step ops build s (.jobCheck j.id) (s.setEng j.eng { s.engs j.eng with touched := true })
  /-- ConvolutionEngine.cpp:38, 41-42, 263-268: `is_loading_ = false`, `callAsync`, unlock -/
  | jobDone {s : Sys V R} {j : Job V R} (h : j ∈ s.jobs) (hj : j.pc = .pushed) (ha : (s.engs j.eng).status = .alive) :
      Step ops build s (.jobDone j.id)
        { (s.dropJob j.id).setEng j.eng { s.engs j.eng with
            holder := none
            loading := false } with async := s.async ++ [j.eng] }
  | jobDoneDead {s : Sys V R} {j : Job V R} (h : j ∈ s.jobs) (hj : j.pc = .pushed) (ha : (s.engs j.eng).status = .dead) :
      Step ops build s (.jobDone j.id) (s.setEng j.eng { s.engs j.eng with touched := true })
  /-- ConvolutionEngine.cpp:140-153, 229-230 -/
  | call {s : Sys V R} {e : ℕ} {k : Call} (ha : (s.engs e).status = .alive) (h : (s.engs e).pc = .idle) :
      Step ops build s (.call e k)
        (s.setEng e { s.engs e with
          core := (s.engs e).core.callHead k
          loading := if k.resets then false else (s.engs e).loading
          pc := .entered k })
  /-- ConvolutionEngine.cpp:160, 232; ConvolutionEngine.h:22 -/
  | service {s : Sys V R} {e : ℕ} {k : Call} (h : (s.engs e).pc = .entered k) :
      Step ops build s (.service e) (s.setEng e { s.engs e with pc := .serving k [] (s.engs e).cmd.length })
  /-- ConvolutionEngine.h:23-28 -/
  | visit {s : Sys V R} {e n : ℕ} {k : Call} {done : List (Held V)} {g : Held V} {rest : List (Held V)}
      (h : (s.engs e).pc = .serving k done (n + 1)) (hc : (s.engs e).cmd = g :: rest) :
      Step ops build s (.visit e)
        (s.setEng e { (s.engs e).visit ops g with
          cmd := rest
          cmdTaken := (s.engs e).cmdTaken + 1
          pc := .serving k (done ++ [g]) n })
  /-- `finishedRead` -/
  | serviced {s : Sys V R} {e : ℕ} {k : Call} {done : List (Held V)} (h : (s.engs e).pc = .serving k done 0) :
      Step ops build s (.serviced e) (s.setEng e { s.engs e with
        cmdTaken := 0
        pc := .served k done })
  /-- ConvolutionEngine.cpp:162-224, 234-242, 276-277 -/
  | body {s : Sys V R} {e : ℕ} {k : Call} {done : List (Held V)} {r : Core V × Core.Effects V} (h : (s.engs e).pc = .served k done)
      (hr : (s.engs e).core.callBody ops k = some r) :
      Step ops build s (.body e) (s.setEng e ((s.engs e).finish done k r))
  /-- ConvolutionEngine.cpp:58-65 -/
  | bgBegin {s : Sys V R} {e : ℕ} (ha : (s.engs e).status = .alive) (h : (s.engs e).bg = none) :
      Step ops build s (.bgBegin e) (s.setEng e { s.engs e with bg := some (s.engs e).ntf.length })
  /-- ConvolutionEngine.cpp:67-71 -/
  | bgVisit {s : Sys V R} {e n : ℕ} {o : Option (Held V)} {rest : List (Option (Held V))} (h : (s.engs e).bg = some (n + 1)) (hc : (s.engs e).ntf = o :: rest) :
      Step ops build s (.bgVisit e)
        (s.setEng e { s.engs e with
          ntf := rest
          ntfTaken := (s.engs e).ntfTaken + 1
          bg := some n
          freed := (s.engs e).freed ++ o.toList.map fun h => (h.id, .background) })
  | bgEnd {s : Sys V R} {e : ℕ} (h : (s.engs e).bg = some 0) :
      Step ops build s (.bgEnd e) (s.setEng e { s.engs e with
        ntfTaken := 0
        bg := none })
  /-- ConvolutionEngine.cpp:266-267, 285-288 -/
  | async {s : Sys V R} {e : ℕ} {rest : List ℕ} (h : s.async = e :: rest) (ha : (s.engs e).status = .alive) :
      Step ops build s .async { s.setEng e { s.engs e with notified := (s.engs e).notified ++ [(s.engs e).loading] } with async := rest }
  | asyncDead {s : Sys V R} {e : ℕ} {rest : List ℕ} (h : s.async = e :: rest) (ha : (s.engs e).status = .dead) :
      Step ops build s .async { s.setEng e { s.engs e with touched := true } with async := rest }
  /-- ConvolutionEngine.cpp:53-56. The caller must not destroy an engine in use; `stopThread` waits for the background thread. Its
  convolvers are destroyed with it. -/
  | destroy {s : Sys V R} {e : ℕ} (ha : (s.engs e).status = .alive) (h : (s.engs e).pc = .idle) (hl : (s.engs e).loader = none)
      (hb : (s.engs e).bg = none) :
      Step ops build s (.destroy e)
        (s.setEng e { s.engs e with
          status := .dead
          core := {}
          cmd := []
          ntf := []
          freed := (s.engs e).freed ++ (s.engs e).holding.map fun h => (h.id, .destructor) })

/-- A sequence of steps. The lines of ConvolutionEngine.cpp are cited at the rules of `Step`. -/
inductive Run (ops : ConvOps V) (build : R → ProcSpec → V) : Sys V R → List (Label R) → Sys V R → Prop
  | nil (s : Sys V R) : Run ops build s [] s
  | cons {s s1 s2 : Sys V R} {l : Label R} {ls : List (Label R)} (h : Step ops build s l s1) (t : Run ops build s1 ls s2) : Run ops build s (l :: ls) s2

end Zones.Model
