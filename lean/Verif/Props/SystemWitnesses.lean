import Verif.Props.EngineExamples
import Verif.Props.Races

/-!
# The theorems about the concurrent system, applied to concrete executions

Every hypothesis of C31, C36, C37, C40, C41, C43, C44, C52, C53, C54, C55, C82 is met by an execution here, for any convolvers and any constructor.
-/

open Zones.Spec Zones.Model Zones.Proofs

namespace Zones.Props

variable {V R : Type} {ops : ConvOps V} {build : R → ProcSpec → V}

/-! ## A load on an engine at rest -/

/-- Engine 0 is prepared and at rest, and `n` responses wait in its queue. -/
structure AtRest (p : ProcSpec) (cmd : List (Held V)) (freed : List (ℕ × Site)) (s : Sys V R) : Prop where
  alive : (s.engs 0).status = .alive
  idle : (s.engs 0).pc = .idle
  loader : (s.engs 0).loader = none
  holder : (s.engs 0).holder = none
  spec : (s.engs 0).core.spec = some p
  jobs : s.jobs = []
  cmd : (s.engs 0).cmd = cmd
  taken : (s.engs 0).cmdTaken = 0
  freed : (s.engs 0).freed = freed
  bg : (s.engs 0).bg = none
  slots : (s.engs 0).core.active = none ∧ (s.engs 0).core.fade = none ∧ (s.engs 0).core.pending = none

/-- The state in which the job of a load holds the lock and is about to push. -/
theorem about_to_push {p : ProcSpec} {cmd : List (Held V)} {freed : List (ℕ × Site)} {s : Sys V R} (h : AtRest p cmd freed s) (req : R) :
    ∃ s', Run ops build s (loadCall 0 req ++ [.pick, .build s.next, .jobLock s.next]) s' ∧ s'.jobs = [⟨s.next, 0, req, p, false, .locked (build req p)⟩] ∧
      s'.next = s.next + 1 ∧ s'.engs 0 = { s.engs 0 with
        holder := some s.next
        made := (s.engs 0).made ++ [s.next]
        loading := true
        notified := (s.engs 0).notified ++ [true] } := by
  obtain ⟨engs, jobs, async, next⟩ := s
  obtain ⟨h1, h2, h3, h4, h5, h6, h7, h8, h9, _, _⟩ := h
  subst h6
  simp only at h1 h2 h3 h4 h5 h7 h8 h9 ⊢
  have k1 : Step ops build (⟨engs, [], async, next⟩ : Sys V R) (.loadLock 0 req) _ := .loadLock h1 ⟨h3, h4⟩
  have k2 := Step.loadRemove (ops := ops) (build := build) (s := { (⟨engs, [], async, next⟩ : Sys V R).setEng 0 { engs 0 with loader := some (next, req, .locked) } with next := next + 1 })
    (e := 0) rfl
  refine ⟨_, .cons k1 (.cons k2 (.cons (.loadFlag rfl (by
      show (engs 0).core.spec ≠ none
      rw [h5]; exact Option.some_ne_none p)) (.cons (.loadAdd (p := p) rfl h5)
    (.cons (.pick rfl) (.cons (.build (j := ⟨next, 0, req, p, false, .building⟩) ?_ rfl)
    (.cons (.jobLock (j := ⟨next, 0, req, p, false, .built (build req p)⟩) (v := build req p) ?_ rfl h1 ⟨rfl, h4⟩) (.nil _))))))), ?_, rfl, ?_⟩
  · simp [Sys.setJob, removeAllJobs]
  · simp [Sys.setJob, Sys.setEng, removeAllJobs]
  · simp [Sys.setJob, Sys.setEng, removeAllJobs]
  · simp [Sys.setJob, Sys.setEng, h3]

/-- The job is accepted if there is room, and the engine is at rest again. -/
theorem load_accepted {p : ProcSpec} {cmd : List (Held V)} {freed : List (ℕ × Site)} {s : Sys V R} (h : AtRest p cmd freed s) (hr : cmd.length < 399) (req : R) :
    ∃ s', Run ops build s (loadCall 0 req ++ jobRun s.next) s' ∧ s'.next = s.next + 1 ∧ AtRest p (cmd ++ [⟨s.next, build req p⟩]) freed s' := by
  obtain ⟨s1, r1, j1, n1, e1⟩ := about_to_push (ops := ops) (build := build) h req
  obtain ⟨engs, jobs, async, next⟩ := s1
  simp only at j1 n1 e1
  subst j1 n1
  have k1 := Step.jobPush (ops := ops) (build := build) (s := (⟨engs, [⟨s.next, 0, req, p, false, .locked (build req p)⟩], async, s.next + 1⟩ : Sys V R))
    (j := ⟨s.next, 0, req, p, false, .locked (build req p)⟩) (v := build req p) (List.mem_singleton.2 rfl) rfl (by
      show (engs 0).status = _
      rw [e1]; exact h.alive) rfl (by
      show (engs 0).cmd.length + (engs 0).cmdTaken < 399
      rw [e1]
      show (s.engs 0).cmd.length + (s.engs 0).cmdTaken < 399
      rw [h.cmd, h.taken]; exact hr)
  have k2 := Step.jobDone (ops := ops) (build := build) (s := ((⟨engs, [⟨s.next, 0, req, p, false, .locked (build req p)⟩], async, s.next + 1⟩ : Sys V R).setJob
      ⟨s.next, 0, req, p, false, .pushed⟩).setEng 0 { engs 0 with
          cmd := (engs 0).cmd ++ [⟨s.next, build req p⟩]
          delivered := (engs 0).delivered ++ [⟨s.next, build req p⟩] })
    (j := ⟨s.next, 0, req, p, false, .pushed⟩) (by simp [Sys.setJob, Sys.setEng]) rfl (by
      show (engs 0).status = _
      rw [e1]; exact h.alive)
  have rr := Run.append r1 (.cons k1 (.cons k2 (.nil _)))
  refine ⟨_, rr, rfl, ?_⟩
  constructor
  · simp [Sys.setEng, Sys.setJob, Sys.dropJob, e1, h.alive]
  · simp [Sys.setEng, Sys.setJob, Sys.dropJob, e1, h.idle]
  · simp [Sys.setEng, Sys.setJob, Sys.dropJob, e1, h.loader]
  · simp [Sys.setEng, Sys.setJob, Sys.dropJob, e1]
  · simp [Sys.setEng, Sys.setJob, Sys.dropJob, e1, h.spec]
  · simp [Sys.setEng, Sys.setJob, Sys.dropJob]
  · simp [Sys.setEng, Sys.setJob, Sys.dropJob, e1, h.cmd]
  · simp [Sys.setEng, Sys.setJob, Sys.dropJob, e1, h.taken]
  · simp [Sys.setEng, Sys.setJob, Sys.dropJob, e1, h.freed]
  · simp [Sys.setEng, Sys.setJob, Sys.dropJob, e1, h.bg]
  · simp [Sys.setEng, Sys.setJob, Sys.dropJob, e1, h.slots]

/-- Create and prepare an engine, then load `n` responses without ever processing a block. -/
theorem fill (p : ProcSpec) (req : R) : ∀ n, n ≤ 399 → ∃ (ls : List (Label R)) (s : Sys V R) (cmd : List (Held V)), Exec ops build ls s ∧ AtRest p cmd [] s ∧ cmd.length = n
  | 0, _ => by
    have h : ∃ s : Sys V R, Exec ops build ([.create 0] ++ emptyCall 0 (.prepare p fun _ _ => 0)) s ∧ AtRest p [] [] s := by
      refine ⟨_, .cons (.create rfl) (.cons (.call rfl rfl) (.cons (.service rfl) (.cons (.serviced rfl) (.cons (.body rfl rfl) (.nil _))))), ?_⟩
      exact ⟨rfl, rfl, rfl, rfl, rfl, rfl, rfl, rfl, rfl, rfl, rfl, rfl, rfl⟩
    obtain ⟨s, hx, ha⟩ := h
    exact ⟨_, s, [], hx, ha, rfl⟩
  | n + 1, h => by
    obtain ⟨ls, s, cmd, hx, ha, hc⟩ := fill p req n (by omega)
    obtain ⟨s', hr, _, ha'⟩ := load_accepted (ops := ops) (build := build) ha (by omega) req
    exact ⟨_, s', _, exec_append hx hr, ha', by simp [hc]⟩

/-! ## C55: a full queue, and a job that waits -/

/-- **C55.** 399 responses wait: the next one is refused, and its convolver destroyed by the worker. -/
example (p : ProcSpec) (req : R) : ∃ (ls : List (Label R)) (s s' : Sys V R) (j : Job V R), Exec ops build ls s ∧ Step ops build s (.jobCheck j.id) s' ∧ j ∈ s.jobs ∧
    (j.id, .worker) ∈ (s'.engs 0).freed ∧ (s.engs 0).cmd.length + (s.engs 0).cmdTaken = 399 := by
  obtain ⟨ls, s, cmd, hx, ha, hc⟩ := fill (V := V) (ops := ops) (build := build) p req 399 le_rfl
  obtain ⟨s1, r1, j1, n1, e1⟩ := about_to_push (ops := ops) (build := build) ha req
  have hx1 := exec_append hx r1
  have hj : (⟨s.next, 0, req, p, false, .locked (build req p)⟩ : Job V R) ∈ s1.jobs := by rw [j1]; exact List.mem_singleton.2 rfl
  have hs := Step.jobRefused (ops := ops) (build := build) (s := s1) hj rfl (by rw [e1]; exact ha.alive) rfl (by
    rw [e1]
    show ¬ (s.engs 0).cmd.length + (s.engs 0).cmdTaken < 399
    rw [ha.cmd, ha.taken, hc]
    norm_num)
  refine ⟨_, s1, _, _, hx1, hs, hj, by simp [Sys.setEng], ?_⟩
  refine C55_refused_only_if_full hx1 hs hj rfl (by simp [Sys.setEng]) ?_
  show (s.next, Site.worker) ∉ (s1.engs 0).freed
  rw [e1]
  show (s.next, Site.worker) ∉ (s.engs 0).freed
  rw [ha.freed]
  exact List.not_mem_nil

/-- **C54**, **C55.** A job holds the lock and is about to push: the lock gets released, the response can be delivered, and is not lost whatever the others do. -/
example (p : ProcSpec) (req : R) : ∃ (ls : List (Label R)) (s : Sys V R) (j : Job V R), Exec ops build ls s ∧ j ∈ s.jobs ∧ j.eng = 0 ∧ (s.engs 0).holder = some j.id ∧
    (∃ ls' s', (∀ l ∈ ls', workerSteps l) ∧ Run ops build s ls' s' ∧ j.id ∈ (s'.engs 0).delivered.map Held.id) ∧
    (∀ ls' s', Run ops build s ls' s' → (∀ e, .loadRemove e ∉ ls') → (∃ j' ∈ s'.jobs, j'.id = j.id ∧ j'.eng = 0 ∧ j'.stop = false ∧ j'.pc ≠ .pushed) ∨
      j.id ∈ (s'.engs 0).delivered.map Held.id ∨ (j.id, .worker) ∈ (s'.engs 0).freed) ∧
    ∃ ls' s', ls'.length ≤ 3 ∧ Run ops build s ls' s' ∧ (s'.engs 0).unlocked := by
  obtain ⟨ls, s, cmd, hx, ha, hc⟩ := fill (V := V) (ops := ops) (build := build) p req 2 (by norm_num)
  obtain ⟨s1, r1, j1, n1, e1⟩ := about_to_push (ops := ops) (build := build) ha req
  have hx1 := exec_append hx r1
  have hj : (⟨s.next, 0, req, p, false, .locked (build req p)⟩ : Job V R) ∈ s1.jobs := by rw [j1]; exact List.mem_singleton.2 rfl
  have h1 : (s1.engs 0).status = .alive := by rw [e1]; exact ha.alive
  have h2 : (s1.engs 0).loader = none := by rw [e1]; exact ha.loader
  have h3 : (s1.engs 0).cmd.length + (s1.engs 0).cmdTaken < 399 := by
    rw [e1]
    show (s.engs 0).cmd.length + (s.engs 0).cmdTaken < 399
    rw [ha.cmd, ha.taken, hc]
    norm_num
  obtain ⟨ls', s', q1, q2, q3, _⟩ := C54_lock_gets_released hx1 h1
  refine ⟨_, s1, _, hx1, hj, rfl, by rw [e1], C55_can_be_delivered hx1 hj rfl (by simp) h1 h2 h3, fun ls' s' hr hl => ?_, ls', s', q1, q2, q3⟩
  exact C55_not_lost hx1 hj rfl (by simp) hr hl

/-! ## C31, C36, C52: three loads in a row -/

/-- **C31**, **C36**, **C52.** Three responses wait in the queue of an engine that has been prepared once. -/
example (p : ProcSpec) (req : R) : ∃ (ls : List (Label R)) (s : Sys V R), Exec ops build ls s ∧ (s.engs 0).cmd.length = 3 ∧
    ((s.engs 0).delivered.map Held.id).Pairwise (· < ·) ∧ (s.engs 0).made.Perm (inJobs s 0 ++ (s.engs 0).holding.map Held.id ++ (s.engs 0).freed.map Prod.fst) ∧
    (∀ i, i ∈ (s.engs 0).made ↔ .build i ∈ ls ∧ ∃ req, (loadsIn ls)[i]? = some (0, req)) ∧
    ∃ hist, hist.map Prod.snd = callsIn 0 ls ∧ hist.flatMap Prod.fst ++ (s.engs 0).cmd = (s.engs 0).delivered ∧
      perform ops {} hist = some ((s.engs 0).core, (s.engs 0).outs) := by
  obtain ⟨ls, s, cmd, hx, ha, hc⟩ := fill (V := V) (ops := ops) (build := build) p req 3 (by norm_num)
  obtain ⟨hist, q1, q2, _, q3, _⟩ := C52_sequential hx ha.alive ha.idle
  exact ⟨ls, s, hx, by rw [ha.cmd, hc], (C31_load_order hx 0).1, (C36_exactly_one_place hx 0).2, C36_made hx 0, hist, q1, q2, q3⟩

/-- **C36**, **C43.** The engine is destroyed while three responses wait: they are destroyed with it, each once. As their listeners have not been told yet, the callback
will touch the destroyed engine. -/
example (p : ProcSpec) (req : R) : ∃ (ls : List (Label R)) (s s' : Sys V R), Exec ops build ls s ∧ Step ops build s (.destroy 0) s' ∧ (s.engs 0).cmd.length = 3 ∧
    ((s'.engs 0).freed.map Prod.fst).Nodup ∧ (s'.engs 0).made.Perm ((s'.engs 0).freed.map Prod.fst) := by
  obtain ⟨ls, s, cmd, hx, ha, hc⟩ := fill (V := V) (ops := ops) (build := build) p req 3 (by norm_num)
  have hs := Step.destroy (ops := ops) (build := build) (s := s) (e := 0) ha.alive ha.idle ha.loader ha.bg
  obtain ⟨q1, q2⟩ := C36_all_destroyed_once (exec_append hx (Run.single hs)) 0 (by simp [Sys.setEng]) (by
    show ∀ j ∈ s.jobs, _
    rw [ha.jobs]
    exact fun j hj => absurd hj List.not_mem_nil)
  exact ⟨ls, s, _, hx, hs, by rw [ha.cmd, hc], q1, q2⟩

/-- **C43.** A response is being built when the engine is destroyed: the worker goes on to use the destroyed engine. -/
example (p : ProcSpec) (req : R) : ∃ (ls : List (Label R)) (s s' : Sys V R), Exec ops build ls s ∧ Step ops build s (.destroy 0) s' ∧
    ∃ ls' s'', (∀ l ∈ ls', workerSteps l) ∧ Run ops build s' ls' s'' ∧ (s''.engs 0).touched = true := by
  obtain ⟨ls, s, cmd, hx, ha, hc⟩ := fill (V := V) (ops := ops) (build := build) p req 1 (by norm_num)
  obtain ⟨s1, r1, j1, n1, e1⟩ := about_to_push (ops := ops) (build := build) ha req
  have hx1 := exec_append hx r1
  have hj : (⟨s.next, 0, req, p, false, .locked (build req p)⟩ : Job V R) ∈ s1.jobs := by rw [j1]; exact List.mem_singleton.2 rfl
  have hs := Step.destroy (ops := ops) (build := build) (s := s1) (e := 0) (by rw [e1]; exact ha.alive) (by rw [e1]; exact ha.idle) (by rw [e1]; exact ha.loader)
    (by rw [e1]; exact ha.bg)
  exact ⟨_, s1, _, hx1, hs, C43_destruction_during_load hx1 hs hj rfl⟩

/-- **C43.** The engine is destroyed right after a load: the callback for its listeners touches it; after the callback, it is not touched any more. -/
example (p : ProcSpec) (req : R) : ∃ s s' s1 s1' : Sys V R, Exec ops build (exampleLoad p req) s ∧ Step ops build s (.destroy 0) s' ∧
    (∃ ls' s'', (∀ l ∈ ls', l = .async) ∧ Run ops build s' ls' s'' ∧ (s''.engs 0).touched = true) ∧
    Step ops build s .async s1 ∧ Step ops build s1 (.destroy 0) s1' ∧ ∀ ls' s'', Run ops build s1' ls' s'' → (s''.engs 0).touched = false := by
  have h : ∃ s : Sys V R, Exec ops build (exampleLoad p req) s ∧ (s.engs 0).status = .alive ∧ (s.engs 0).pc = .idle ∧ (s.engs 0).loader = none ∧ (s.engs 0).bg = none ∧
      s.async = [0] ∧ s.jobs = [] := by
    refine ⟨_, .cons (.create rfl) (.cons (.call rfl rfl) (.cons (.service rfl) (.cons (.serviced rfl) (.cons (.body rfl rfl)
      (.cons (.loadLock rfl ⟨rfl, rfl⟩) (.cons (.loadRemove rfl) (.cons (.loadFlag rfl (by exact Option.some_ne_none p)) (.cons (.loadAdd rfl rfl)
      (.cons (.pick rfl) (.cons (.build (j := ⟨0, 0, req, p, false, .building⟩) ?_ rfl)
      (.cons (.jobLock (j := ⟨0, 0, req, p, false, .built (build req p)⟩) ?_ rfl rfl ⟨rfl, rfl⟩) (.cons (.jobPush (j := ⟨0, 0, req, p, false, .locked (build req p)⟩) ?_ rfl rfl rfl ?_)
      (.cons (.jobDone (j := ⟨0, 0, req, p, false, .pushed⟩) ?_ rfl rfl) (.nil _)))))))))))))), rfl, rfl, rfl, rfl, rfl, rfl⟩
    · exact List.Mem.head _
    · exact List.Mem.head _
    · exact List.Mem.head _
    · show (0 : ℕ) < _
      decide
    · exact List.Mem.head _
  obtain ⟨s, hx, h1, h2, h3, h4, h5, h6⟩ := h
  have hs := Step.destroy (ops := ops) (build := build) (s := s) (e := 0) h1 h2 h3 h4
  have ha := Step.async (ops := ops) (build := build) (s := s) h5 h1
  generalize hs1 : ({ s.setEng 0 { s.engs 0 with notified := (s.engs 0).notified ++ [(s.engs 0).loading] } with async := [] } : Sys V R) = s1 at ha
  have hs' := Step.destroy (ops := ops) (build := build) (s := s1) (e := 0) (by rw [← hs1]; exact h1) (by rw [← hs1]; exact h2) (by rw [← hs1]; exact h3) (by rw [← hs1]; exact h4)
  refine ⟨s, _, s1, _, hx, hs, C43_destruction_before_callback hx hs (by rw [h5]; exact List.mem_singleton.2 rfl), ha, hs', fun ls' s'' hr => ?_⟩
  refine C43_safe_destruction (exec_append hx (Run.single ha)) hs' ?_ ?_ hr
  · rw [← hs1]
    show ∀ j ∈ s.jobs, _
    rw [h6]
    exact fun j hj => absurd hj List.not_mem_nil
  · rw [← hs1]
    exact List.not_mem_nil

/-! ## C37, C52, C53: a reset that finds two responses -/

open Classical in
/-- **C37**, **C52**, **C53.** `reset` finds two responses in the queue: the first becomes the playing one, the second is faded to, and the first is destroyed at once, on
the audio thread. -/
example (p : ProcSpec) (req : R) : ∃ (ls : List (Label R)) (s s1 s2 : Sys V R) (a f : Held V), Exec ops build ls s ∧ (s.engs 0).cmd = [a, f] ∧
    Run ops build s [.call 0 .reset, .service 0, .visit 0, .visit 0, .serviced 0] s1 ∧ Step ops build s1 (.body 0) s2 ∧ (a.id, .audio) ∈ (s2.engs 0).freed ∧
    (∃ hist k c0, hist.map Prod.snd ++ [k] = callsIn 0 (ls ++ [.call 0 .reset, .service 0, .visit 0, .visit 0, .serviced 0]) ∧ perform ops {} hist = some (c0, (s1.engs 0).outs) ∧
      ∃ found, (s1.engs 0).core = (c0.callHead k).service ops found) ∧
    (∃ k d, (s1.engs 0).pc = .served k d ∧ ∀ blk, k ≠ .process blk) ∧
    ∀ ls' s', Run ops build s1 ls' s' → callsIn 0 ls' = [] → ls'.countP (fun l => decide (audioSteps 0 l)) ≤ 402 := by
  obtain ⟨ls, s, cmd, hx, ha, hc⟩ := fill (V := V) (ops := ops) (build := build) p req 2 (by norm_num)
  match cmd, hc with
  | [a, f], _ =>
  have hs0 : ∃ s1, Run ops build s [.call 0 .reset, .service 0, .visit 0, .visit 0, .serviced 0] s1 ∧ (s1.engs 0).pc = .served .reset [a, f] ∧ (s1.engs 0).freed = [] ∧
      (s1.engs 0).core.active = some a ∧ (s1.engs 0).core.fade = some f := by
    obtain ⟨b1, b2, b3⟩ := ha.slots
    have k1 := Step.call (ops := ops) (build := build) (s := s) (e := 0) (k := .reset) ha.alive ha.idle
    generalize hx1 : ({ s.engs 0 with
          core := (s.engs 0).core.callHead .reset
          loading := if Call.reset.resets then false else (s.engs 0).loading
          pc := .entered .reset } : Eng V R) = x1 at k1
    have y1 : x1.pc = .entered .reset ∧ x1.cmd = [a, f] ∧ x1.core.active = none ∧ x1.core.fade = none ∧ x1.core.pending = none ∧ x1.freed = [] := by
      rw [← hx1]
      exact ⟨rfl, ha.cmd, b1, b2, b3, ha.freed⟩
    have k2 := Step.service (ops := ops) (build := build) (s := s.setEng 0 x1) (e := 0) (k := .reset) (by simp [Sys.setEng, y1.1])
    have v1 : ((s.setEng 0 x1).engs 0) = x1 := by simp [Sys.setEng]
    rw [v1, y1.2.1] at k2
    generalize hx2 : ({ x1 with pc := .serving .reset [] [a, f].length } : Eng V R) = x2 at k2
    have y2 : x2.pc = .serving .reset [] (1 + 1) ∧ x2.cmd = [a, f] ∧ x2.core = x1.core ∧ x2.freed = [] := by
      rw [← hx2]
      exact ⟨rfl, y1.2.1, rfl, y1.2.2.2.2.2⟩
    have v2 : (((s.setEng 0 x1).setEng 0 x2).engs 0) = x2 := by simp [Sys.setEng]
    have k3 := Step.visit (ops := ops) (build := build) (s := (s.setEng 0 x1).setEng 0 x2) (e := 0) (by rw [v2]; exact y2.1) (by rw [v2]; exact y2.2.1)
    rw [v2] at k3
    have w1 : x2.visit ops a = { x2 with core := { x2.core with active := some a } } := by
      unfold Eng.visit
      rw [y2.2.2.1, handle_none y1.2.2.1]
      rfl
    rw [w1] at k3
    generalize hx3 : ({ ({ x2 with core := { x2.core with active := some a } } : Eng V R) with
          cmd := [f]
          cmdTaken := x2.cmdTaken + 1
          pc := .serving .reset ([] ++ [a]) 1 } : Eng V R) = x3 at k3
    have y3 : x3.pc = .serving .reset [a] (0 + 1) ∧ x3.cmd = [f] ∧ x3.core.active = some a ∧ x3.core.fade = none ∧ x3.core.pending = none ∧ x3.freed = [] := by
      rw [← hx3]
      refine ⟨rfl, rfl, rfl, ?_, ?_, y2.2.2.2⟩
      · show x2.core.fade = none
        rw [y2.2.2.1]; exact y1.2.2.2.1
      · show x2.core.pending = none
        rw [y2.2.2.1]; exact y1.2.2.2.2.1
    have v3 : ((((s.setEng 0 x1).setEng 0 x2).setEng 0 x3).engs 0) = x3 := by simp [Sys.setEng]
    have k4 := Step.visit (ops := ops) (build := build) (s := ((s.setEng 0 x1).setEng 0 x2).setEng 0 x3) (e := 0) (by rw [v3]; exact y3.1) (by rw [v3]; exact y3.2.1)
    rw [v3] at k4
    have w2 : x3.visit ops f = { x3 with core := { x3.core with pending := none }.beginFade ops f } := by
      unfold Eng.visit
      rw [handle_begin y3.2.2.1 y3.2.2.2.1, y3.2.2.2.2.1]
      rfl
    rw [w2] at k4
    refine ⟨_, .cons k1 (.cons k2 (.cons k3 (.cons k4 (.cons (.serviced (k := .reset) (done := [a, f]) (by simp [Sys.setEng])) (.nil _))))), ?_, ?_, ?_, ?_⟩
    · simp [Sys.setEng]
    · simp [Sys.setEng, y3]
    · simp [Sys.setEng, y3, Core.beginFade, Core.setFadeTime]
    · simp [Sys.setEng, Core.beginFade, Core.setFadeTime]
  obtain ⟨s1, hr, p1, p2, p3, p4⟩ := hs0
  have hx1 := exec_append hx hr
  obtain ⟨s2, hs, hfr⟩ := C37_reset_frees (ops := ops) (build := build) p1 (by simp) p3 p4
  obtain ⟨hist, k, c0, q1, q2, found, _, _, q3⟩ := C52_sequential_in_call hx1 (e := 0) (by rw [p1]; simp)
  refine ⟨ls, s, s1, s2, a, f, hx, ha.cmd, hr, hs, hfr, ⟨hist, k, c0, q1, q2, found, q3⟩, ?_, fun ls' s' hr' hc' => C53_bounded_steps hx1 0 hr' hc'⟩
  rcases C37_audio_thread_frees hx1 hs hfr (by rw [p2]; exact List.not_mem_nil) with ⟨_, h⟩ | ⟨_, h⟩
  · exact h
  · exact ⟨_, _, p1, by simp⟩

/-! ## C31, C40, C44, C54: loads that get in each other's way -/

/-- The state of `exampleForeign` before engine 1 removes the jobs, and what can follow. -/
theorem before_remove (p : ProcSpec) (r0 r1 : R) : ∃ s : Sys V R, Exec ops build ([.create 0, .create 1] ++ emptyCall 0 (.prepare p fun _ _ => 0) ++
      emptyCall 1 (.prepare p fun _ _ => 0) ++ loadCall 0 r0 ++ [.loadLock 1 r1]) s ∧ (s.engs 0).loading = true ∧ (s.engs 0).loader = none ∧
    (s.engs 1).loader = some (1, r1, .locked) ∧ s.jobs = [⟨0, 0, r0, p, false, .queued⟩] ∧ (s.engs 1).core.spec = some p ∧ (s.engs 0).status = .alive ∧ (s.engs 0).pc = .idle := by
  refine ⟨_, .cons (.create rfl) (.cons (.create rfl) (.cons (.call rfl rfl) (.cons (.service rfl) (.cons (.serviced rfl) (.cons (.body rfl rfl)
    (.cons (.call rfl rfl) (.cons (.service rfl) (.cons (.serviced rfl) (.cons (.body rfl rfl)
    (.cons (.loadLock rfl ⟨rfl, rfl⟩) (.cons (.loadRemove rfl) (.cons (.loadFlag rfl (by exact Option.some_ne_none p)) (.cons (.loadAdd rfl rfl)
    (.cons (.loadLock rfl ⟨rfl, rfl⟩) (.nil _))))))))))))))), rfl, rfl, rfl, rfl, rfl, rfl, rfl⟩

/-- **C40**, **C44**, **C54.** Engine 0's load waits for a worker; engine 1 loads too. `IsLoading` of engine 0 is true, as it should be; if it is reset now, `IsLoading` says false
although the load goes on; and when engine 1 has removed the job it stays true whatever happens, unless engine 0 is reset or loads again, and nothing is ever delivered
to engine 0 by that load. A listener of engine 1 that calls `LoadIR` waits for ever. -/
example (p : ProcSpec) (r0 r1 : R) : ∃ (ls : List (Label R)) (s s' s'' sr : Sys V R), Exec ops build ls s ∧ Outstanding s 0 ∧ (s.engs 0).loading = true ∧
    Step ops build s (.call 0 .reset) sr ∧ (sr.engs 0).loading = false ∧ sr.jobs = s.jobs ∧
    Step ops build s (.loadRemove 1) s' ∧
    (∀ ls' t, Run ops build s' ls' t → (∀ req, .loadLock 0 req ∉ ls') → (∀ k, .call 0 k ∈ ls' → ∃ blk, k = .process blk) → (t.engs 0).loading = true) ∧
    (∀ ls' t, Run ops build s' ls' t → ∃ new, (t.engs 0).delivered = (s'.engs 0).delivered ++ new ∧ ∀ d ∈ new, 2 ≤ d.id) ∧
    (∀ ls' t, Run ops build s' ls' t → ∃ new, (t.engs 1).delivered = (s'.engs 1).delivered ++ new ∧ ∀ d ∈ new, 1 ≤ d.id) ∧
    s'.engs 0 = s.engs 0 ∧
    Step ops build s' (.loadFlag 1) s'' ∧ ∀ ls' t, Run ops build s'' ls' t → .loadAdd 1 ∉ ls' → ∀ req, .loadLock 1 req ∉ ls' := by
  obtain ⟨s, hx, h1, h2, h3, h4, h5, h6, h7⟩ := before_remove (V := V) (ops := ops) (build := build) p r0 r1
  have hs := Step.loadRemove (ops := ops) (build := build) (s := s) (e := 1) h3
  have hcall := Step.call (ops := ops) (build := build) (s := s) (e := 0) (k := .reset) h6 h7
  obtain ⟨c1, c2, c3⟩ := C40_reset_hides_load (ops := ops) (build := build) (k := .reset) (by simp) hcall
  have hx' := exec_append hx (Run.single hs)
  have ho : Outstanding s 0 := Or.inr ⟨⟨0, 0, r0, p, false, .queued⟩, by rw [h4]; exact List.mem_singleton.2 rfl, rfl, rfl⟩
  have hq : ∀ j ∈ s.jobs, j.eng = 0 → j.pc ≠ .pushed := by
    intro j hj _
    rw [h4, List.mem_singleton] at hj
    rw [hj]
    simp
  have hflag := Step.loadFlag (ops := ops) (build := build) (s := ({ s.setEng 1 { s.engs 1 with loader := some (1, r1, .removed) } with jobs := removeAllJobs s.jobs } : Sys V R))
    (e := 1) (i := 1) (req := r1) (by simp [Sys.setEng]) (by simp [Sys.setEng, h5])
  have hsp : ((({ s.setEng 1 { s.engs 1 with loader := some (1, r1, .removed) } with jobs := removeAllJobs s.jobs } : Sys V R)).engs 1).core.spec ≠ none := by
    simp [Sys.setEng, h5]
  refine ⟨_, s, _, _, _, hx, ho, ?_, hcall, c1, c2, hs, fun ls' t hr n1 n2 => C40_stays_true_after_foreign_load hx hs (by norm_num) h1 h2 hq hr n1 n2, fun ls' t hr => ?_,
    fun ls' t hr => ?_, (C44_otherwise_independent hx hs ?_).1, hflag, fun ls' t hr hw => C54_load_in_listener_deadlocks hx' hflag hsp hr hw⟩
  · refine C40_true_while_outstanding (ops := ops) (build := build) (ls1 := [.create 0, .create 1] ++ emptyCall 0 (.prepare p fun _ _ => 0) ++ emptyCall 1 (.prepare p fun _ _ => 0))
      (ls2 := loadCall 0 r0 ++ [.loadLock 1 r1]) ?_ ?_ ?_ ho
    · rw [← List.append_assoc]
      exact hx
    · simp [emptyCall]
    · simp [loadCall]
  · obtain ⟨new, q1, q2⟩ := C44_load_cancels_everyone (e := 0) hx' hr
    refine ⟨new, q1, fun d hd => ?_⟩
    rcases q2 d hd with q | ⟨req, pc, q⟩
    · exact q
    · have : ((s.setEng 1 { s.engs 1 with loader := some (1, r1, .removed) }).engs 0).loader = none := by simp [Sys.setEng, h2]
      rw [show (({ s.setEng 1 { s.engs 1 with loader := some (1, r1, .removed) } with jobs := removeAllJobs s.jobs } : Sys V R).engs 0).loader = none from this] at q
      cases q
  · obtain ⟨new, q1, q2⟩ := C31_no_older_load_later (e := 1) hx' hr
    exact ⟨new, q1, fun d hd => q2 d hd 1 r1 rfl⟩
  · simp [concerns]

/-- **C40.** While no other engine loads, `IsLoading` is true only if a load is outstanding. -/
example (p : ProcSpec) (r1 r2 : R) : ∃ s : Sys V R, Exec ops build (exampleSuperseded p r1 r2) s ∧ (s.engs 0).loading = true ∧
    ((∃ i req, (s.engs 0).loader = some (i, req, .removed)) ∨ Outstanding s 0) := by
  obtain ⟨s, hx, _, _, _, hl, _⟩ := example_superseded (ops := ops) (build := build) p r1 r2
  refine ⟨s, hx, hl, C40_true_only_while_outstanding hx ?_ hl⟩
  intro e' he
  simp [exampleSuperseded, emptyCall, loadCall, he]

/-- **C41**, **C42.** A load before `prepare` does nothing, then and later: whatever happens next, no convolver is constructed for it, and unless a response is loaded again
the engine leaves every block as it is. -/
example (req : R) (blk : Buf) : ∃ (ls : List (Label R)) (s : Sys V R), Exec ops build ls s ∧ loadsIn ls = [(0, req)] ∧
    (∀ ls' s', Run ops build s ls' s' → 0 ∉ (s'.engs 0).delivered.map Held.id ∧ 0 ∉ (s'.engs 0).made) ∧
    (∀ ls' s', Run ops build s ls' s' → (∀ req, .loadLock 0 req ∉ ls') → (s'.engs 0).status = .alive → (s'.engs 0).pc = .idle →
      (s'.engs 0).outs = processBlocks (callsIn 0 (ls ++ ls'))) ∧
    ∃ s', Run ops build s (emptyCall 0 (.process blk)) s' ∧ (s'.engs 0).outs = [blk] := by
  have h : ∃ s : Sys V R, Exec ops build [.create 0, .loadLock 0 req, .loadRemove 0, .loadFlag 0] s ∧ (s.engs 0).loader = none ∧
      ∃ s', Run ops build s (emptyCall 0 (.process blk)) s' ∧ (s'.engs 0).status = .alive ∧ (s'.engs 0).pc = .idle ∧ (s'.engs 0).delivered = [] := by
    refine ⟨_, .cons (.create rfl) (.cons (.loadLock rfl ⟨rfl, rfl⟩) (.cons (.loadRemove rfl) (.cons (.loadSkip rfl rfl) (.nil _)))), rfl, _,
      .cons (.call rfl rfl) (.cons (.service rfl) (.cons (.serviced rfl) (.cons (.body rfl rfl) (.nil _)))), rfl, rfl, rfl⟩
  obtain ⟨s, hx, hl, s', hr, a1, a2, a3⟩ := h
  refine ⟨_, s, hx, rfl, fun ls' t ht => C41_load_before_prepare_ignored hx rfl hl (i := 0) (req := req) rfl ht, fun ls' t ht hn hta hti => ?_, s', hr, ?_⟩
  · exact C41_engine_stays_transparent hx rfl hl ht hn hta hti
  · exact C42_transparent_concurrent (exec_append hx hr) a1 a2 a3

/-! ## C52, C53: what a call finds -/

/-- **C52**, **C53.** A response waits when `prepare` is called again: the call picks it up, and can always be finished by its own thread alone. -/
example {N : ℕ} {Good : V → Prop} (hA : Accepts ops N Good) {p : ProcSpec} (hp : ValidFormat N p) {req : R} (hG : Good (build req p)) :
    ∃ (s s1 s2 : Sys V R) (ls : List (Label R)) (found : List (Held V)), Exec ops build (exampleLoad p req) s ∧ Step ops build s (.call 0 (.prepare p fun _ _ => 0)) s1 ∧
      Run ops build s1 ls s2 ∧ ls.length ≤ 402 ∧ (∀ l ∈ ls, audioSteps 0 l) ∧ (s2.engs 0).pc = .idle ∧ (s2.engs 0).hist = (s.engs 0).hist ++ [(found, .prepare p fun _ _ => 0)] ∧
      [⟨0, build req p⟩] <+: found := by
  have h : ∃ s : Sys V R, Exec ops build (exampleLoad p req) s ∧ (s.engs 0).status = .alive ∧ (s.engs 0).pc = .idle ∧ (s.engs 0).cmd = [⟨0, build req p⟩] := by
    refine ⟨_, .cons (.create rfl) (.cons (.call rfl rfl) (.cons (.service rfl) (.cons (.serviced rfl) (.cons (.body rfl rfl)
      (.cons (.loadLock rfl ⟨rfl, rfl⟩) (.cons (.loadRemove rfl) (.cons (.loadFlag rfl (by exact Option.some_ne_none p)) (.cons (.loadAdd rfl rfl)
      (.cons (.pick rfl) (.cons (.build (j := ⟨0, 0, req, p, false, .building⟩) ?_ rfl)
      (.cons (.jobLock (j := ⟨0, 0, req, p, false, .built (build req p)⟩) ?_ rfl rfl ⟨rfl, rfl⟩) (.cons (.jobPush (j := ⟨0, 0, req, p, false, .locked (build req p)⟩) ?_ rfl rfl rfl ?_)
      (.cons (.jobDone (j := ⟨0, 0, req, p, false, .pushed⟩) ?_ rfl rfl) (.nil _)))))))))))))), rfl, rfl, rfl⟩
    · exact List.Mem.head _
    · exact List.Mem.head _
    · exact List.Mem.head _
    · show (0 : ℕ) < _
      decide
    · exact List.Mem.head _
  obtain ⟨s, hx, h1, h2, h3⟩ := h
  have hs := Step.call (ops := ops) (build := build) (s := s) (e := 0) (k := .prepare p fun _ _ => 0) h1 h2
  have hx1 := exec_append hx (Run.single hs)
  obtain ⟨la, s2, g1, g0, g2, g3⟩ := C53_audio_calls_never_wait hA hx1 (e := 0) ⟨hp, hp, trivial⟩ (by
    intro i req' p' hi hp'
    have hi : [(0, req)][i]? = some (0, req') := hi
    have := List.mem_of_getElem? hi
    rw [List.mem_singleton] at this
    cases this
    have hp' : p' ∈ [p, p] := hp'
    simp only [List.mem_cons, List.not_mem_nil, or_false, or_self] at hp'
    rw [hp']
    exact hG) (by simp [Sys.setEng])
  obtain ⟨q1, q2⟩ := audioSteps_quiet g1
  obtain ⟨found, w1, w2⟩ := C52_call_finds_what_waits (.cons hs g2) (q2 0) g3
  rw [h3] at w2
  exact ⟨s, _, s2, la, found, hx, hs, g2, g0, g1, g3, w1, w2⟩

/-! ## C82 -/

/-- **C82.** The worker that constructs a convolver and the audio thread that picks it up: the construction happens before. -/
example (p : ProcSpec) (req : R) (blk : Buf) : ∃ (tr : List (Event V R)) (s : Sys V R) (i j : ℕ) (a b : Event V R), History ops build tr s ∧ tr[i]? = some a ∧ tr[j]? = some b ∧
    a.label = .build 0 ∧ b.label = .visit 0 ∧ a.thread ≠ b.thread ∧ HappensBefore tr i j := by
  obtain ⟨tr, s, i, j, a, b, h, hij, ha, hb, la, lb, ta, tb, hth⟩ := C82_example ops build p req blk
  exact ⟨tr, s, i, j, a, b, h, ha, hb, la, lb, hth, C82_no_races h hij ha hb ta tb (by rw [lb]; simp)⟩

end Zones.Props
