import Verif.Model.EngineSys
import Verif.Proofs.EngineHistory

/-! Invariants of the concurrent system. -/

open Zones.Model Zones.Spec

namespace Zones.Proofs

variable {V R : Type}

set_option linter.unusedSimpArgs false
set_option linter.unusedVariables false

/-! ## Frames -/

theorem setEng_engs (s : Sys V R) (e e' : ℕ) (x : Eng V R) : (s.setEng e x).engs e' = if e' = e then x else s.engs e' :=
  Function.update_apply _ _ _ _

@[simp] theorem setEng_jobs (s : Sys V R) (e : ℕ) (x : Eng V R) : (s.setEng e x).jobs = s.jobs := rfl
@[simp] theorem setEng_next (s : Sys V R) (e : ℕ) (x : Eng V R) : (s.setEng e x).next = s.next := rfl
@[simp] theorem setEng_async (s : Sys V R) (e : ℕ) (x : Eng V R) : (s.setEng e x).async = s.async := rfl
@[simp] theorem setJob_engs (s : Sys V R) (j : Job V R) : (s.setJob j).engs = s.engs := rfl
@[simp] theorem setJob_next (s : Sys V R) (j : Job V R) : (s.setJob j).next = s.next := rfl
@[simp] theorem setJob_async (s : Sys V R) (j : Job V R) : (s.setJob j).async = s.async := rfl
@[simp] theorem dropJob_engs (s : Sys V R) (i : ℕ) : (s.dropJob i).engs = s.engs := rfl
@[simp] theorem dropJob_next (s : Sys V R) (i : ℕ) : (s.dropJob i).next = s.next := rfl
@[simp] theorem dropJob_async (s : Sys V R) (i : ℕ) : (s.dropJob i).async = s.async := rfl

theorem mem_setJob {s : Sys V R} {j' i : Job V R} (h : i ∈ (s.setJob j').jobs) : i = j' ∨ i ∈ s.jobs ∧ i.id ≠ j'.id := by
  unfold Sys.setJob at h
  simp only [List.mem_map] at h
  obtain ⟨a, ha, e⟩ := h
  split_ifs at e with hc
  · exact Or.inl e.symm
  · subst e; exact Or.inr ⟨ha, hc⟩

theorem setJob_mem {s : Sys V R} {j j' : Job V R} (h : j ∈ s.jobs) (hi : j'.id = j.id) : j' ∈ (s.setJob j').jobs := by
  unfold Sys.setJob
  simp only [List.mem_map]
  exact ⟨j, h, by rw [if_pos hi.symm]⟩

theorem setJob_other {s : Sys V R} {i j' : Job V R} (h : i ∈ s.jobs) (hi : i.id ≠ j'.id) : i ∈ (s.setJob j').jobs := by
  unfold Sys.setJob
  simp only [List.mem_map]
  exact ⟨i, h, by rw [if_neg hi]⟩

theorem mem_dropJob {s : Sys V R} {i : Job V R} {n : ℕ} : i ∈ (s.dropJob n).jobs ↔ i ∈ s.jobs ∧ i.id ≠ n := by
  unfold Sys.dropJob
  simp

theorem setJob_ids (s : Sys V R) (j' : Job V R) : (s.setJob j').jobs.map Job.id = s.jobs.map Job.id := by
  unfold Sys.setJob
  rw [List.map_map]
  refine List.map_congr_left fun a _ => ?_
  simp only [Function.comp]
  split_ifs with h
  · exact h.symm
  · rfl

theorem dropJob_sub (s : Sys V R) (n : ℕ) : (s.dropJob n).jobs.Sublist s.jobs := List.filter_sublist

theorem mem_removeAll {jobs : List (Job V R)} {i : Job V R} :
    i ∈ removeAllJobs jobs ↔ ∃ j ∈ jobs, j.waiting = false ∧ i = { j with stop := true } := by
  unfold removeAllJobs
  simp only [List.mem_map, List.mem_filter]
  constructor
  · rintro ⟨a, ⟨h1, h2⟩, rfl⟩; exact ⟨a, h1, by simpa using h2, rfl⟩
  · rintro ⟨a, h1, h2, rfl⟩; exact ⟨a, ⟨h1, by simpa using h2⟩, rfl⟩

theorem forall_removeAll {jobs : List (Job V R)} {P : Job V R → Prop} :
    (∀ i ∈ removeAllJobs jobs, P i) ↔ ∀ j ∈ jobs, j.waiting = false → P { j with stop := true } := by
  constructor
  · intro h j hj hw; exact h _ (mem_removeAll.mpr ⟨j, hj, hw, rfl⟩)
  · intro h i hi
    obtain ⟨j, hj, hw, rfl⟩ := mem_removeAll.mp hi
    exact h j hj hw

theorem exists_removeAll {jobs : List (Job V R)} {P : Job V R → Prop} :
    (∃ i ∈ removeAllJobs jobs, P i) ↔ ∃ j ∈ jobs, j.waiting = false ∧ P { j with stop := true } := by
  constructor
  · rintro ⟨i, hi, hp⟩
    obtain ⟨j, hj, hw, rfl⟩ := mem_removeAll.mp hi
    exact ⟨j, hj, hw, hp⟩
  · rintro ⟨j, hj, hw, hp⟩; exact ⟨_, mem_removeAll.mpr ⟨j, hj, hw, rfl⟩, hp⟩

@[grind =] theorem unlocked_iff {x : Eng V R} : x.unlocked ↔ x.loader = none ∧ x.holder = none := Iff.rfl

theorem mem_setJob_iff {s : Sys V R} {j j' : Job V R} (h : j ∈ s.jobs) (hi : j'.id = j.id) {i : Job V R} :
    i ∈ (s.setJob j').jobs ↔ i = j' ∨ i ∈ s.jobs ∧ i.id ≠ j'.id :=
  ⟨mem_setJob, fun k => by
    rcases k with rfl | ⟨k1, k2⟩
    · exact setJob_mem h hi
    · exact setJob_other k1 k2⟩

theorem removeAll_ids (jobs : List (Job V R)) : ((removeAllJobs jobs).map Job.id).Sublist (jobs.map Job.id) := by
  unfold removeAllJobs
  rw [List.map_map]
  exact List.Sublist.map Job.id List.filter_sublist

@[grind =] theorem waiting_iff {j : Job V R} : j.waiting = true ↔ j.pc = .queued := by
  unfold Job.waiting
  cases j.pc <;> simp

theorem same_job {s : Sys V R} (hn : (s.jobs.map Job.id).Nodup) {i j : Job V R} (hi : i ∈ s.jobs) (hj : j ∈ s.jobs) (h : i.id = j.id) : i = j :=
  List.inj_on_of_nodup_map hn hi hj h

/-- The members of an engine that the audio side does not write. -/
structure SameLoads (x y : Eng V R) : Prop where
  status : y.status = x.status
  loader : y.loader = x.loader
  holder : y.holder = x.holder
  delivered : y.delivered = x.delivered
  made : y.made = x.made

theorem SameLoads.refl (x : Eng V R) : SameLoads x x := ⟨rfl, rfl, rfl, rfl, rfl⟩

theorem SameLoads.trans {x y z : Eng V R} (h : SameLoads x y) (k : SameLoads y z) : SameLoads x z :=
  ⟨k.status.trans h.status, k.loader.trans h.loader, k.holder.trans h.holder, k.delivered.trans h.delivered, k.made.trans h.made⟩

theorem notify_loads (x : Eng V R) (o : Option (Held V)) : SameLoads x (x.notify o) := by
  unfold Eng.notify
  split_ifs <;> exact ⟨rfl, rfl, rfl, rfl, rfl⟩

theorem notifyAll_loads (x : Eng V R) (os : List (Option (Held V))) : SameLoads x (x.notifyAll os) := by
  unfold Eng.notifyAll
  induction os generalizing x with
  | nil => exact .refl x
  | cons o os ih => exact (notify_loads x o).trans (ih _)

theorem visit_loads (ops : ConvOps V) (x : Eng V R) (g : Held V) : SameLoads x (x.visit ops g) :=
  have h := notifyAll_loads { x with core := (x.core.handle ops g).1 } (x.core.handle ops g).2
  ⟨h.status, h.loader, h.holder, h.delivered, h.made⟩

theorem finish_loads (x : Eng V R) (d : List (Held V)) (k : Call) (r : Core V × Core.Effects V) : SameLoads x (x.finish d k r) :=
  have h := notifyAll_loads { x with core := r.1 } r.2.pushed
  ⟨h.status, h.loader, h.holder, h.delivered, h.made⟩

/-- Steps of the audio-side, background and message threads. -/
def Quiet (s s' : Sys V R) : Prop := s'.jobs = s.jobs ∧ s'.next = s.next ∧ ∀ e, SameLoads (s.engs e) (s'.engs e)

theorem quiet_set {s : Sys V R} {e : ℕ} {x : Eng V R} (h : SameLoads (s.engs e) x) : Quiet s (s.setEng e x) := by
  refine ⟨rfl, rfl, fun e' => ?_⟩
  rw [setEng_engs]
  split_ifs with hc
  · subst hc; exact h
  · exact .refl _

/-- The labels of those steps. -/
def Label.quiet : Label R → Bool
  | .call _ _ | .service _ | .visit _ | .serviced _ | .body _ | .bgBegin _ | .bgVisit _ | .bgEnd _ | .async => true
  | _ => false

theorem step_quiet {ops : ConvOps V} {build : R → ProcSpec → V} {s s' : Sys V R} {l : Label R} (h : Step ops build s l s') (hl : Label.quiet l = true) :
    Quiet s s' := by
  cases h <;> try (exact Bool.noConfusion hl)
  case call => exact quiet_set ⟨rfl, rfl, rfl, rfl, rfl⟩
  case service => exact quiet_set ⟨rfl, rfl, rfl, rfl, rfl⟩
  case visit e n k d g rest h1 h2 =>
    have h := visit_loads ops (s.engs e) g
    exact quiet_set ⟨h.status, h.loader, h.holder, h.delivered, h.made⟩
  case serviced => exact quiet_set ⟨rfl, rfl, rfl, rfl, rfl⟩
  case body e k d r h1 h2 => exact quiet_set (finish_loads (s.engs e) d k r)
  case bgBegin => exact quiet_set ⟨rfl, rfl, rfl, rfl, rfl⟩
  case bgVisit => exact quiet_set ⟨rfl, rfl, rfl, rfl, rfl⟩
  case bgEnd => exact quiet_set ⟨rfl, rfl, rfl, rfl, rfl⟩
  case async e rest h1 h2 =>
    obtain ⟨q1, q2, q3⟩ := quiet_set (s := s) (e := e) (x := { s.engs e with notified := (s.engs e).notified ++ [(s.engs e).loading] }) ⟨rfl, rfl, rfl, rfl, rfl⟩
    exact ⟨q1, q2, q3⟩
  case asyncDead e rest h1 h2 =>
    obtain ⟨q1, q2, q3⟩ := quiet_set (s := s) (e := e) (x := { s.engs e with touched := true }) ⟨rfl, rfl, rfl, rfl, rfl⟩
    exact ⟨q1, q2, q3⟩

theorem mem_of_find {s : Sys V R} {j : Job V R} (h : s.jobs.find? Job.waiting = some j) : j ∈ s.jobs ∧ j.pc = .queued :=
  ⟨List.mem_of_find?_eq_some h, waiting_iff.mp (by simpa using List.find?_some h)⟩

theorem setJob_nodup {s : Sys V R} {j : Job V R} (h : (s.jobs.map Job.id).Nodup) : ((s.setJob j).jobs.map Job.id).Nodup := by
  rw [setJob_ids]; exact h

theorem dropJob_nodup {s : Sys V R} {i : ℕ} (h : (s.jobs.map Job.id).Nodup) : ((s.dropJob i).jobs.map Job.id).Nodup :=
  ((dropJob_sub s i).map Job.id).nodup h

/-- Prove every field of an invariant after a step. -/
macro "sys_step" : tactic => `(tactic|
  (constructor <;> (try simp only [forall_removeAll, exists_removeAll, setEng_engs, setEng_jobs, setEng_next, setEng_async, setJob_engs, setJob_next, setJob_async,
    dropJob_engs, dropJob_next, dropJob_async]) <;> grind))

/-! ## Identities of loads -/

structure Ids (s : Sys V R) : Prop where
  nodup : (s.jobs.map Job.id).Nodup
  jlt : ∀ j ∈ s.jobs, j.id < s.next
  llt : ∀ e i r p, (s.engs e).loader = some (i, r, p) → i < s.next
  lnew : ∀ e i r p, (s.engs e).loader = some (i, r, p) → ∀ j ∈ s.jobs, j.id ≠ i
  linj : ∀ e e' i r p r' p', (s.engs e).loader = some (i, r, p) → (s.engs e').loader = some (i, r', p') → e = e'

theorem Ids.quiet {s s' : Sys V R} (h : Ids s) (q : Quiet s s') : Ids s' := by
  obtain ⟨q1, q2, q3⟩ := q
  have hl : ∀ e, (s'.engs e).loader = (s.engs e).loader := fun e => (q3 e).loader
  obtain ⟨a1, a2, a3, a4, a5⟩ := h
  constructor <;> simp only [q1, q2, hl] <;> assumption

theorem Ids.step {ops : ConvOps V} {build : R → ProcSpec → V} {s s' : Sys V R} {l : Label R} (hI : Ids s) (h : Step ops build s l s') : Ids s' := by
  have h0 := h
  obtain ⟨a1, a2, a3, a4, a5⟩ := hI
  cases h <;> try (exact Ids.quiet ⟨a1, a2, a3, a4, a5⟩ (step_quiet h0 rfl))
  case create e h1 =>
    sys_step
  case loadLock e req h1 h2 =>
    sys_step
  case loadRemove e i req h1 =>
    have h2 := (removeAll_ids s.jobs).nodup a1
    have h3 := @mem_removeAll V R s.jobs
    sys_step
  case loadFlag e i req h1 h2 =>
    sys_step
  case loadSkip e i req h1 h2 =>
    sys_step
  case loadAdd e i req p h1 h2 =>
    sys_step
  case pick j h1 =>
    have h2 := mem_of_find h1
    have h3 := setJob_nodup (j := { j with pc := .building }) a1
    have h4 := @mem_setJob V R s { j with pc := .building }
    sys_step
  case build j h1 h2 =>
    have h3 := setJob_nodup (j := { j with pc := .built (build j.req j.spec) }) a1
    have h4 := @mem_setJob V R s { j with pc := .built (build j.req j.spec) }
    sys_step
  case jobLock j v h1 h2 h5 h6 =>
    have h3 := setJob_nodup (j := { j with pc := .locked v }) a1
    have h4 := @mem_setJob V R s { j with pc := .locked v }
    sys_step
  case jobLockDead j v h1 h2 h5 =>
    exact Ids.quiet ⟨a1, a2, a3, a4, a5⟩ (quiet_set ⟨rfl, rfl, rfl, rfl, rfl⟩)
  case jobStop j v h1 h2 h5 h6 =>
    have h3 := dropJob_nodup (i := j.id) a1
    have h4 := @mem_dropJob V R s
    sys_step
  case jobPush j v h1 h2 h5 h6 h7 =>
    have h3 := setJob_nodup (j := { j with pc := .pushed }) a1
    have h4 := @mem_setJob V R s { j with pc := .pushed }
    sys_step
  case jobRefused j v h1 h2 h5 h6 h7 =>
    have h3 := setJob_nodup (j := { j with pc := .pushed }) a1
    have h4 := @mem_setJob V R s { j with pc := .pushed }
    sys_step
  case jobCheckDead j v h1 h2 h5 =>
    exact Ids.quiet ⟨a1, a2, a3, a4, a5⟩ (quiet_set ⟨rfl, rfl, rfl, rfl, rfl⟩)
  case jobDone j h1 h2 h5 =>
    have h3 := dropJob_nodup (i := j.id) a1
    have h4 := @mem_dropJob V R s
    sys_step
  case jobDoneDead j h1 h2 h5 =>
    exact Ids.quiet ⟨a1, a2, a3, a4, a5⟩ (quiet_set ⟨rfl, rfl, rfl, rfl, rfl⟩)
  case destroy e h1 h2 h3 h4 =>
    sys_step

/-! ## The mutex -/

/-- The job holds `load_mutex_`. -/
def Job.holds (j : Job V R) : Bool := match j.pc with
  | .locked _ | .pushed => true
  | _ => false

@[grind =] theorem holds_iff {j : Job V R} : Job.holds j = true ↔ (∃ v, j.pc = .locked v) ∨ j.pc = .pushed := by
  unfold Job.holds
  cases j.pc <;> simp

structure Locks (s : Sys V R) : Prop where
  excl : ∀ e, (s.engs e).loader ≠ none → (s.engs e).holder = none
  alive : ∀ e, (s.engs e).loader ≠ none → (s.engs e).status = .alive
  born : ∀ j ∈ s.jobs, (s.engs j.eng).status ≠ .unborn
  unborn : ∀ e, (s.engs e).status = .unborn → (s.engs e).holder = none
  hjob : ∀ e i, (s.engs e).holder = some i → ∃ j ∈ s.jobs, j.id = i ∧ j.eng = e ∧ Job.holds j = true
  jhold : ∀ j ∈ s.jobs, Job.holds j = true → (s.engs j.eng).holder = some j.id

theorem Locks.quiet {s s' : Sys V R} (h : Locks s) (q : Quiet s s') : Locks s' := by
  obtain ⟨q1, q2, q3⟩ := q
  have hl : ∀ e, (s'.engs e).loader = (s.engs e).loader := fun e => (q3 e).loader
  have hh : ∀ e, (s'.engs e).holder = (s.engs e).holder := fun e => (q3 e).holder
  have hs : ∀ e, (s'.engs e).status = (s.engs e).status := fun e => (q3 e).status
  obtain ⟨a1, a2, a3, a4, a5, a6⟩ := h
  constructor <;> simp only [q1, q2, hl, hh, hs] <;> assumption

theorem Locks.step {ops : ConvOps V} {build : R → ProcSpec → V} {s s' : Sys V R} {l : Label R} (hN : Ids s) (hI : Locks s) (h : Step ops build s l s') :
    Locks s' := by
  have h0 := h
  have hsame := @same_job V R s hN.nodup
  obtain ⟨a1, a2, a3, a4, a5, a6⟩ := hI
  cases h <;> try (exact Locks.quiet ⟨a1, a2, a3, a4, a5, a6⟩ (step_quiet h0 rfl))
  case create e h1 =>
    sys_step
  case loadLock e req h1 h2 =>
    sys_step
  case loadRemove e i req h1 =>
    sys_step
  case loadFlag e i req h1 h2 =>
    sys_step
  case loadSkip e i req h1 h2 =>
    sys_step
  case loadAdd e i req p h1 h2 =>
    sys_step
  case pick j h1 =>
    have h2 := mem_of_find h1
    have h3 := setJob_nodup (j := { j with pc := .building }) hN.nodup
    have h4 := @mem_setJob_iff V R s j { j with pc := .building } h2.1 rfl
    have h8 := setJob_mem (j' := { j with pc := .building }) h2.1 rfl
    sys_step
  case build j h1 h2 =>
    have h4 := @mem_setJob_iff V R s j { j with pc := .built (build j.req j.spec) } h1 rfl
    have h8 := setJob_mem (j' := { j with pc := .built (build j.req j.spec) }) h1 rfl
    sys_step
  case jobLock j v h1 h2 h5 h6 =>
    have h4 := @mem_setJob_iff V R s j { j with pc := .locked v } h1 rfl
    have h8 := setJob_mem (j' := { j with pc := .locked v }) h1 rfl
    sys_step
  case jobLockDead j v h1 h2 h5 =>
    exact Locks.quiet ⟨a1, a2, a3, a4, a5, a6⟩ (quiet_set ⟨rfl, rfl, rfl, rfl, rfl⟩)
  case jobStop j v h1 h2 h5 h6 =>
    have h4 := @mem_dropJob V R s
    sys_step
  case jobPush j v h1 h2 h5 h6 h7 =>
    have h4 := @mem_setJob_iff V R s j { j with pc := .pushed } h1 rfl
    have h8 := setJob_mem (j' := { j with pc := .pushed }) h1 rfl
    sys_step
  case jobRefused j v h1 h2 h5 h6 h7 =>
    have h4 := @mem_setJob_iff V R s j { j with pc := .pushed } h1 rfl
    have h8 := setJob_mem (j' := { j with pc := .pushed }) h1 rfl
    sys_step
  case jobCheckDead j v h1 h2 h5 =>
    exact Locks.quiet ⟨a1, a2, a3, a4, a5, a6⟩ (quiet_set ⟨rfl, rfl, rfl, rfl, rfl⟩)
  case jobDone j h1 h2 h5 =>
    have h4 := @mem_dropJob V R s
    sys_step
  case jobDoneDead j h1 h2 h5 =>
    exact Locks.quiet ⟨a1, a2, a3, a4, a5, a6⟩ (quiet_set ⟨rfl, rfl, rfl, rfl, rfl⟩)
  case destroy e h1 h2 h3 h4 =>
    sys_step

/-! ## The order of loads -/

structure Order (s : Sys V R) : Prop where
  sorted : ∀ e, (s.engs e).delivered.Pairwise fun a b => a.id < b.id
  dlt : ∀ e, ∀ d ∈ (s.engs e).delivered, d.id < s.next
  dload : ∀ e i r p, (s.engs e).loader = some (i, r, p) → ∀ d ∈ (s.engs e).delivered, d.id < i
  jload : ∀ e i r p, (s.engs e).loader = some (i, r, p) → ∀ j ∈ s.jobs, j.eng = e → j.id < i
  fresh : ∀ j ∈ s.jobs, j.stop = false → j.pc ≠ .pushed → ∀ d ∈ (s.engs j.eng).delivered, d.id < j.id
  single : ∀ j ∈ s.jobs, ∀ j' ∈ s.jobs, j.stop = false → j'.stop = false → j.eng = j'.eng → j.id = j'.id
  noload : ∀ e i r p, (s.engs e).loader = some (i, r, p) → p ≠ .locked → ∀ j ∈ s.jobs, j.eng = e → j.stop = true

theorem Order.quiet {s s' : Sys V R} (h : Order s) (q : Quiet s s') : Order s' := by
  obtain ⟨q1, q2, q3⟩ := q
  have hl : ∀ e, (s'.engs e).loader = (s.engs e).loader := fun e => (q3 e).loader
  have hd : ∀ e, (s'.engs e).delivered = (s.engs e).delivered := fun e => (q3 e).delivered
  obtain ⟨a1, a2, a3, a4, a5, a6, a7⟩ := h
  constructor <;> simp only [q1, q2, hl, hd] <;> assumption

set_option maxHeartbeats 2000000 in
theorem Order.step {ops : ConvOps V} {build : R → ProcSpec → V} {s s' : Sys V R} {l : Label R} (hN : Ids s) (hL : Locks s) (hI : Order s)
    (h : Step ops build s l s') : Order s' := by
  have h0 := h
  have hsame := @same_job V R s hN.nodup
  have hexcl := hL.excl
  have hjhold := hL.jhold
  have hjlt := hN.jlt
  have hllt := hN.llt
  obtain ⟨a1, a2, a3, a4, a5, a6, a7⟩ := hI
  cases h <;> try (exact Order.quiet ⟨a1, a2, a3, a4, a5, a6, a7⟩ (step_quiet h0 rfl))
  case create e h1 =>
    sys_step
  case loadLock e req h1 h2 =>
    sys_step
  case loadRemove e i req h1 =>
    sys_step
  case loadFlag e i req h1 h2 =>
    sys_step
  case loadSkip e i req h1 h2 =>
    sys_step
  case loadAdd e i req p h1 h2 =>
    sys_step
  case pick j h1 =>
    have h2 := mem_of_find h1
    have h3 := setJob_nodup (j := { j with pc := .building }) hN.nodup
    have h4 := @mem_setJob_iff V R s j { j with pc := .building } h2.1 rfl
    have h8 := setJob_mem (j' := { j with pc := .building }) h2.1 rfl
    sys_step
  case build j h1 h2 =>
    have h4 := @mem_setJob_iff V R s j { j with pc := .built (build j.req j.spec) } h1 rfl
    have h8 := setJob_mem (j' := { j with pc := .built (build j.req j.spec) }) h1 rfl
    sys_step
  case jobLock j v h1 h2 h5 h6 =>
    have h4 := @mem_setJob_iff V R s j { j with pc := .locked v } h1 rfl
    have h8 := setJob_mem (j' := { j with pc := .locked v }) h1 rfl
    sys_step
  case jobLockDead j v h1 h2 h5 =>
    exact Order.quiet ⟨a1, a2, a3, a4, a5, a6, a7⟩ (quiet_set ⟨rfl, rfl, rfl, rfl, rfl⟩)
  case jobStop j v h1 h2 h5 h6 =>
    have h4 := @mem_dropJob V R s
    sys_step
  case jobPush j v h1 h2 h5 h6 h7 =>
    have h4 := @mem_setJob_iff V R s j { j with pc := .pushed } h1 rfl
    have h8 := setJob_mem (j' := { j with pc := .pushed }) h1 rfl
    sys_step
  case jobRefused j v h1 h2 h5 h6 h7 =>
    have h4 := @mem_setJob_iff V R s j { j with pc := .pushed } h1 rfl
    have h8 := setJob_mem (j' := { j with pc := .pushed }) h1 rfl
    sys_step
  case jobCheckDead j v h1 h2 h5 =>
    exact Order.quiet ⟨a1, a2, a3, a4, a5, a6, a7⟩ (quiet_set ⟨rfl, rfl, rfl, rfl, rfl⟩)
  case jobDone j h1 h2 h5 =>
    have h4 := @mem_dropJob V R s
    sys_step
  case jobDoneDead j h1 h2 h5 =>
    exact Order.quiet ⟨a1, a2, a3, a4, a5, a6, a7⟩ (quiet_set ⟨rfl, rfl, rfl, rfl, rfl⟩)
  case destroy e h1 h2 h3 h4 =>
    sys_step

end Zones.Proofs
