import Verif.Spec.CallerMemory

/-! # Proofs about the caller's memory (for C101) -/

namespace Zones.Proofs.Caller
open Zones.Model Zones.Spec

variable {V R R' A : Type}

/-- The engine with other requests. -/
def engAs (f : R → R') (x : Eng V R) : Eng V R' :=
  ⟨x.status, x.core, x.cmd, x.cmdTaken, x.ntf, x.ntfTaken, x.loading, x.pc, x.bg, x.loader.map fun l => (l.1, f l.2.1, l.2.2), x.holder, x.delivered, x.hist, x.outs, x.made,
    x.freed, x.notified, x.touched⟩

def jobAs (f : R → R') (j : Job V R) : Job V R' := ⟨j.id, j.eng, f j.req, j.spec, j.stop, j.pc⟩

def sysAs (f : R → R') (s : Sys V R) : Sys V R' := ⟨fun e => engAs f (s.engs e), s.jobs.map (jobAs f), s.async, s.next⟩

theorem setEng_as (f : R → R') (s : Sys V R) (e : ℕ) (x : Eng V R) : sysAs f (s.setEng e x) = (sysAs f s).setEng e (engAs f x) := by
  simp only [sysAs, Sys.setEng]
  congr 1
  funext e'
  simp only [Function.update_apply]
  split_ifs <;> rfl

theorem setJob_as (f : R → R') (s : Sys V R) (j : Job V R) : sysAs f (s.setJob j) = (sysAs f s).setJob (jobAs f j) := by
  simp only [sysAs, Sys.setJob, List.map_map]
  congr 1
  apply List.map_congr_left
  intro i _
  simp only [Function.comp]
  have : (jobAs f i).id = i.id := rfl
  rw [this, show (jobAs f j).id = j.id from rfl]
  split_ifs <;> rfl

theorem dropJob_as (f : R → R') (s : Sys V R) (i : ℕ) : sysAs f (s.dropJob i) = (sysAs f s).dropJob i := by
  simp only [sysAs, Sys.dropJob, List.filter_map]
  rfl

theorem waiting_as (f : R → R') (j : Job V R) : (jobAs f j).waiting = j.waiting := rfl

theorem remove_as (f : R → R') (jobs : List (Job V R)) : (removeAllJobs jobs).map (jobAs f) = removeAllJobs (jobs.map (jobAs f)) := by
  simp only [removeAllJobs, List.filter_map, List.map_map]
  rfl

theorem notify_as (f : R → R') (x : Eng V R) (o : Option (Held V)) : engAs f (x.notify o) = (engAs f x).notify o := by
  simp only [Eng.notify]
  show _ = if x.ntf.length + x.ntfTaken < queueRoom then _ else _
  split_ifs <;> rfl

theorem notifyAll_as (f : R → R') : ∀ (os : List (Option (Held V))) (x : Eng V R), engAs f (x.notifyAll os) = (engAs f x).notifyAll os := by
  intro os
  induction os with
  | nil => intro x; rfl
  | cons o os ih =>
    intro x
    show engAs f ((x.notify o).notifyAll os) = ((engAs f x).notify o).notifyAll os
    rw [ih, notify_as]

theorem visit_as (f : R → R') (ops : ConvOps V) (x : Eng V R) (g : Held V) : engAs f (x.visit ops g) = (engAs f x).visit ops g :=
  notifyAll_as f _ _

theorem finish_as (f : R → R') (x : Eng V R) (done : List (Held V)) (k : Call) (r : Core V × Core.Effects V) :
    engAs f (x.finish done k r) = (engAs f x).finish done k r := by
  have := notifyAll_as f r.2.pushed { x with core := r.1 }
  simp only [Eng.finish]
  rw [show ({ engAs f x with core := r.1 } : Eng V R') = engAs f { x with core := r.1 } from rfl, ← this]
  rfl

theorem loader_as (f : R → R') {s : Sys V R} {e i : ℕ} {req : R} {pc : LPc} (h : (s.engs e).loader = some (i, req, pc)) :
    ((sysAs f s).engs e).loader = some (i, f req, pc) := by
  show Option.map _ (s.engs e).loader = _
  rw [h]; rfl

theorem unlocked_as (f : R → R') {x : Eng V R} (h : x.unlocked) : (engAs f x).unlocked := ⟨by show Option.map _ x.loader = none; rw [h.1]; rfl, h.2⟩

theorem mem_as (f : R → R') {s : Sys V R} {j : Job V R} (h : j ∈ s.jobs) : jobAs f j ∈ (sysAs f s).jobs := List.mem_map_of_mem h

theorem setEng_next (f : R → R') (s : Sys V R) (e n : ℕ) (x : Eng V R) :
    sysAs f { s.setEng e x with next := n } = { (sysAs f s).setEng e (engAs f x) with next := n } := by
  show ({ sysAs f (s.setEng e x) with next := n } : Sys V R') = _
  rw [setEng_as]

theorem setEng_jobs (f : R → R') (s : Sys V R) (e : ℕ) (js : List (Job V R)) (x : Eng V R) :
    sysAs f { s.setEng e x with jobs := js } = { (sysAs f s).setEng e (engAs f x) with jobs := js.map (jobAs f) } := by
  show ({ sysAs f (s.setEng e x) with jobs := js.map (jobAs f) } : Sys V R') = _
  rw [setEng_as]

theorem setEng_async (f : R → R') (s : Sys V R) (e : ℕ) (l : List ℕ) (x : Eng V R) :
    sysAs f { s.setEng e x with async := l } = { (sysAs f s).setEng e (engAs f x) with async := l } := by
  show ({ sysAs f (s.setEng e x) with async := l } : Sys V R') = _
  rw [setEng_as]

/-- Steps do not depend on what requests are. -/
theorem step_as (ops : ConvOps V) (f : R → R') (build : R' → ProcSpec → V) {s s' : Sys V R} {l : Label R} (h : Step ops (fun r p => build (f r) p) s l s') :
    Step ops build (sysAs f s) (labelAs f l) (sysAs f s') := by
  cases h with
  | create h => rw [setEng_as]; exact .create h
  | loadLock h hm => rw [setEng_next]; exact .loadLock h (unlocked_as f hm)
  | loadRemove h => rw [setEng_jobs, remove_as]; exact .loadRemove (loader_as f h)
  | loadFlag h hs => rw [setEng_as]; exact .loadFlag (loader_as f h) hs
  | loadSkip h hs => rw [setEng_as]; exact .loadSkip (loader_as f h) hs
  | loadAdd h hs => rw [setEng_jobs, List.map_append]; exact .loadAdd (loader_as f h) hs
  | pick h =>
    rw [setJob_as]
    refine .pick (j := jobAs f _) ?_
    show ((s.jobs.map (jobAs f)).find? Job.waiting) = _
    rw [List.find?_map, show (Job.waiting ∘ jobAs f : Job V R → Bool) = Job.waiting from rfl, h]
    rfl
  | build h hj => rw [setEng_as, setJob_as]; exact .build (mem_as f h) hj
  | jobLock h hj ha hm => rw [setEng_as, setJob_as]; exact .jobLock (mem_as f h) hj ha (unlocked_as f hm)
  | jobLockDead h hj ha => rw [setEng_as]; exact .jobLockDead (mem_as f h) hj ha
  | jobStop h hj ha hst => rw [setEng_as, dropJob_as]; exact .jobStop (mem_as f h) hj ha hst
  | jobPush h hj ha hst hroom => rw [setEng_as, setJob_as]; exact .jobPush (mem_as f h) hj ha hst hroom
  | jobRefused h hj ha hst hfull => rw [setEng_as, setJob_as]; exact .jobRefused (mem_as f h) hj ha hst hfull
  | jobCheckDead h hj ha => rw [setEng_as]; exact .jobCheckDead (mem_as f h) hj ha
  | jobDone h hj ha => rw [setEng_async, dropJob_as]; exact .jobDone (mem_as f h) hj ha
  | jobDoneDead h hj ha => rw [setEng_as]; exact .jobDoneDead (mem_as f h) hj ha
  | call ha h => rw [setEng_as]; exact .call ha h
  | service h => rw [setEng_as]; exact .service h
  | visit h hc =>
    rename_i e n k done g rest
    rw [setEng_as]
    have := visit_as f ops (s.engs e) g
    have hx := Step.visit (ops := ops) (build := build) (s := sysAs f s) (e := e) h hc
    rw [show (sysAs f s).engs e = engAs f (s.engs e) from rfl, ← this] at hx
    exact hx
  | serviced h => rw [setEng_as]; exact .serviced h
  | body h hr => rw [setEng_as, finish_as]; exact .body h hr
  | bgBegin ha h => rw [setEng_as]; exact .bgBegin ha h
  | bgVisit h hc => rw [setEng_as]; exact .bgVisit h hc
  | bgEnd h => rw [setEng_as]; exact .bgEnd h
  | async h ha => rw [setEng_async]; exact .async h ha
  | asyncDead h ha => rw [setEng_async]; exact .asyncDead h ha
  | destroy ha h hl hb => rw [setEng_as]; exact .destroy ha h (by show Option.map _ (s.engs _).loader = none; rw [hl]; rfl) hb

/-- All jobs own their samples. -/
structure Inv (s : MSys V A) : Prop where
  jobs : ∀ j ∈ s.sys.jobs, ∃ a, j.req = .own a

theorem read_jobs {garbage : A} {m m' : ℕ → Option A} {js : List (Job V (Ref A))} (h : ∀ j ∈ js, ∃ a, j.req = .own a) :
    js.map (jobAs (Ref.read garbage m)) = js.map (jobAs (Ref.read garbage m')) := by
  apply List.map_congr_left
  intro j hj
  obtain ⟨a, ha⟩ := h j hj
  simp only [jobAs, ha, Ref.read]

/-- Changing memory no running call refers to changes nothing. -/
theorem as_update {garbage : A} {s : MSys V A} (i : Inv s) {r : ℕ} (h : ¬ s.inCall r) (o : Option A) :
    sysAs (Ref.read garbage (Function.update s.mem r o)) s.sys = sysAs (Ref.read garbage s.mem) s.sys := by
  simp only [sysAs]
  rw [read_jobs i.jobs (m' := s.mem)]
  congr 1
  funext e
  simp only [engAs]
  congr 1
  cases hl : (s.sys.engs e).loader with
  | none => rfl
  | some l =>
    obtain ⟨n, ref, pc⟩ := l
    cases ref with
    | own a => rfl
    | block r' =>
      have hne : r' ≠ r := by
        rintro rfl
        exact h ⟨e, n, pc, hl⟩
      simp only [Option.map_some, Ref.read, Function.update_of_ne hne]

theorem step_jobs {ops : ConvOps V} {build : Ref A → ProcSpec → V} {s s' : Sys V (Ref A)} {l : Label (Ref A)} (hl : ∀ e, l ≠ .loadAdd e)
    (h : Step ops build s l s') (hj : ∀ j ∈ s.jobs, ∃ a, j.req = .own a) : ∀ j ∈ s'.jobs, ∃ a, j.req = .own a := by
  have set : ∀ (j' : Job V (Ref A)), (∃ a, j'.req = .own a) → ∀ j ∈ (s.setJob j').jobs, ∃ a, j.req = .own a := by
    intro j' h' j hm
    obtain ⟨i, hi, rfl⟩ := List.mem_map.1 hm
    split_ifs
    · exact h'
    · exact hj i hi
  have drop : ∀ i, ∀ j ∈ (s.dropJob i).jobs, ∃ a, j.req = .own a := fun i j hm => hj j (List.mem_of_mem_filter hm)
  cases h with
  | loadRemove h =>
    intro j hm
    obtain ⟨i, hi, rfl⟩ := List.mem_map.1 hm
    exact hj i (List.mem_of_mem_filter hi)
  | loadAdd h hs => exact absurd rfl (hl _)
  | pick h => have hq := hj _ (List.mem_of_find?_eq_some h); exact set _ hq
  | build h _ => have hq := hj _ h; exact set _ hq
  | jobLock h _ _ _ => have hq := hj _ h; exact set _ hq
  | jobPush h _ _ _ _ => have hq := hj _ h; exact set _ hq
  | jobRefused h _ _ _ _ => have hq := hj _ h; exact set _ hq
  | jobStop _ _ _ _ => exact drop _
  | jobDone _ _ _ => exact drop _
  | _ => exact hj

theorem run_as (ops : ConvOps V) (build : A → ProcSpec → V) (garbage : A) : ∀ (ls : List (MLabel A)) (s s' : MSys V A), Inv s → MRun ops build garbage s ls s' →
    Inv s' ∧ Run ops build (sysAs (Ref.read garbage s.mem) s.sys) (atCallTime garbage s.mem ls) (sysAs (Ref.read garbage s'.mem) s'.sys) := by
  intro ls
  induction ls with
  | nil => intro s s' i h; cases h; exact ⟨i, .nil _⟩
  | cons l ls ih =>
    intro s s' i h
    cases h with
    | cons h t =>
    cases h with
    | other hl ha h =>
      obtain ⟨i', r⟩ := ih _ _ ⟨step_jobs ha h i.jobs⟩ t
      exact ⟨i', .cons (step_as ops _ build h) r⟩
    | load hr h =>
      obtain ⟨i', r⟩ := ih _ _ ⟨step_jobs (by simp) h i.jobs⟩ t
      exact ⟨i', .cons (step_as ops _ build h) r⟩
    | add h hs =>
      rename_i e n ref p
      obtain ⟨i', r⟩ := ih _ _ ⟨by
        intro j hm
        rcases List.mem_append.1 hm with hm | hm
        · exact i.jobs j hm
        · rw [List.mem_singleton] at hm
          subst hm; exact ⟨_, rfl⟩⟩ t
      refine ⟨i', .cons ?_ r⟩
      rw [setEng_jobs, List.map_append]
      have hx := loader_as (Ref.read garbage s.mem) h
      exact Step.loadAdd (ops := ops) (build := build) (s := sysAs (Ref.read garbage s.mem) s.sys) hx hs
    | write h =>
      rename_i q a
      obtain ⟨i', r⟩ := (fun q => ih _ _ q t) ⟨i.jobs⟩
      refine ⟨i', ?_⟩
      have := as_update (garbage := garbage) i h (some a)
      simp only [this] at r
      exact r
    | release h =>
      obtain ⟨i', r⟩ := (fun q => ih _ _ q t) ⟨i.jobs⟩
      refine ⟨i', ?_⟩
      have := as_update (garbage := garbage) i h none
      simp only [this] at r
      exact r

/-- A step reads samples only through jobs. -/
theorem step_build {ops : ConvOps V} {b b' : R → ProcSpec → V} {s s' : Sys V R} {l : Label R} (h : Step ops b s l s') (hb : ∀ j ∈ s.jobs, b j.req = b' j.req) :
    Step ops b' s l s' := by
  cases h with
  | build h hj =>
    rw [hb _ h]
    exact .build h hj
  | create h => exact .create h
  | loadLock h hm => exact .loadLock h hm
  | loadRemove h => exact .loadRemove h
  | loadFlag h hs => exact .loadFlag h hs
  | loadSkip h hs => exact .loadSkip h hs
  | loadAdd h hs => exact .loadAdd h hs
  | pick h => exact .pick h
  | jobLock h hj ha hm => exact .jobLock h hj ha hm
  | jobLockDead h hj ha => exact .jobLockDead h hj ha
  | jobStop h hj ha hst => exact .jobStop h hj ha hst
  | jobPush h hj ha hst hroom => exact .jobPush h hj ha hst hroom
  | jobRefused h hj ha hst hfull => exact .jobRefused h hj ha hst hfull
  | jobCheckDead h hj ha => exact .jobCheckDead h hj ha
  | jobDone h hj ha => exact .jobDone h hj ha
  | jobDoneDead h hj ha => exact .jobDoneDead h hj ha
  | call ha h => exact .call ha h
  | service h => exact .service h
  | visit h hc => exact .visit h hc
  | serviced h => exact .serviced h
  | body h hr => exact .body h hr
  | bgBegin ha h => exact .bgBegin ha h
  | bgVisit h hc => exact .bgVisit h hc
  | bgEnd h => exact .bgEnd h
  | async h ha => exact .async h ha
  | asyncDead h ha => exact .asyncDead h ha
  | destroy ha h hl hb => exact .destroy ha h hl hb

end Zones.Proofs.Caller
