import Verif.Proofs.EngineRecord
import Verif.Props.EngineExact

/-!
# The concurrent system: C31, C36, C37, C40, C41, C43, C44, C52–C55

All theorems are about every execution (`Exec`) of any number of engines on one thread pool: every order of the steps of `LoadIR` calls,
jobs, audio-side calls, background threads and the message thread.
-/

open Zones.Spec Zones.Model Zones.Proofs

namespace Zones.Props

variable {V R : Type} {ops : ConvOps V} {build : R → ProcSpec → V} {ls ls' : List (Label R)} {s s' : Sys V R}

theorem exec_snoc {l : Label R} (h : Exec ops build (ls ++ [l]) s) : ∃ s0, Exec ops build ls s0 ∧ Step ops build s0 l s := by
  have key : ∀ (xs : List (Label R)) (a b : Sys V R), Run ops build a (xs ++ [l]) b → ∃ c, Run ops build a xs c ∧ Step ops build c l b := by
    intro xs
    induction xs with
    | nil =>
      intro a b h
      cases h with
      | cons h t => cases t; exact ⟨a, .nil a, h⟩
    | cons x xs ih =>
      intro a b h
      cases h with
      | cons h t =>
        obtain ⟨c, h1, h2⟩ := ih _ _ t
        exact ⟨c, .cons h h1, h2⟩
  exact key ls {} s h

theorem exec_append (h : Exec ops build ls s) (h' : Run ops build s ls' s') : Exec ops build (ls ++ ls') s' := Run.append h h'

/-! ## C31 -/

/-- **C31.** The convolvers that reach the command queue of an engine arrive in the order of their `LoadIR` calls, at most one per call; the
one for load `i` has been built from the impulse response of that call and a format the engine has been prepared with. -/
theorem C31_load_order (h : Exec ops build ls s) (e : ℕ) :
    ((s.engs e).delivered.map Held.id).Pairwise (· < ·) ∧
    ∀ d ∈ (s.engs e).delivered, ∃ req p, (loadsIn ls)[d.id]? = some (e, req) ∧ p ∈ formatsIn e ls ∧ d.obj = build req p := by
  have hk := exec_known h
  exact ⟨List.pairwise_map.mpr (hk.inv.order.sorted e), hk.origins.got e⟩

/-- **C31.** As soon as a call of `LoadIR` has cancelled the other jobs — in particular once it has returned — no older load of that engine
is delivered any more. -/
theorem C31_no_older_load_later {e : ℕ} (h : Exec ops build (ls ++ [.loadRemove e]) s) (hr : Run ops build s ls' s') :
    ∃ new, (s'.engs e).delivered = (s.engs e).delivered ++ new ∧
      ∀ d ∈ new, ∀ (i : ℕ) (req : R), (loadsIn ls)[i]? = some (e, req) → i ≤ d.id := by
  obtain ⟨s0, h0, hs⟩ := exec_snoc h
  have hnew := loader_newest h0
  have hids := (exec_inv h0).ids
  cases hs with
  | @loadRemove _ i req hl =>
    have hA : After e i (({ s0.setEng e { s0.engs e with loader := some (i, req, .removed) } with jobs := removeAllJobs s0.jobs } : Sys V R)) := by
      refine ⟨?_, ?_, ?_⟩
      · intro j hj _ hst
        obtain ⟨k, _, _, rfl⟩ := mem_removeAll.mp hj
        cases hst
      · intro i' r' p' hl'
        have hl'' : ((s0.setEng e { s0.engs e with loader := some (i, req, .removed) }).engs e).loader = some (i', r', p') := hl'
        rw [setEng_engs, if_pos rfl] at hl''
        simp only [Option.some.injEq, Prod.mk.injEq] at hl''
        omega
      · exact le_of_lt (hids.llt e i req _ hl)
    obtain ⟨_, new, h1, h2⟩ := hA.run hr
    exact ⟨new, h1, fun d hd k q hk => le_trans (hnew e i req _ hl k q hk) (h2 d hd)⟩

/-! ## C55 -/

/-- **C55.** A load whose job has not been superseded is not lost: as long as nobody calls `LoadIR`, its job stays, or it has been
delivered, or the command queue has refused it. -/
theorem C55_not_lost (h : Exec ops build ls s) {j : Job V R} (hj : j ∈ s.jobs) (hstop : j.stop = false) (hpc : j.pc ≠ .pushed)
    (hr : Run ops build s ls' s') (hl : ∀ e, .loadRemove e ∉ ls') :
    (∃ j' ∈ s'.jobs, j'.id = j.id ∧ j'.eng = j.eng ∧ j'.stop = false ∧ j'.pc ≠ .pushed) ∨ j.id ∈ (s'.engs j.eng).delivered.map Held.id ∨
      (j.id, .worker) ∈ (s'.engs j.eng).freed := by
  have key : ∀ (s s' : Sys V R) (ls' : List (Label R)), Run ops build s ls' s' → Inv ops s → (∀ e, .loadRemove e ∉ ls') → ∀ (i e : ℕ),
      (∃ j' ∈ s.jobs, j'.id = i ∧ j'.eng = e ∧ j'.stop = false ∧ j'.pc ≠ .pushed) →
      ((∃ j' ∈ s'.jobs, j'.id = i ∧ j'.eng = e ∧ j'.stop = false ∧ j'.pc ≠ .pushed) ∨ i ∈ (s'.engs e).delivered.map Held.id ∨
        (i, .worker) ∈ (s'.engs e).freed) := by
    intro s s' ls' hr
    induction hr with
    | nil s => exact fun _ _ i e h => Or.inl h
    | @cons s s1 s2 l ls' hs t ih =>
      rintro hI hl i e ⟨j', g1, rfl, rfl, g4, g5⟩
      have hl1 : ∀ e, l ≠ .loadRemove e := fun e he => hl e (by rw [he]; exact List.mem_cons_self ..)
      obtain ⟨⟨nd, k1⟩, nf, k2⟩ := run_grows t j'.eng
      rcases job_step hI.ids.nodup hs hl1 g1 g4 g5 with h | h | h
      · exact ih (hI.step hs) (fun e he => hl e (List.mem_cons_of_mem _ he)) _ _ h
      · right; left
        rw [k1, List.map_append]
        exact List.mem_append_left _ h
      · right; right
        rw [k2]
        exact List.mem_append_left _ h
  exact key s s' ls' hr (exec_inv h) hl _ _ ⟨j, hj, rfl, rfl, hstop, hpc⟩

/-- **C55.** The queue refuses it only if 399 convolvers are waiting or being serviced. -/
theorem C55_refused_only_if_full (h : Exec ops build ls s) {l : Label R} (hs : Step ops build s l s') {j : Job V R} (hj : j ∈ s.jobs) (hstop : j.stop = false)
    (hn : (j.id, .worker) ∈ (s'.engs j.eng).freed) (ho : (j.id, .worker) ∉ (s.engs j.eng).freed) :
    (s.engs j.eng).cmd.length + (s.engs j.eng).cmdTaken = 399 := by
  have hfit := ((exec_inv h).flow j.eng).cmdFits
  have hsame := @same_job V R s (exec_inv h).ids.nodup
  obtain ⟨new, h1, h2⟩ := freed_step hs j.eng
  rw [h1, List.mem_append] at hn
  replace hn := hn.resolve_left ho
  cases h2
  case none => cases hn
  case stop k v g1 g2 g3 g4 =>
    simp only [List.mem_singleton, Prod.mk.injEq, and_true] at hn
    have := hsame g1 hj hn.symm
    subst this
    rw [g4] at hstop; cases hstop
  case refused k v g1 g2 g3 g4 g5 =>
    unfold queueRoom at g5 hfit
    omega
  all_goals simp at hn

/-- **C55.** Whenever its engine is alive, has room in its queue and no `LoadIR` call is under way, the worker threads alone can
deliver it, whatever else is going on. -/
theorem C55_can_be_delivered (h : Exec ops build ls s) {j : Job V R} (hj : j ∈ s.jobs) (hstop : j.stop = false) (hpc : j.pc ≠ .pushed)
    (ha : (s.engs j.eng).status = .alive) (hl : (s.engs j.eng).loader = none) (hroom : (s.engs j.eng).cmd.length + (s.engs j.eng).cmdTaken < 399) :
    ∃ ls' s', (∀ l ∈ ls', workerSteps l) ∧ Run ops build s ls' s' ∧ j.id ∈ (s'.engs j.eng).delivered.map Held.id := by
  obtain ⟨s', ⟨ls', h1, h2⟩, h3⟩ := job_delivers (ops := ops) (build := build) ⟨exec_inv h, exec_more h⟩ hj ha hl hstop hpc hroom
  exact ⟨ls', s', h1, h2, h3⟩

/-! ## C36 -/

theorem inJobs_mem (e i : ℕ) : i ∈ inJobs s e ↔ ∃ j ∈ s.jobs, j.eng = e ∧ j.id = i ∧ Job.carries j = true := by
  unfold inJobs
  rw [List.mem_filterMap]
  refine exists_congr fun j => and_congr_right fun hj => ?_
  by_cases hc : j.eng = e
  · rw [if_pos hc]
    unfold Job.carries
    cases hp : j.pc <;> simp [hc]
  · rw [if_neg hc]
    simp [hc]

theorem inJobs_nodup (h : (s.jobs.map Job.id).Nodup) (e : ℕ) : (inJobs s e).Nodup := by
  have : (inJobs s e).Sublist (s.jobs.map Job.id) := by
    unfold inJobs
    rw [← List.filterMap_eq_map']
    generalize s.jobs = js
    clear h
    induction js with
    | nil => exact .slnil
    | cons j js ih =>
      rw [List.filterMap_cons, List.filterMap_cons]
      simp only [Function.comp]
      by_cases hc : j.eng = e
      · rw [if_pos hc]
        cases hp : j.pc <;> simp only <;> first | exact ih.cons _ | exact ih.cons₂ _
      · rw [if_neg hc]; exact ih.cons _
  exact this.nodup h

theorem placed_eq (x : Eng V R) (i : ℕ) : (placed x).count i = (x.holding.map Held.id ++ x.freed.map Prod.fst).count i := by
  unfold placed Eng.holding slots idsOf
  simp only [List.map_append, List.count_append, toList_ids]
  omega

theorem next_step {l : Label R} (h : Step ops build s l s') : s.next ≤ s'.next := by
  cases h <;> first | exact le_rfl | exact Nat.le_succ _

theorem build_old (h : Exec ops build ls s) : ∀ i, .build i ∈ ls → i < s.next := by
  refine exec_induct (P := fun ls s => ∀ i, .build i ∈ ls → i < s.next) (fun i h => (by cases h)) ?_ h
  intro ls s l s' hx ih hs i hm
  refine lt_of_lt_of_le ?_ (next_step hs)
  rw [List.mem_append, List.mem_singleton] at hm
  rcases hm with hm | hm
  · exact ih i hm
  · subst hm
    cases hs with
    | build h1 h2 => exact (exec_inv hx).ids.jlt _ h1

/-- **C36.** A convolver is made for load `i` of engine `e` exactly when its job gets that far. -/
theorem C36_made (h : Exec ops build ls s) (e i : ℕ) : i ∈ (s.engs e).made ↔ .build i ∈ ls ∧ ∃ req, (loadsIn ls)[i]? = some (e, req) := by
  refine exec_induct (P := fun ls s => ∀ e i, i ∈ (s.engs e).made ↔ .build i ∈ ls ∧ ∃ req, (loadsIn ls)[i]? = some (e, req)) ?_ ?_ h e i
  · intro e i
    exact ⟨fun h => (by cases h), fun h => (by cases h.1)⟩
  · intro ls s l s' he hp hs e i
    have hO := (exec_known he).origins
    have old : ∀ {k}, k < s.next → (loadsIn (ls ++ [l]))[k]? = (loadsIn ls)[k]? := fun hk => by
      rw [loadsIn_append, List.getElem?_append_left (by rw [← hO.next]; exact hk)]
    rw [List.mem_append, List.mem_singleton]
    rcases made_step hs e with ⟨h1, h2⟩ | ⟨j, h1, h2, h3, h4, h5⟩
    · rw [h1, hp]
      constructor
      · rintro ⟨g1, g2⟩
        exact ⟨Or.inl g1, by rw [old (build_old he i g1)]; exact g2⟩
      · rintro ⟨g1 | g1, req, g2⟩
        · exact ⟨g1, req, by rw [← old (build_old he i g1)]; exact g2⟩
        · obtain ⟨j, k1, rfl, k3⟩ := h2 i g1.symm
          rw [old ((exec_inv he).ids.jlt j k1), hO.job j k1] at g2
          simp only [Option.some.injEq, Prod.mk.injEq] at g2
          exact absurd g2.1 k3
    · rw [h5, List.mem_append, List.mem_singleton, hp]
      constructor
      · rintro (⟨g1, g2⟩ | rfl)
        · exact ⟨Or.inl g1, by rw [old (build_old he i g1)]; exact g2⟩
        · exact ⟨Or.inr h4.symm, j.req, by rw [old ((exec_inv he).ids.jlt j h1), hO.job j h1, h2]⟩
      · rintro ⟨g1 | g1, req, g2⟩
        · exact Or.inl ⟨g1, req, by rw [← old (build_old he i g1)]; exact g2⟩
        · right
          rw [h4] at g1
          cases g1; rfl

/-- **C36.** No convolver is lost, duplicated or destroyed twice: at any time the convolvers made for an engine are, each exactly once: with the
job that built it, in the engine (its queues and slots), or destroyed. -/
theorem C36_exactly_one_place (h : Exec ops build ls s) (e : ℕ) :
    (s.engs e).made.Nodup ∧ (s.engs e).made.Perm (inJobs s e ++ (s.engs e).holding.map Held.id ++ (s.engs e).freed.map Prod.fst) := by
  have hW := exec_where h
  have hn := (exec_inv h).ids.nodup
  refine ⟨hW.mnodup e, ?_⟩
  have hp : (placed (s.engs e)).Perm ((s.engs e).holding.map Held.id ++ (s.engs e).freed.map Prod.fst) := List.perm_iff_count.mpr (placed_eq _)
  rw [List.append_assoc]
  refine List.Perm.trans ?_ (List.Perm.append_left _ hp)
  have hd : (inJobs s e ++ placed (s.engs e)).Nodup := by
    rw [List.nodup_append]
    refine ⟨inJobs_nodup hn e, hW.nodup e, fun a ha b hb hab => ?_⟩
    subst hab
    obtain ⟨j, hj, rfl, rfl, hc⟩ := (inJobs_mem e a).mp ha
    exact hW.jp j hj hc hb
  rw [List.perm_ext_iff_of_nodup (hW.mnodup e) hd]
  intro i
  rw [List.mem_append, inJobs_mem]
  constructor
  · intro hi
    exact (hW.mp e i hi).symm
  · rintro (⟨j, hj, rfl, rfl, hc⟩ | hi)
    · exact hW.jm j hj hc
    · exact hW.pm e i hi

/-- **C36.** Once an engine and its jobs are gone, every convolver made for it has been destroyed, exactly once. -/
theorem C36_all_destroyed_once (h : Exec ops build ls s) (e : ℕ) (hd : (s.engs e).status = .dead) (hj : ∀ j ∈ s.jobs, j.eng ≠ e) :
    ((s.engs e).freed.map Prod.fst).Nodup ∧ (s.engs e).made.Perm ((s.engs e).freed.map Prod.fst) := by
  obtain ⟨h1, h2⟩ := C36_exactly_one_place h e
  have e1 : inJobs s e = [] := by
    refine List.eq_nil_iff_forall_not_mem.mpr fun i hi => ?_
    obtain ⟨j, hj', he, _⟩ := (inJobs_mem e i).mp hi
    exact hj j hj' he
  rw [e1, (exec_more h).deadEmpty e hd] at h2
  exact ⟨h2.nodup_iff.mp h1, h2⟩

/-! ## C37 -/

/-- **C37.** The thread that makes the audio-side calls destroys a convolver only in `reset`, `prepare` or `Clear`, or if 399 disposals are
already waiting (or being serviced) in the notification queue. -/
theorem C37_audio_thread_frees (h : Exec ops build ls s) {l : Label R} (hs : Step ops build s l s') {e i : ℕ}
    (hn : (i, .audio) ∈ (s'.engs e).freed) (ho : (i, .audio) ∉ (s.engs e).freed) :
    (l = .body e ∧ ∃ k d, (s.engs e).pc = .served k d ∧ ∀ blk, k ≠ .process blk) ∨
      (l = .visit e ∨ l = .body e) ∧ (s.engs e).ntf.length + (s.engs e).ntfTaken = 399 := by
  have hfit := ((exec_inv h).flow e).ntfFits
  have full : ∀ (os : List (Option (Held V))), os.length ≤ 1 → (i, Site.audio) ∈ ((os.drop (ntfRoom (s.engs e))).flatMap Option.toList).map (fun h => (h.id, Site.audio)) →
      (s.engs e).ntf.length + (s.engs e).ntfTaken = 399 := by
    intro os hos hm
    have : os.drop (ntfRoom (s.engs e)) ≠ [] := fun hc => by rw [hc] at hm; cases hm
    have hlt : ntfRoom (s.engs e) < os.length := by
      by_contra hge
      exact this (List.drop_eq_nil_of_le (by omega))
    unfold ntfRoom queueRoom at hlt
    unfold queueRoom at hfit
    omega
  obtain ⟨new, h1, h2⟩ := freed_step hs e
  rw [h1, List.mem_append] at hn
  replace hn := hn.resolve_left ho
  cases h2
  case visit k d n g h6 =>
    right
    refine ⟨Or.inl rfl, full _ ?_ hn⟩
    unfold Core.handle
    cases (s.engs e).core.active with
    | none => simp
    | some a => cases (s.engs e).core.fade <;> cases (s.engs e).core.pending <;> simp
  case body k d r h6 h2 =>
    by_cases hk : ∃ blk, k = .process blk
    · right
      obtain ⟨blk, rfl⟩ := hk
      have h3 : (s.engs e).core.processBody ops blk = some r := h2
      have hd : r.2.destroyed = [] ∧ r.2.pushed.length ≤ 1 := by
        unfold Core.processBody at h3
        cases hf : (s.engs e).core.fade with
        | none =>
          rw [hf, Option.map_eq_some_iff] at h3
          obtain ⟨q, _, rfl⟩ := h3
          exact ⟨rfl, by simp⟩
        | some f =>
          rw [hf, Option.map_eq_some_iff] at h3
          obtain ⟨q, _, rfl⟩ := h3
          refine ⟨rfl, ?_⟩
          show (q.1.endFade ops).2.length ≤ 1
          unfold Core.endFade
          by_cases hsm : q.1.sIn.isSmoothing = true
          · rw [if_pos hsm]; simp
          · rw [if_neg hsm]
            cases q.1.pending <;> simp
      rw [hd.1, List.map_nil, List.append_nil] at hn
      exact ⟨Or.inr rfl, full _ hd.2 hn⟩
    · left
      exact ⟨rfl, k, d, h6, fun blk hb => hk ⟨blk, hb⟩⟩
  all_goals simp at hn

/-- **C37.** `reset` and `prepare` during a fade do destroy the replaced convolver on the calling thread. -/
theorem C37_reset_frees {e : ℕ} {k : Call} {d : List (Held V)} {a f : Held V} (hpc : (s.engs e).pc = .served k d)
    (hk : ∀ blk, k ≠ .process blk) (ha : (s.engs e).core.active = some a) (hf : (s.engs e).core.fade = some f) :
    ∃ s', Step ops build s (.body e) s' ∧ (a.id, .audio) ∈ (s'.engs e).freed := by
  have hd : ∃ r, (s.engs e).core.callBody ops k = some r ∧ a ∈ r.2.destroyed := by
    have h : a ∈ ((s.engs e).core.resetBody ops).2.destroyed := by
      unfold Core.resetBody
      cases hp : (s.engs e).core.pending <;> simp [ha, hf]
    cases k with
    | process blk => exact absurd rfl (hk blk)
    | reset => exact ⟨_, rfl, h⟩
    | prepare p g => exact ⟨_, rfl, h⟩
    | clear => exact ⟨_, rfl, List.mem_append_left _ (List.mem_append_left _ h)⟩
  obtain ⟨r, h1, h2⟩ := hd
  refine ⟨_, .body hpc h1, ?_⟩
  rw [setEng_engs, if_pos rfl, finish_eq]
  exact List.mem_append_right _ (List.mem_map.mpr ⟨a, h2, rfl⟩)

/-! ## C40 -/

/-- **C40.** If no other engine uses the pool: `IsLoading` is true only while a call of `LoadIR` is past the point where it cancels the
previous load, or a load's job is neither finished nor superseded. -/
theorem C40_true_only_while_outstanding {e : ℕ} (h : Exec ops build ls s) (hl : ∀ e', e' ≠ e → .loadRemove e' ∉ ls) (ht : (s.engs e).loading = true) :
    (∃ i req, (s.engs e).loader = some (i, req, .removed)) ∨ Outstanding s e := by
  have key : Sound e s := by
    revert hl
    refine exec_induct (P := fun ls s => (∀ e', e' ≠ e → .loadRemove e' ∉ ls) → Sound e s) ?_ ?_ h
    · exact fun _ => ⟨fun _ h => (by cases h), fun h => (by cases h)⟩
    · intro ls s l s' he hp hs hl
      refine Sound.step (exec_inv he) (hp fun e' hne hm => hl e' hne (List.mem_append_left _ hm)) hs fun e' hne heq => hl e' hne ?_
      rw [heq]; simp
  rcases key.reason ht with ⟨i, r, p, h1, h2⟩ | h1
  · cases p with
    | locked => exact absurd rfl h2
    | removed => exact Or.inl ⟨i, r, h1⟩
    | flagged => exact Or.inr (Or.inl ⟨i, r, h1⟩)
  · exact Or.inr (Or.inr h1)

/-- **C40.** If the engine is not reset, prepared or cleared after its first `LoadIR`: `IsLoading` is true from the moment `LoadIR`
announces the load until the load is delivered (or refused) or superseded — by any engine. -/
theorem C40_true_while_outstanding {e : ℕ} {ls1 ls2 : List (Label R)} (h : Exec ops build (ls1 ++ ls2) s) (h1 : ∀ req, .loadLock e req ∉ ls1)
    (h2 : ∀ k, .call e k ∈ ls2 → ∃ blk, k = .process blk) (ho : Outstanding s e) : (s.engs e).loading = true := by
  have split : ∃ s1, Exec ops build ls1 s1 ∧ Run ops build s1 ls2 s := by
    have key : ∀ (xs : List (Label R)) (a b : Sys V R), Run ops build a (xs ++ ls2) b → ∃ c, Run ops build a xs c ∧ Run ops build c ls2 b := by
      intro xs
      induction xs with
      | nil => exact fun a b h => ⟨a, .nil a, h⟩
      | cons x xs ih =>
        intro a b h
        cases h with
        | cons h t =>
          obtain ⟨c, g1, g2⟩ := ih _ _ t
          exact ⟨c, .cons h g1, g2⟩
    exact key ls1 {} s h
  obtain ⟨s1, g1, g2⟩ := split
  have hO := (exec_known g1).origins
  have noload : ∀ (i : ℕ) (req : R), (loadsIn ls1)[i]? ≠ some (e, req) := by
    intro i req hi
    have := List.mem_of_getElem? hi
    unfold loadsIn at this
    rw [List.mem_filterMap] at this
    obtain ⟨l, hl, heq⟩ := this
    cases l with
    | loadLock e' req' =>
      simp only [Option.some.injEq, Prod.mk.injEq] at heq
      exact h1 req' (by rw [← heq.1]; exact hl)
    | _ => cases heq
  have hK : Kept e s1 := by
    refine ⟨fun j hj he _ => ?_, fun i r hl => ?_⟩
    · exact absurd (he ▸ hO.job j hj) (noload _ _)
    · exact absurd (hO.load e i r _ hl) (noload _ _)
  have hE : Kept e s := by
    have gen : ∀ (a b : Sys V R) (ls2 : List (Label R)), Run ops build a ls2 b → Inv ops a → More a → (∀ k, .call e k ∈ ls2 → ∃ blk, k = .process blk) → Kept e a → Kept e b := by
      intro a b ls2 hr
      induction hr with
      | nil a => exact fun _ _ _ h => h
      | @cons a a1 a2 l ls2 hs _ ih =>
        intro hI hM hl hK
        refine ih (hI.step hs) (hM.step hI hs) (fun k hk => hl k (List.mem_cons_of_mem _ hk)) (hK.step hI hM hs fun k hk => ?_)
        obtain ⟨blk, rfl⟩ := hl k (by rw [hk]; exact List.mem_cons_self ..)
        rfl
    exact gen s1 s ls2 g2 (exec_inv g1) (exec_more g1) h2 hK
  rcases ho with ⟨i, r, hl⟩ | ⟨j, hj, he, hst⟩
  · exact hE.load i r hl
  · exact hE.job j hj he hst

/-- **C40.** `reset`, `prepare` and `Clear` make `IsLoading` false although the load goes on. -/
theorem C40_reset_hides_load {e : ℕ} {k : Call} (hk : ∀ blk, k ≠ .process blk) (hs : Step ops build s (.call e k) s') :
    (s'.engs e).loading = false ∧ s'.jobs = s.jobs ∧ (s'.engs e).loader = (s.engs e).loader := by
  cases hs with
  | call ha h =>
    refine ⟨?_, rfl, ?_⟩
    · rw [setEng_engs, if_pos rfl]
      cases k with
      | process blk => exact absurd rfl (hk blk)
      | _ => rfl
    · rw [setEng_engs, if_pos rfl]

/-- **C40.** When another engine's `LoadIR` cancels the load of engine `e`, `IsLoading` stays true: until `e` loads again or is reset,
prepared or cleared, nothing will make it false. -/
theorem C40_stays_true_after_foreign_load {e e' : ℕ} (h : Exec ops build ls s) (hs : Step ops build s (.loadRemove e') s') (hne : e' ≠ e)
    (ht : (s.engs e).loading = true) (hl : (s.engs e).loader = none) (hp : ∀ j ∈ s.jobs, j.eng = e → j.pc ≠ .pushed) {s'' : Sys V R}
    (hr : Run ops build s' ls' s'') (h1 : ∀ req, .loadLock e req ∉ ls') (h2 : ∀ k, .call e k ∈ ls' → ∃ blk, k = .process blk) :
    (s''.engs e).loading = true := by
  have hS : Stuck e s' := by
    cases hs with
    | @loadRemove _ i req hl' =>
      have e1 : (({ s.setEng e' { s.engs e' with loader := some (i, req, .removed) } with jobs := removeAllJobs s.jobs } : Sys V R).engs e) = s.engs e := by
        show (s.setEng e' _).engs e = _
        rw [setEng_engs, if_neg (Ne.symm hne)]
      refine ⟨by rw [e1]; exact ht, by rw [e1]; exact hl, fun j hj he => ?_⟩
      obtain ⟨k, hk, _, rfl⟩ := mem_removeAll.mp hj
      exact ⟨rfl, hp k hk he⟩
  have gen : ∀ (a b : Sys V R) (ls2 : List (Label R)), Run ops build a ls2 b → (∀ req, .loadLock e req ∉ ls2) → (∀ k, .call e k ∈ ls2 → ∃ blk, k = .process blk) →
      Stuck e a → Stuck e b := by
    intro a b ls2 hr
    induction hr with
    | nil a => exact fun _ _ h => h
    | @cons a a1 a2 l ls2 hs _ ih =>
      intro hl1 hl2 hK
      refine ih (fun req hm => hl1 req (List.mem_cons_of_mem _ hm)) (fun k hk => hl2 k (List.mem_cons_of_mem _ hk)) (hK.step hs (fun k hk => ?_) fun req hq => ?_)
      · obtain ⟨blk, rfl⟩ := hl2 k (by rw [hk]; exact List.mem_cons_self ..)
        rfl
      · exact hl1 req (by rw [hq]; exact List.mem_cons_self ..)
  exact (gen s' s'' ls' hr h1 h2 hS).loading

/-! ## C41 -/

/-- **C41.** A `LoadIR` call that returns before the first `prepare` has no effect: nothing is ever built or delivered for it. -/
theorem C41_load_before_prepare_ignored {e : ℕ} (h : Exec ops build ls s) (hf : formatsIn e ls = []) (hl : (s.engs e).loader = none)
    {i : ℕ} {req : R} (hi : (loadsIn ls)[i]? = some (e, req)) (hr : Run ops build s ls' s') :
    i ∉ (s'.engs e).delivered.map Held.id ∧ i ∉ (s'.engs e).made := by
  have hO := (exec_known h).origins
  have hlt : i < s.next := by rw [hO.next]; exact (List.getElem?_eq_some_iff.mp hi).1
  have nojob : ∀ j ∈ s.jobs, j.eng ≠ e := fun j hj he => by
    have := hO.format j hj
    rw [he, hf] at this; cases this
  have hd : (s.engs e).delivered = [] := by
    refine List.eq_nil_iff_forall_not_mem.mpr fun d hd => ?_
    obtain ⟨_, p, _, hp, _⟩ := hO.got e d hd
    rw [hf] at hp; cases hp
  have hm : i ∉ (s.engs e).made := fun hk => made_format h e (List.ne_nil_of_mem hk) hf
  have hA : After e s.next s := ⟨fun j hj he => absurd he (nojob j hj), fun i r p hl' => (by rw [hl] at hl'; cases hl'), le_rfl⟩
  obtain ⟨_, new, h1, h2⟩ := hA.run hr
  refine ⟨fun hc => ?_, fun hc => ?_⟩
  · rw [h1, hd, List.nil_append, List.mem_map] at hc
    obtain ⟨d, hd', rfl⟩ := hc
    have := h2 d hd'
    omega
  · exact Lost.run ⟨hlt, fun j hj he => absurd he (nojob j hj), fun k r p h => by rw [hl] at h; cases h⟩ hm hr hc

end Zones.Props
