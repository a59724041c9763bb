import Verif.Proofs.EngineMemory
import Verif.Props.EngineExamples
import Verif.Props.Memory

/-!
# C99: however long it runs and however often `LoadIR` is called, the memory of the whole system stays bounded
-/

open Zones.Spec Zones.Model Zones.Proofs

namespace Zones.Props

variable {V R : Type} {ops : ConvOps V} {build : R → ProcSpec → V} {ls ls' : List (Label R)} {s s' : Sys V R}

/-- the convolvers of the jobs for an engine -/
theorem carried_le (js : List (Job V R)) (e : ℕ) :
    (js.filterMap fun j => if j.eng = e then Job.object j else none).length ≤ ((js.filter fun j => !j.waiting).filter fun j => j.eng = e).length := by
  rw [List.filter_filter, ← List.countP_eq_length_filter, List.length_filterMap_eq_countP]
  refine List.countP_mono_left fun j _ hj => ?_
  obtain ⟨i, e', req, sp, st, pc⟩ := j
  by_cases he : e' = e
  · cases pc <;> simp_all [Job.waiting, Job.object]
  · simp [he] at hj

/-- they are those of `inJobs` -/
theorem carried_ids (s : Sys V R) (e : ℕ) :
    (s.jobs.filterMap fun j => if j.eng = e then Job.object j else none).length = (inJobs s e).length := by
  unfold inJobs
  rw [List.length_filterMap_eq_countP, List.length_filterMap_eq_countP]
  congr 1
  funext j
  obtain ⟨i, e', req, sp, st, pc⟩ := j
  by_cases he : e' = e
  · cases pc <;> simp [Job.object, he]
  · simp [he]

theorem option_ntf_le (os : List (Option (Held V))) : (os.flatMap Option.toList).length ≤ os.length := by
  induction os with
  | nil => simp
  | cons o os ih =>
    rw [List.flatMap_cons, List.length_append, List.length_cons]
    have : o.toList.length ≤ 1 := by cases o <;> simp
    omega

theorem toList_le {α : Type} (o : Option α) : o.toList.length ≤ 1 := by cases o <;> simp

/-- **C99.** At any moment of any execution: the convolvers constructed for an engine and not destroyed yet are those in its queues and slots and those with jobs, and they are no more
than 801 (399 in each of its two queues, three in its slots) plus one for each of its jobs that a worker is running. -/
theorem C99_convolvers_of_an_engine (h : Exec ops build ls s) (e : ℕ) :
    (s.engs e).made.length = (s.engs e).freed.length + (existing s e).length ∧
      (existing s e).length ≤ 801 + ((running s).filter fun j => j.eng = e).length := by
  have hp := (C36_exactly_one_place h e).2.length_eq
  have hc := ((exec_inv h).flow e).cmdFits
  have hn := ((exec_inv h).flow e).ntfFits
  unfold queueRoom at hc hn
  have h1 := carried_le s.jobs e
  have h2 := carried_ids s e
  have h3 := option_ntf_le (s.engs e).ntf
  have h4 := toList_le (s.engs e).core.active
  have h5 := toList_le (s.engs e).core.fade
  have h6 := toList_le (s.engs e).core.pending
  have hx : (existing s e).length = (inJobs s e).length + (s.engs e).holding.length := by
    unfold existing
    rw [List.length_append, List.length_map, h2]
  have hh : (s.engs e).holding.length ≤ 801 := by
    unfold Eng.holding
    simp only [List.length_append]
    omega
  refine ⟨?_, ?_⟩
  · rw [hp, List.length_append, List.length_append, List.length_map, List.length_map, hx]; omega
  · rw [hx]
    unfold running
    omega

/-- **C99.** At any moment no engine has more than one job waiting for a worker, and no more than one job that has not been told to stop. -/
theorem C99_one_job_of_an_engine (h : Exec ops build ls s) (e : ℕ) :
    ((queued s).filter fun j => j.eng = e).length ≤ 1 ∧ (s.jobs.filter fun j => j.eng = e ∧ j.stop = false).length ≤ 1 := by
  have hw : ∀ j ∈ s.jobs, j.waiting = true → j.stop = false :=
    run_induct (P := fun s => ∀ j ∈ s.jobs, j.waiting = true → j.stop = false) (fun _ _ _ hi hs => waiting_goes_on hs hi) h (fun j hj => by cases hj)
  have hsingle := (exec_inv h).order.single
  have hnd := List.Nodup.of_map Job.id (exec_inv h).ids.nodup
  have key : ∀ (l : List (Job V R)), l.Nodup → (∀ a ∈ l, ∀ b ∈ l, a = b) → l.length ≤ 1 := by
    intro l hl hab
    match l, hl, hab with
    | [], _, _ => simp
    | [_], _, _ => simp
    | a :: b :: t, hl, hab =>
      exfalso
      have := hab a (by simp) b (by simp)
      subst this
      simp at hl
  have hid := @same_job V R s (exec_inv h).ids.nodup
  constructor
  · refine key _ ((hnd.filter _).filter _) fun a ha b hb => ?_
    simp only [queued, List.mem_filter, decide_eq_true_eq] at ha hb
    exact hid ha.1.1 hb.1.1 (hsingle a ha.1.1 b hb.1.1 (hw a ha.1.1 ha.1.2) (hw b hb.1.1 hb.1.2) (ha.2.trans hb.2.symm))
  · refine key _ (hnd.filter _) fun a ha b hb => ?_
    simp only [List.mem_filter, decide_eq_true_eq] at ha hb
    exact hid ha.1 hb.1 (hsingle a ha.1 b hb.1 ha.2.2 hb.2.2 (ha.2.1.trans hb.2.1.symm))

theorem unborn_empty (h : Exec ops build ls s) {e : ℕ} (hu : (s.engs e).status = .unborn) : s.engs e = {} ∧ ∀ j ∈ s.jobs, j.eng ≠ e :=
  run_induct (P := fun s => ∀ e, (s.engs e).status = .unborn → s.engs e = {} ∧ ∀ j ∈ s.jobs, j.eng ≠ e) (fun _ _ _ hi hs => unborn_step hs hi) h
    (fun e _ => ⟨rfl, fun j hj => by cases hj⟩) e hu

/-- counting by engine -/
theorem sum_filter_eng (js : List (Job V R)) (es : Finset ℕ) : ∑ e ∈ es, (js.filter fun j => j.eng = e).length ≤ js.length := by
  induction js with
  | nil => simp
  | cons j js ih =>
    have : ∀ e, ((j :: js).filter fun j => j.eng = e).length = (if j.eng = e then 1 else 0) + (js.filter fun j => j.eng = e).length := by
      intro e
      by_cases he : j.eng = e <;> simp [List.filter_cons, he]
      omega
    simp only [this, Finset.sum_add_distrib, List.length_cons]
    have h1 : ∑ e ∈ es, (if j.eng = e then 1 else 0) ≤ 1 := by
      rw [Finset.sum_ite_eq]
      split_ifs <;> omega
    omega

theorem sum_filter_eng_all (js : List (Job V R)) (es : Finset ℕ) (hes : ∀ j ∈ js, j.eng ∈ es) : js.length = ∑ e ∈ es, (js.filter fun j => j.eng = e).length := by
  induction js with
  | nil => simp
  | cons j js ih =>
    have : ∀ e, ((j :: js).filter fun j => j.eng = e).length = (if j.eng = e then 1 else 0) + (js.filter fun j => j.eng = e).length := by
      intro e
      by_cases he : j.eng = e <;> simp [List.filter_cons, he]
      omega
    simp only [this, Finset.sum_add_distrib, List.length_cons]
    have h1 : ∑ e ∈ es, (if j.eng = e then 1 else 0) = 1 := by
      rw [Finset.sum_ite_eq, if_pos (hes j (by simp))]
    rw [h1, ← ih fun j hj => hes j (by simp [hj])]
    omega

/-- **C99.** The whole system, with the engines `es` and a thread pool whose workers never run more than `W` jobs at once: however many calls there have been, there are never more than
`801` convolvers for each engine and one for each worker, and never more jobs (each with a copy of an impulse response) than one for each engine and one for each worker. -/
theorem C99_system_is_bounded (h : Exec ops build ls s) (es : Finset ℕ) (hes : ∀ e ∉ es, (s.engs e).status = .unborn) {W : ℕ} (hW : (running s).length ≤ W) :
    ∑ e ∈ es, (existing s e).length ≤ 801 * es.card + W ∧ (∀ e ∉ es, existing s e = []) ∧ s.jobs.length ≤ es.card + W := by
  have hj : ∀ j ∈ s.jobs, j.eng ∈ es := fun j hj => by
    by_contra hc
    exact (unborn_empty h (hes _ hc)).2 j hj rfl
  refine ⟨?_, fun e he => ?_, ?_⟩
  · have h1 : ∑ e ∈ es, (existing s e).length ≤ ∑ e ∈ es, (801 + ((running s).filter fun j => j.eng = e).length) :=
      Finset.sum_le_sum fun e _ => (C99_convolvers_of_an_engine h e).2
    rw [Finset.sum_add_distrib, Finset.sum_const, smul_eq_mul] at h1
    have h2 := sum_filter_eng (running s) es
    omega
  · obtain ⟨h1, h2⟩ := unborn_empty h (hes e he)
    unfold existing
    rw [h1, List.append_eq_nil_iff]
    refine ⟨List.filterMap_eq_nil_iff.mpr fun j hj => ?_, rfl⟩
    rw [if_neg (h2 j hj)]
  · have h1 : s.jobs.length = (queued s).length + (running s).length := by
      unfold queued running
      rw [← List.length_eq_length_filter_add]
    have h2 := sum_filter_eng_all (queued s) es fun j hm => hj j (List.mem_of_mem_filter hm)
    have h3 : ∑ e ∈ es, ((queued s).filter fun j => j.eng = e).length ≤ ∑ _e ∈ es, 1 :=
      Finset.sum_le_sum fun e _ => (C99_one_job_of_an_engine h e).1
    rw [Finset.sum_const, smul_eq_mul, mul_one] at h3
    omega

theorem goodLoads_prefix {P : V → Prop} {e : ℕ} {l : Label R} (h : GoodLoads build P e (ls ++ [l])) : GoodLoads build P e ls := by
  intro i req p h1 h2
  refine h i req p ?_ (by rw [formatsIn_append]; exact List.mem_append_left _ h2)
  rw [loadsIn_append, List.getElem?_append_left (List.getElem?_eq_some_iff.mp h1).1]
  exact h1

/-- A property of convolvers that `Process` and `Reset` preserve, if it holds of what is constructed for an engine, holds of all convolvers that exist for it. -/
theorem existing_each {P : V → Prop} (hp : ∀ v b r, P v → ops.process v b = some r → P r.1) (hr : ∀ v, P v → P (ops.reset v)) (h : Exec ops build ls s) {e : ℕ}
    (hg : GoodLoads build P e ls) : ∀ v ∈ existing s e, P v := by
  have hjob : ∀ {ls : List (Label R)} {s : Sys V R}, Exec ops build ls s → GoodLoads build P e ls → ∀ j ∈ s.jobs, j.eng = e → ∀ v, j.pc = .built v ∨ j.pc = .locked v → P v := by
    intro ls s h hg j hj he v hv
    have hO := (exec_known h).origins
    have e1 : v = build j.req j.spec := by
      rcases hv with hv | hv
      · exact hO.built j hj v hv
      · exact hO.locked j hj v hv
    rw [e1]
    exact hg j.id j.req j.spec (by rw [hO.job j hj, he]) (by rw [← he]; exact hO.format j hj)
  have hhold : GoodLoads build P e ls → Each P (s.engs e).holding := by
    refine exec_induct (P := fun ls s => GoodLoads build P e ls → Each P (s.engs e).holding) (fun _ x hx => by cases hx) (fun ls s l s' hx ih hs hg' => ?_) h
    have hg1 := goodLoads_prefix hg'
    exact each_step hp hr hs (fun j hj he v hv => hjob hx hg1 j hj he v (Or.inr hv)) (ih hg1)
  intro v hv
  unfold existing at hv
  rcases List.mem_append.mp hv with hv | hv
  · obtain ⟨j, hj, hj2⟩ := List.mem_filterMap.mp hv
    by_cases he : j.eng = e
    · rw [if_pos he] at hj2
      refine hjob h hg j hj he v ?_
      unfold Job.object at hj2
      cases hpc : j.pc with
      | built w => rw [hpc] at hj2; cases hj2; exact Or.inl rfl
      | locked w => rw [hpc] at hj2; cases hj2; exact Or.inr rfl
      | queued => rw [hpc] at hj2; cases hj2
      | building => rw [hpc] at hj2; cases hj2
      | pushed => rw [hpc] at hj2; cases hj2
    · rw [if_neg he] at hj2; cases hj2
  · obtain ⟨x, hx, rfl⟩ := List.mem_map.mp hv
    exact hhold hg x hx

theorem block_le_2048 {maxB B : ℕ} {io : Option ℤ} (hr : requestedBlockSize maxB io ≤ 2^30) (h : internalBlockSize 64 maxB io = some B) : B ≤ 2048 := by
  obtain ⟨b, _, hb2, e1, _, _⟩ := internalBlockSize_eq (fuel := 64) (by omega) hr
  rw [h] at e1
  obtain rfl := Option.some.inj e1
  exact Nat.pow_le_pow_right (by norm_num) hb2

theorem fresh_memory {F : RealFFT} (hF : Lawful F) {ir : Buf} {maxB N : ℕ} {spec : ConvolverSpec} (h : Usable ir maxB spec N) {c : Convolver} (hc : Fresh F ir maxB spec N c) :
    c.buffers.sum ≤ ir.ch * (33 * ir.n + 38912) := by
  obtain ⟨g, r0, c0, e0, hc⟩ := hc
  have hr := requested_le h.blockSize
  obtain ⟨b, _, hb2, e1, _, _⟩ := internalBlockSize_eq (fuel := 64) (by omega) hr
  obtain ⟨c1, e2, e3⟩ := C89_linear_memory hF h g r0 e1
  rw [e0] at e2
  obtain rfl := Option.some.inj e2
  have hb := block_le_2048 hr e1
  have h0 : c0.buffers.sum ≤ ir.ch * (33 * ir.n + 38912) := e3.trans (Nat.mul_le_mul_left _ (by omega))
  rcases hc with rfl | ⟨os, s, _, e4, rfl⟩
  · exact h0
  · rw [reset_mem, history_mem os e4]; exact h0

/-- **C99.** In `float`s. If the impulse responses of all loads have at most `C` channels and `L` samples, all buffers of all convolvers that exist at any moment have together at most
`C (33 L + 38912)` `float`s for each of the `801` convolvers of each engine and each worker: a number that no length of the execution and no number of loads changes. -/
theorem C99_memory_is_bounded {F : RealFFT} (hF : Lawful F) {N : ℕ} {build : Buf × ConvolverSpec → ProcSpec → Convolver} (hB : Constructs F N build)
    {ls : List (Label (Buf × ConvolverSpec))} {s : Sys Convolver (Buf × ConvolverSpec)} (h : Exec (convolverOps F) build ls s) (es : Finset ℕ)
    (hes : ∀ e ∉ es, (s.engs e).status = .unborn) {W : ℕ} (hW : (running s).length ≤ W) (hU : ∀ e, UsableLoads N e ls)
    {C L : ℕ} (hCL : ∀ e ir cs, (e, (ir, cs)) ∈ loadsIn ls → ir.ch ≤ C ∧ ir.n ≤ L) :
    ∑ e ∈ es, ((existing s e).map fun c => c.buffers.sum).sum ≤ (801 * es.card + W) * (C * (33 * L + 38912)) := by
  set M := C * (33 * L + 38912) with hM
  have h1 : ∀ e, ((existing s e).map fun c => c.buffers.sum).sum ≤ (existing s e).length * M := by
    intro e
    have hall : ∀ v ∈ existing s e, v.buffers.sum ≤ M := by
      refine existing_each (P := fun v => v.buffers.sum ≤ M) (fun v b r hv hr => ?_) (fun v hv => ?_) h (e := e) ?_
      · rw [process_mem (F := F) hr]; exact hv
      · show v.reset.buffers.sum ≤ M
        rw [reset_mem]; exact hv
      · rintro i ⟨ir, cs⟩ p hi hp
        have hu := hU e i ir cs hi p hp
        obtain ⟨k1, k2⟩ := hCL e ir cs (List.mem_of_getElem? hi)
        exact (fresh_memory hF hu (hB ir cs p hu)).trans (Nat.mul_le_mul k1 (by omega))
    have := List.sum_le_card_nsmul ((existing s e).map fun c => c.buffers.sum) M (by
      intro x hx
      obtain ⟨v, hv, rfl⟩ := List.mem_map.mp hx
      exact hall v hv)
    rwa [List.length_map, smul_eq_mul] at this
  calc ∑ e ∈ es, ((existing s e).map fun c => c.buffers.sum).sum ≤ ∑ e ∈ es, (existing s e).length * M := Finset.sum_le_sum fun e _ => h1 e
    _ = (∑ e ∈ es, (existing s e).length) * M := by rw [Finset.sum_mul]
    _ ≤ _ := Nat.mul_le_mul_right _ (C99_system_is_bounded h es hes hW).1

/-! ## A case -/

/-- A second load while a worker has constructed the convolver of the first one: one convolver exists, one job runs and one waits, which is as many jobs as one engine and one worker can have. -/
theorem example_two_jobs (p : ProcSpec) (r1 r2 : R) : ∃ s, Exec ops build ([.create 0] ++ emptyCall 0 (.prepare p fun _ _ => 0) ++ loadCall 0 r1 ++ [.pick, .build 0] ++ loadCall 0 r2) s ∧
    existing s 0 = [build r1 p] ∧ (running s).length = 1 ∧ (queued s).length = 1 ∧ ∀ e ∉ ({0} : Finset ℕ), (s.engs e).status = .unborn := by
  refine ⟨_, .cons (.create rfl) (.cons (.call rfl rfl) (.cons (.service rfl) (.cons (.serviced rfl) (.cons (.body rfl rfl)
    (.cons (.loadLock rfl ⟨rfl, rfl⟩) (.cons (.loadRemove rfl) (.cons (.loadFlag rfl (by exact Option.some_ne_none p)) (.cons (.loadAdd rfl rfl)
    (.cons (.pick rfl) (.cons (.build (j := ⟨0, 0, r1, p, false, .building⟩) ?_ rfl)
    (.cons (.loadLock rfl ⟨rfl, rfl⟩) (.cons (.loadRemove rfl) (.cons (.loadFlag rfl (by exact Option.some_ne_none p)) (.cons (.loadAdd rfl rfl)
    (.nil _))))))))))))))), ?_, ?_, ?_, ?_⟩
  · exact List.Mem.head _
  · rfl
  · rfl
  · rfl
  · intro e he
    rw [Finset.mem_singleton] at he
    simp [setEng_engs, he]

example (p : ProcSpec) (r1 r2 : R) : ∃ ls s, Exec ops build ls s ∧ ∑ e ∈ {0}, (existing s e).length ≤ 801 * 1 + 1 ∧ s.jobs.length = 1 + 1 ∧ (existing s 0).length = 1 ∧
    (s.engs 0).made.length = (s.engs 0).freed.length + 1 := by
  obtain ⟨s, h, h1, h2, h3, h4⟩ := example_two_jobs (ops := ops) (build := build) p r1 r2
  obtain ⟨k1, _, k3⟩ := C99_system_is_bounded h {0} h4 (W := 1) (by omega)
  have k4 := (C99_convolvers_of_an_engine h 0).1
  have h5 : s.jobs.length = (queued s).length + (running s).length := by
    unfold queued running
    rw [← List.length_eq_length_filter_add]
  rw [h1] at k4
  exact ⟨_, s, h, k1, by omega, by rw [h1]; rfl, k4⟩

/-- Real convolvers: three channels of 2048 samples, twice. -/
example (g : Garbage) : ∃ (build : Buf × ConvolverSpec → ProcSpec → Convolver) (ls : List (Label (Buf × ConvolverSpec))) (s : Sys Convolver (Buf × ConvolverSpec)),
    Exec (convolverOps referenceFFT) build ls s ∧ (existing s 0).length = 1 ∧
    ((existing s 0).map fun c => c.buffers.sum).sum ≤ 802 * (3 * (33 * 2048 + 38912)) := by
  obtain ⟨c, _, _⟩ := C89_fixed_memory referenceFFT_lawful tabledUsable g (fun _ _ => 7) (B := 64) (by decide) tabledScheme
  obtain ⟨build, hB⟩ := constructs_exists referenceFFT_lawful 2 c
  obtain ⟨s, h, h1, h2, h3, h4⟩ := example_two_jobs (ops := convolverOps referenceFFT) (build := build) ⟨48000, 64, 2⟩ (tabledIR, tabledSpec) (tabledIR, tabledSpec)
  have hl : ∀ e ir cs, (e, (ir, cs)) ∈ loadsIn ([.create 0] ++ emptyCall 0 (.prepare ⟨48000, 64, 2⟩ fun _ _ => 0) ++ loadCall 0 (tabledIR, tabledSpec) ++ [.pick, .build 0] ++
      loadCall 0 (tabledIR, tabledSpec)) → ir = tabledIR ∧ cs = tabledSpec := by
    intro e ir cs hm
    have hm : (e, (ir, cs)) ∈ [(0, (tabledIR, tabledSpec)), (0, (tabledIR, tabledSpec))] := hm
    simp only [List.mem_cons, Prod.mk.injEq, List.not_mem_nil, or_false, or_self] at hm
    exact hm.2
  have := C99_memory_is_bounded referenceFFT_lawful hB h {0} h4 (W := 1) (by omega) (C := 3) (L := 2048) ?_ ?_
  · rw [Finset.sum_singleton, Finset.card_singleton] at this
    exact ⟨build, _, s, h, by rw [h1]; rfl, this⟩
  · intro e i ir cs hi p hp
    obtain ⟨rfl, rfl⟩ := hl e ir cs (List.mem_of_getElem? hi)
    have hp : p ∈ [(⟨48000, 64, 2⟩ : ProcSpec)] := by
      by_cases he : e = 0
      · subst he; exact hp
      · exfalso
        have : formatsIn e ([.create 0] ++ emptyCall 0 (.prepare ⟨48000, 64, 2⟩ fun _ _ => 0) ++ loadCall 0 (tabledIR, tabledSpec) ++ [.pick, .build 0] ++
          loadCall 0 (tabledIR, tabledSpec)) = [] := by
          simp [formatsIn, callsIn, emptyCall, loadCall, Ne.symm he]
        rw [this] at hp; cases hp
    rw [List.mem_singleton] at hp
    subst hp
    exact tabledUsable
  · intro e ir cs hm
    obtain ⟨rfl, rfl⟩ := hl e ir cs hm
    exact ⟨le_refl 3, le_refl 2048⟩

end Zones.Props
