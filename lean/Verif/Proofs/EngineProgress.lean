import Verif.Proofs.EngineLoading

/-! What the threads of the system can always do. -/

open Zones.Model Zones.Spec

namespace Zones.Proofs

variable {V R : Type}

set_option linter.unusedSimpArgs false
set_option linter.unusedVariables false

/-! ## Workers -/

/-- `s'` is reached from `s` by worker steps. -/
def ByWorkers (ops : ConvOps V) (build : R → ProcSpec → V) (s s' : Sys V R) : Prop := ∃ ls, (∀ l ∈ ls, workerSteps l) ∧ Run ops build s ls s'

theorem ByWorkers.refl {ops : ConvOps V} {build : R → ProcSpec → V} (s : Sys V R) : ByWorkers ops build s s := ⟨[], fun l h => (by cases h), .nil _⟩

theorem ByWorkers.trans {ops : ConvOps V} {build : R → ProcSpec → V} {s s' s'' : Sys V R} (h : ByWorkers ops build s s') (h' : ByWorkers ops build s' s'') :
    ByWorkers ops build s s'' := by
  obtain ⟨l1, a1, b1⟩ := h
  obtain ⟨l2, a2, b2⟩ := h'
  refine ⟨l1 ++ l2, fun l hl => ?_, Run.append b1 b2⟩
  rcases List.mem_append.mp hl with hl | hl
  · exact a1 l hl
  · exact a2 l hl

theorem ByWorkers.single {ops : ConvOps V} {build : R → ProcSpec → V} {s s' : Sys V R} {l : Label R} (h : Step ops build s l s') (hl : workerSteps l) :
    ByWorkers ops build s s' :=
  ⟨[l], fun l' h' => by rw [List.mem_singleton] at h'; subst h'; exact hl, Run.single h⟩

theorem ByWorkers.inv {ops : ConvOps V} {build : R → ProcSpec → V} {s s' : Sys V R} (h : ByWorkers ops build s s') (hI : Inv ops s ∧ More s) : Inv ops s' ∧ More s' := by
  obtain ⟨ls, _, h⟩ := h
  exact run_induct (P := fun s => Inv ops s ∧ More s) (fun s l s' hi hs => ⟨hi.1.step hs, hi.2.step hi.1 hs⟩) h hI

theorem count_setJob {s : Sys V R} {j : Job V R} (hn : (s.jobs.map Job.id).Nodup) (hj : j ∈ s.jobs) (hw : j.waiting = true) {j' : Job V R} (hid : j'.id = j.id)
    (hw' : j'.waiting = false) : (s.setJob j').jobs.countP Job.waiting < s.jobs.countP Job.waiting := by
  unfold Sys.setJob
  simp only
  generalize s.jobs = js at hn hj ⊢
  rw [hid]
  induction js with
  | nil => cases hj
  | cons a as ih =>
    simp only [List.map_cons, List.nodup_cons] at hn ⊢
    by_cases ha : a.id = j.id
    · have hnot : ∀ b ∈ as, b.id ≠ j.id := fun b hb he => hn.1 (List.mem_map.mpr ⟨b, hb, by rw [he, ha]⟩)
      have haj : a = j := by
        rcases List.mem_cons.mp hj with h | h
        · exact h.symm
        · exact absurd rfl (hnot j h)
      have e : (as.map fun i => if i.id = j.id then j' else i) = as := by
        conv_rhs => rw [← List.map_id as]
        exact List.map_congr_left fun b hb => by rw [if_neg (hnot b hb)]; rfl
      rw [if_pos ha, e, haj]
      simp [List.countP_cons, hw, hw']
    · have hj' : j ∈ as := by
        rcases List.mem_cons.mp hj with h | h
        · exact absurd (by rw [h]) ha
        · exact h
      have := ih hn.2 hj'
      rw [if_neg ha, List.countP_cons, List.countP_cons]
      omega

/-- A waiting job will be picked after those before it. -/
theorem picked {ops : ConvOps V} {build : R → ProcSpec → V} : ∀ (n : ℕ) (s : Sys V R), s.jobs.countP Job.waiting ≤ n → (s.jobs.map Job.id).Nodup →
    ∀ j ∈ s.jobs, j.pc = .queued →
      ∃ s', ByWorkers ops build s s' ∧ s'.engs = s.engs ∧ s'.async = s.async ∧ { j with pc := .building } ∈ s'.jobs
  | 0, s, hn, hd, j, hj, hq => by
    exfalso
    have : 0 < s.jobs.countP Job.waiting := List.countP_pos_iff.mpr ⟨j, hj, waiting_iff.mpr hq⟩
    omega
  | n + 1, s, hn, hd, j, hj, hq => by
    cases hf : s.jobs.find? Job.waiting with
    | none =>
      exfalso
      have := List.find?_eq_none.mp hf j hj
      exact this (waiting_iff.mpr hq)
    | some i =>
      obtain ⟨hi, hiq⟩ := mem_of_find hf
      have hstep : Step ops build s .pick (s.setJob { i with pc := .building }) := .pick hf
      by_cases hc : j.id = i.id
      · have := same_job hd hj hi hc
        subst this
        exact ⟨_, .single hstep trivial, rfl, rfl, setJob_mem hj rfl⟩
      · have hlt := count_setJob hd hi (waiting_iff.mpr hiq) (j' := { i with pc := .building }) rfl rfl
        obtain ⟨s', h1, h2, h3, h4⟩ := picked n (s.setJob { i with pc := .building }) (by omega) (setJob_nodup hd) j (setJob_other hj hc) hq
        exact ⟨s', (ByWorkers.single hstep trivial).trans h1, h2, h3, h4⟩

/-- The engines are as before, except for the record of convolvers constructed. -/
def SameButMade (s s' : Sys V R) : Prop := ∀ e, ∃ m, s'.engs e = { s.engs e with made := m }

theorem SameButMade.refl (s : Sys V R) : SameButMade s s := fun e => ⟨_, rfl⟩

/-- A job gets to the point where it needs the mutex. -/
theorem gets_built {ops : ConvOps V} {build : R → ProcSpec → V} {s : Sys V R} (hn : (s.jobs.map Job.id).Nodup) {j : Job V R} (hj : j ∈ s.jobs)
    (hq : j.pc = .queued ∨ j.pc = .building ∨ ∃ v, j.pc = .built v) :
    ∃ s' v, ByWorkers ops build s s' ∧ SameButMade s s' ∧ s'.async = s.async ∧ { j with pc := .built v } ∈ s'.jobs := by
  have from_building : ∀ {s : Sys V R} {j : Job V R}, j ∈ s.jobs → j.pc = .building →
      ∃ s' v, ByWorkers ops build s s' ∧ SameButMade s s' ∧ s'.async = s.async ∧ { j with pc := .built v } ∈ s'.jobs := by
    intro s j hj hb
    refine ⟨_, build j.req j.spec, .single (.build hj hb) trivial, fun e => ?_, rfl, ?_⟩
    · rw [setEng_engs]
      by_cases hc : e = j.eng
      · rw [if_pos hc]; subst hc; exact ⟨_, rfl⟩
      · rw [if_neg hc]; exact ⟨_, rfl⟩
    · exact setJob_mem (s := s) hj rfl
  rcases hq with hq | hq | ⟨v, hq⟩
  · obtain ⟨s1, h1, h2, h3, h4⟩ := picked _ s le_rfl hn j hj hq
    obtain ⟨s2, v, g1, g2, g3, g4⟩ := from_building h4 rfl
    refine ⟨s2, v, h1.trans g1, fun e => ?_, g3.trans h3, g4⟩
    obtain ⟨m, hm⟩ := g2 e
    exact ⟨m, by rw [hm, h2]⟩
  · exact from_building hj hq
  · refine ⟨s, v, .refl s, .refl s, rfl, ?_⟩
    rw [← hq]; exact hj

/-! ## After destruction -/

/-- A job of a destroyed engine can get to the point where it uses the engine. -/
theorem job_touches {ops : ConvOps V} {build : R → ProcSpec → V} {s : Sys V R} (hn : (s.jobs.map Job.id).Nodup) {j : Job V R} (hj : j ∈ s.jobs)
    (hd : (s.engs j.eng).status = .dead) : ∃ s', ByWorkers ops build s s' ∧ (s'.engs j.eng).touched = true := by
  have early : (j.pc = .queued ∨ j.pc = .building ∨ ∃ v, j.pc = .built v) → ∃ s', ByWorkers ops build s s' ∧ (s'.engs j.eng).touched = true := by
    intro hq
    obtain ⟨s1, v, h1, h2, h3, h4⟩ := gets_built (ops := ops) (build := build) hn hj hq
    have hd1 : (s1.engs j.eng).status = .dead := by obtain ⟨m, hm⟩ := h2 j.eng; rw [hm]; exact hd
    refine ⟨_, h1.trans (.single (.jobLockDead h4 rfl hd1) trivial), ?_⟩
    rw [setEng_engs, if_pos rfl]
  cases hpc : j.pc with
  | queued => exact early (Or.inl hpc)
  | building => exact early (Or.inr (Or.inl hpc))
  | built v => exact early (Or.inr (Or.inr ⟨v, hpc⟩))
  | locked v =>
    refine ⟨_, .single (.jobCheckDead hj hpc hd) trivial, ?_⟩
    rw [setEng_engs, if_pos rfl]
  | pushed =>
    refine ⟨_, .single (.jobDoneDead hj hpc hd) trivial, ?_⟩
    rw [setEng_engs, if_pos rfl]

/-- The message thread gets to a callback of a destroyed engine. -/
theorem async_touches {ops : ConvOps V} {build : R → ProcSpec → V} {e : ℕ} : ∀ (as : List ℕ) (s : Sys V R), s.async = as → e ∈ as →
    (∀ e' ∈ as, (s.engs e').status ≠ .unborn) → (s.engs e).status = .dead →
    ∃ ls s', (∀ l ∈ ls, l = .async) ∧ Run ops build s ls s' ∧ (s'.engs e).touched = true
  | [], s, _, h, _, _ => by cases h
  | e0 :: as, s, ha, h, hb, hd => by
    by_cases hc : e0 = e
    · subst hc
      refine ⟨[.async], _, fun l hl => by simpa using hl, Run.single (.asyncDead ha hd), ?_⟩
      show ((s.setEng e0 _).engs e0).touched = true
      rw [setEng_engs, if_pos rfl]
    · have hmem : e ∈ as := by
        rcases List.mem_cons.mp h with h | h
        · exact absurd h.symm hc
        · exact h
      have next : ∀ x : Eng V R, x.status = (s.engs e0).status → Step ops build s .async { s.setEng e0 x with async := as } →
          ∃ ls s', (∀ l ∈ ls, l = .async) ∧ Run ops build s ls s' ∧ (s'.engs e).touched = true := by
        intro x hx hstep
        have hst : ∀ e', ((s.setEng e0 x).engs e').status = (s.engs e').status := by
          intro e'
          rw [setEng_engs]; split_ifs with h
          · rw [hx, h]
          · rfl
        obtain ⟨ls, s', h1, h2, h3⟩ := async_touches as { s.setEng e0 x with async := as } rfl hmem
          (fun e' he' => by rw [show (({ s.setEng e0 x with async := as } : Sys V R).engs e').status = _ from hst e']; exact hb e' (List.mem_cons_of_mem _ he'))
          (by rw [show (({ s.setEng e0 x with async := as } : Sys V R).engs e).status = _ from hst e]; exact hd)
        refine ⟨.async :: ls, s', fun l hl => ?_, .cons hstep h2, h3⟩
        rcases List.mem_cons.mp hl with hl | hl
        · exact hl
        · exact h1 l hl
      cases hs : (s.engs e0).status with
      | unborn => exact absurd hs (hb e0 (List.mem_cons_self ..))
      | alive => exact next _ (by rfl) (.async ha hs)
      | dead => exact next _ (by rfl) (.asyncDead ha hs)

/-! ## Delivery -/

/-- A job that has not been superseded can deliver. -/
theorem job_delivers {ops : ConvOps V} {build : R → ProcSpec → V} {s : Sys V R} (hI : Inv ops s ∧ More s) {j : Job V R} (hj : j ∈ s.jobs)
    (ha : (s.engs j.eng).status = .alive) (hl : (s.engs j.eng).loader = none) (hs : j.stop = false) (hp : j.pc ≠ .pushed)
    (hroom : (s.engs j.eng).cmd.length + (s.engs j.eng).cmdTaken < queueRoom) :
    ∃ s', ByWorkers ops build s s' ∧ j.id ∈ (s'.engs j.eng).delivered.map Held.id := by
  have from_locked : ∀ {s : Sys V R} {v : V} {j : Job V R}, j ∈ s.jobs → j.pc = .locked v → (s.engs j.eng).status = .alive → j.stop = false →
      (s.engs j.eng).cmd.length + (s.engs j.eng).cmdTaken < queueRoom →
      ∃ s', ByWorkers ops build s s' ∧ j.id ∈ (s'.engs j.eng).delivered.map Held.id := by
    intro s v j hj hpc ha hs hroom
    refine ⟨_, .single (.jobPush hj hpc ha hs hroom) trivial, ?_⟩
    rw [setEng_engs, if_pos rfl]
    simp
  have from_free : ∀ {s : Sys V R} {v : V} {j : Job V R}, j ∈ s.jobs → j.pc = .built v → (s.engs j.eng).status = .alive → (s.engs j.eng).unlocked → j.stop = false →
      (s.engs j.eng).cmd.length + (s.engs j.eng).cmdTaken < queueRoom →
      ∃ s', ByWorkers ops build s s' ∧ j.id ∈ (s'.engs j.eng).delivered.map Held.id := by
    intro s v j hj hpc ha hu hs hroom
    have hstep : Step ops build s _ _ := .jobLock hj hpc ha hu
    have hm : { j with pc := .locked v } ∈ ((s.setJob { j with pc := .locked v }).setEng j.eng { s.engs j.eng with holder := some j.id }).jobs :=
      setJob_mem (s := s) hj rfl
    have e : (((s.setJob { j with pc := .locked v }).setEng j.eng { s.engs j.eng with holder := some j.id }).engs j.eng) =
        { s.engs j.eng with holder := some j.id } := by rw [setEng_engs, if_pos rfl]
    obtain ⟨s', h1, h2⟩ := from_locked hm rfl (by simp only [e]; exact ha) hs (by simp only [e]; exact hroom)
    exact ⟨s', (ByWorkers.single hstep trivial).trans h1, h2⟩
  have from_built : ∀ {s : Sys V R} {v : V} {j : Job V R}, Inv ops s ∧ More s → j ∈ s.jobs → j.pc = .built v → (s.engs j.eng).status = .alive →
      (s.engs j.eng).loader = none → j.stop = false → (s.engs j.eng).cmd.length + (s.engs j.eng).cmdTaken < queueRoom →
      ∃ s', ByWorkers ops build s s' ∧ j.id ∈ (s'.engs j.eng).delivered.map Held.id := by
    intro s v j hI hj hpc ha hl hs hroom
    cases hh : (s.engs j.eng).holder with
    | none => exact from_free hj hpc ha ⟨hl, hh⟩ hs hroom
    | some i =>
      obtain ⟨k, hk, hki, hke, hkh⟩ := hI.1.locks.hjob _ _ hh
      have hne : j.id ≠ k.id := by
        intro hc
        have := same_job hI.1.ids.nodup hj hk hc
        subst this
        unfold Job.holds at hkh
        rw [hpc] at hkh; cases hkh
      rcases holds_iff.mp hkh with ⟨w, hw⟩ | hw
      · have hst : k.stop = true := by
          cases hst : k.stop with
          | true => rfl
          | false => exact absurd (hI.1.order.single j hj k hk hs hst hke.symm) hne
        have hstep : Step ops build s _ _ := .jobStop hk hw (by rw [hke]; exact ha) hst
        generalize hs1 : ((s.dropJob k.id).setEng k.eng { s.engs k.eng with
          holder := none
          freed := (s.engs k.eng).freed ++ [(k.id, .worker)] }) = s1 at hstep
        have hm : j ∈ s1.jobs := by rw [← hs1]; exact mem_dropJob.mpr ⟨hj, hne⟩
        have e : s1.engs j.eng = { s.engs j.eng with
            holder := none
            freed := (s.engs j.eng).freed ++ [(k.id, .worker)] } := by rw [← hs1, setEng_engs, hke, if_pos rfl]
        obtain ⟨s', h1, h2⟩ := from_free hm hpc (by rw [e]; exact ha) ⟨by rw [e]; exact hl, by rw [e]⟩ hs (by rw [e]; exact hroom)
        exact ⟨s', (ByWorkers.single hstep trivial).trans h1, h2⟩
      · have hstep : Step ops build s _ _ := .jobDone hk hw (by rw [hke]; exact ha)
        generalize hs1 : ({ (s.dropJob k.id).setEng k.eng { s.engs k.eng with
            holder := none
            loading := false } with async := s.async ++ [k.eng] } : Sys V R) = s1 at hstep
        have hm : j ∈ s1.jobs := by rw [← hs1]; exact mem_dropJob.mpr ⟨hj, hne⟩
        have e : s1.engs j.eng = { s.engs j.eng with
            holder := none
            loading := false } := by
          rw [← hs1]
          show ((s.dropJob k.id).setEng k.eng _).engs j.eng = _
          rw [setEng_engs, hke, if_pos rfl]
        obtain ⟨s', h1, h2⟩ := from_free hm hpc (by rw [e]; exact ha) ⟨by rw [e]; exact hl, by rw [e]⟩ hs (by rw [e]; exact hroom)
        exact ⟨s', (ByWorkers.single hstep trivial).trans h1, h2⟩
  have early : (j.pc = .queued ∨ j.pc = .building ∨ ∃ v, j.pc = .built v) → ∃ s', ByWorkers ops build s s' ∧ j.id ∈ (s'.engs j.eng).delivered.map Held.id := by
    intro hq
    obtain ⟨s1, v, h1, h2, h3, h4⟩ := gets_built (ops := ops) (build := build) hI.1.ids.nodup hj hq
    obtain ⟨m, hm⟩ := h2 j.eng
    obtain ⟨s', g1, g2⟩ := from_built (h1.inv hI) h4 rfl (by simp only [hm]; exact ha) (by simp only [hm]; exact hl) hs (by simp only [hm]; exact hroom)
    exact ⟨s', h1.trans g1, g2⟩
  cases hpc : j.pc with
  | queued => exact early (Or.inl hpc)
  | building => exact early (Or.inr (Or.inl hpc))
  | built v => exact early (Or.inr (Or.inr ⟨v, hpc⟩))
  | locked v => exact from_locked hj hpc ha hs hroom
  | pushed => exact absurd hpc hp

/-! ## Audio-side calls -/

/-- `Service` visits what it has found. -/
theorem visits {ops : ConvOps V} {build : R → ProcSpec → V} {e : ℕ} {k : Call} : ∀ (n : ℕ) (s : Sys V R) (d : List (Held V)), (s.engs e).pc = .serving k d n →
    n ≤ (s.engs e).cmd.length →
    ∃ ls s' d', (∀ l ∈ ls, audioSteps e l) ∧ ls.length = n ∧ Run ops build s ls s' ∧ (s'.engs e).pc = .serving k d' 0
  | 0, s, d, h, _ => ⟨[], s, d, fun l h => (by cases h), rfl, .nil s, h⟩
  | n + 1, s, d, h, hn => by
    cases hc : (s.engs e).cmd with
    | nil => rw [hc] at hn; cases hn
    | cons g rest =>
      have hstep : Step ops build s (.visit e) _ := .visit h hc
      generalize hs1 : (s.setEng e { (s.engs e).visit ops g with
          cmd := rest
          cmdTaken := (s.engs e).cmdTaken + 1
          pc := .serving k (d ++ [g]) n }) = s1 at hstep
      have e1 : (s1.engs e).pc = .serving k (d ++ [g]) n := by rw [← hs1, setEng_engs, if_pos rfl]
      have e2 : (s1.engs e).cmd = rest := by rw [← hs1, setEng_engs, if_pos rfl]
      obtain ⟨ls, s', d', h1, h2, h3, h4⟩ := visits n s1 (d ++ [g]) e1 (by rw [e2]; rw [hc] at hn; simp at hn; exact hn)
      refine ⟨.visit e :: ls, s', d', fun l hl => ?_, by rw [List.length_cons, h2], .cons hstep h3, h4⟩
      rcases List.mem_cons.mp hl with hl | hl
      · subst hl; exact rfl
      · exact h1 l hl

/-- The call gets past `Service`. -/
theorem gets_served {ops : ConvOps V} {build : R → ProcSpec → V} {s : Sys V R} {e : ℕ} (hF : Flow ops (s.engs e)) (hpc : (s.engs e).pc ≠ .idle) :
    ∃ ls s' k d, (∀ l ∈ ls, audioSteps e l) ∧ ls.length ≤ (s.engs e).cmd.length + 2 ∧ Run ops build s ls s' ∧ (s'.engs e).pc = .served k d := by
  have last : ∀ {s : Sys V R} {k : Call} {d : List (Held V)}, (s.engs e).pc = .serving k d 0 →
      ∃ s', Run ops build s [.serviced e] s' ∧ (s'.engs e).pc = .served k d := by
    intro s k d h
    exact ⟨_, Run.single (.serviced h), by rw [setEng_engs, if_pos rfl]⟩
  have from_serving : ∀ {s : Sys V R} {k : Call} {d : List (Held V)} {n : ℕ}, (s.engs e).pc = .serving k d n → n ≤ (s.engs e).cmd.length →
      ∃ ls s' k d, (∀ l ∈ ls, audioSteps e l) ∧ ls.length ≤ (s.engs e).cmd.length + 1 ∧ Run ops build s ls s' ∧ (s'.engs e).pc = .served k d := by
    intro s k d n h hn
    obtain ⟨ls, s1, d', h1, h2, h3, h4⟩ := visits n s d h hn
    obtain ⟨s2, g1, g2⟩ := last h4
    refine ⟨ls ++ [.serviced e], s2, k, d', fun l hl => ?_, by rw [List.length_append, h2]; simpa using hn, Run.append h3 g1, g2⟩
    rcases List.mem_append.mp hl with hl | hl
    · exact h1 l hl
    · rw [List.mem_singleton] at hl; subst hl; exact rfl
  cases hp : (s.engs e).pc with
  | idle => exact absurd hp hpc
  | entered k =>
    have hstep : Step ops build s (.service e) _ := .service hp
    generalize hs1 : (s.setEng e { s.engs e with pc := .serving k [] (s.engs e).cmd.length }) = s1 at hstep
    have e1 : (s1.engs e).pc = .serving k [] (s.engs e).cmd.length := by rw [← hs1, setEng_engs, if_pos rfl]
    have e2 : (s1.engs e).cmd = (s.engs e).cmd := by rw [← hs1, setEng_engs, if_pos rfl]
    obtain ⟨ls, s', k', d', h1, h2, h3, h4⟩ := from_serving e1 (by rw [e2])
    refine ⟨.service e :: ls, s', k', d', fun l hl => ?_, by rw [List.length_cons]; rw [e2] at h2; omega, .cons hstep h3, h4⟩
    rcases List.mem_cons.mp hl with hl | hl
    · subst hl; exact rfl
    · exact h1 l hl
  | serving k d n =>
    obtain ⟨ls, s', k', d', h1, h2, h3, h4⟩ := from_serving hp (hF.serving _ _ _ hp)
    exact ⟨ls, s', k', d', h1, by omega, h3, h4⟩
  | served k d => exact ⟨[], s, k, d, fun l h => (by cases h), by simp, .nil s, hp⟩

/-- Steps of the audio side are no requests. -/
theorem audioSteps_quiet {e : ℕ} {ls : List (Label R)} (h : ∀ l ∈ ls, audioSteps e l) : loadsIn ls = [] ∧ ∀ e', callsIn e' ls = [] := by
  induction ls with
  | nil => exact ⟨rfl, fun _ => rfl⟩
  | cons l ls ih =>
    obtain ⟨h1, h2⟩ := ih fun l' hl' => h l' (List.mem_cons_of_mem _ hl')
    have hl := h l (List.mem_cons_self ..)
    have e1 : loadsIn (l :: ls) = loadsIn [l] ++ loadsIn ls := loadsIn_append [l] ls
    have e2 : ∀ e', callsIn e' (l :: ls) = callsIn e' [l] ++ callsIn e' ls := fun e' => callsIn_append e' [l] ls
    rw [e1, h1]
    refine ⟨?_, fun e' => ?_⟩
    · cases l <;> first | rfl | exact hl.elim
    · rw [e2, h2]
      cases l <;> first | rfl | exact hl.elim

/-- The history of an engine, with the call in progress, is one of a well-behaved host. -/
theorem history_fits {ops : ConvOps V} {build : R → ProcSpec → V} {ls : List (Label R)} {s : Sys V R} (h : Exec ops build ls s) {e N : ℕ} {Good : V → Prop}
    (ha : (s.engs e).status = .alive) (hH : HostBehaves N none (callsIn e ls)) (hG : GoodLoads build Good e ls) :
    WellFormed N Good none ((s.engs e).hist ++ ((APc.calling (s.engs e).pc).toList.map fun k => (APc.visited (s.engs e).pc, k))) := by
  have hk := exec_known h
  have hf := (hk.inv.flow e).flow (by rw [ha]; simp)
  have hg : ∀ g ∈ (s.engs e).delivered, Good g.obj ∧ ∃ p m, Call.prepare p m ∈ callsIn e ls := by
    intro g hgd
    obtain ⟨r, p, h1, h2, h3⟩ := hk.origins.got e g hgd
    rw [h3]
    obtain ⟨m, hm⟩ := formats_prepare h2
    exact ⟨hG _ _ _ h1 h2, p, m, hm⟩
  have hc := (hk.traced e).calls
  refine wellFormed_of _ none ?_ ?_ fun _ => ?_
  · rw [List.map_append, List.map_map]
    have : (Prod.snd ∘ fun k => (APc.visited (s.engs e).pc, k)) = (id : Call → Call) := rfl
    rw [this, List.map_id, hc]
    exact hH
  · intro b hb g hgb
    refine (hg g ?_).1
    rw [← hf]
    rcases List.mem_append.mp hb with hb | hb
    · exact List.mem_append_left _ (List.mem_append_left _ (List.mem_flatMap.mpr ⟨b, hb, hgb⟩))
    · rw [List.mem_map] at hb
      obtain ⟨k, _, rfl⟩ := hb
      exact List.mem_append_left _ (List.mem_append_right _ hgb)
  · cases hp : APc.calling (s.engs e).pc with
    | none => simpa using hk.early e
    | some k =>
      refine Early.snoc _ _ _ (hk.early e) ?_
      cases hv : APc.visited (s.engs e).pc with
      | nil => exact Or.inl rfl
      | cons g gs =>
        right
        obtain ⟨_, p, m, hm⟩ := hg g (by rw [← hf, hv]; simp)
        rw [← hc, hp] at hm
        exact ⟨p, m, hm⟩

end Zones.Proofs
