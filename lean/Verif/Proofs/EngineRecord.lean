import Verif.Proofs.EngineProgress

/-! How a step changes the records of an engine. -/

open Zones.Model Zones.Spec

namespace Zones.Proofs

variable {V R : Type}

set_option linter.unusedSimpArgs false
set_option linter.unusedVariables false

theorem upd_same {α β : Type} {a b : ℕ → α} {e0 : ℕ} {x : α} {f : α → β} (h : a = Function.update b e0 x) (hx : f x = f (b e0)) (e : ℕ) : f (a e) = f (b e) := by
  rw [h, Function.update_apply]
  split_ifs with hc
  · rw [hx, hc]
  · rfl

theorem made_step {ops : ConvOps V} {build : R → ProcSpec → V} {s s' : Sys V R} {l : Label R} (h : Step ops build s l s') (e : ℕ) :
    (s'.engs e).made = (s.engs e).made ∧ (∀ i, l = .build i → ∃ j ∈ s.jobs, j.id = i ∧ j.eng ≠ e) ∨
    ∃ j ∈ s.jobs, j.eng = e ∧ j.pc = .building ∧ l = .build j.id ∧ (s'.engs e).made = (s.engs e).made ++ [j.id] := by
  cases h
  case build j h1 h2 =>
    by_cases hc : e = j.eng
    · right
      refine ⟨j, h1, hc.symm, h2, rfl, ?_⟩
      rw [setEng_engs, if_pos hc, hc]
    · left
      refine ⟨?_, fun i hi => ⟨j, h1, by cases hi; rfl, fun h => hc h.symm⟩⟩
      rw [setEng_engs, if_neg hc]; rfl
  case pick j h1 => exact Or.inl ⟨rfl, fun i h => (by cases h)⟩
  case visit e0 n k d g rest h1 h2 =>
    rw [visit_eq]
    exact Or.inl ⟨upd_same (f := Eng.made) (by rfl) (by rfl) e, fun i h => (by cases h)⟩
  case body e0 k d r h1 h2 =>
    rw [finish_eq]
    exact Or.inl ⟨upd_same (f := Eng.made) (by rfl) (by rfl) e, fun i h => (by cases h)⟩
  all_goals exact Or.inl ⟨upd_same (f := Eng.made) (by rfl) (by rfl) e, fun i h => (by cases h)⟩

theorem delivered_step {ops : ConvOps V} {build : R → ProcSpec → V} {s s' : Sys V R} {l : Label R} (h : Step ops build s l s') (e : ℕ) :
    (s'.engs e).delivered = (s.engs e).delivered ∨
    ∃ j ∈ s.jobs, ∃ v, j.eng = e ∧ j.pc = .locked v ∧ j.stop = false ∧ l = .jobCheck j.id ∧ (s.engs e).cmd.length + (s.engs e).cmdTaken < 399 ∧
      { j with pc := .pushed } ∈ s'.jobs ∧ (s'.engs e).delivered = (s.engs e).delivered ++ [⟨j.id, v⟩] := by
  cases h
  case jobPush j v h1 h2 h5 h6 h7 =>
    by_cases hc : e = j.eng
    · right
      refine ⟨j, h1, v, hc.symm, h2, h6, rfl, by rw [hc]; exact h7, setJob_mem (s := s) h1 rfl, ?_⟩
      rw [setEng_engs, if_pos hc, hc]
    · left
      rw [setEng_engs, if_neg hc]; rfl
  case pick j h1 => exact Or.inl rfl
  case visit e0 n k d g rest h1 h2 =>
    rw [visit_eq]
    exact Or.inl (upd_same (f := Eng.delivered) (by rfl) (by rfl) e)
  case body e0 k d r h1 h2 =>
    rw [finish_eq]
    exact Or.inl (upd_same (f := Eng.delivered) (by rfl) (by rfl) e)
  all_goals exact Or.inl (upd_same (f := Eng.delivered) (by rfl) (by rfl) e)

/-- What a step destroys. -/
inductive Frees (ops : ConvOps V) (s : Sys V R) (e : ℕ) : Label R → List (ℕ × Site) → Prop
  | none (l : Label R) : Frees ops s e l []
  | stop {j : Job V R} {v : V} (h : j ∈ s.jobs) (he : j.eng = e) (hj : j.pc = .locked v) (hs : j.stop = true) : Frees ops s e (.jobCheck j.id) [(j.id, .worker)]
  | refused {j : Job V R} {v : V} (h : j ∈ s.jobs) (he : j.eng = e) (hj : j.pc = .locked v) (hs : j.stop = false)
      (hfull : ¬ (s.engs e).cmd.length + (s.engs e).cmdTaken < queueRoom) : Frees ops s e (.jobCheck j.id) [(j.id, .worker)]
  | visit {k : Call} {d : List (Held V)} {n : ℕ} {g : Held V} (h : (s.engs e).pc = .serving k d (n + 1)) :
      Frees ops s e (.visit e) ((((s.engs e).core.handle ops g).2.drop (ntfRoom (s.engs e))).flatMap Option.toList |>.map fun h => (h.id, Site.audio))
  | body {k : Call} {d : List (Held V)} {r : Core V × Core.Effects V} (h : (s.engs e).pc = .served k d) (hr : (s.engs e).core.callBody ops k = some r) :
      Frees ops s e (.body e) (((r.2.pushed.drop (ntfRoom (s.engs e))).flatMap Option.toList).map (fun h => (h.id, Site.audio)) ++
        r.2.destroyed.map fun h => (h.id, Site.audio))
  | dispose {o : Option (Held V)} {rest : List (Option (Held V))} (h : (s.engs e).ntf = o :: rest) :
      Frees ops s e (.bgVisit e) (o.toList.map fun h => (h.id, .background))
  | destroy : Frees ops s e (.destroy e) ((s.engs e).holding.map fun h => (h.id, .destructor))

theorem freed_step {ops : ConvOps V} {build : R → ProcSpec → V} {s s' : Sys V R} {l : Label R} (h : Step ops build s l s') (e : ℕ) :
    ∃ new, (s'.engs e).freed = (s.engs e).freed ++ new ∧ Frees ops s e l new := by
  have keep : (s'.engs e).freed = (s.engs e).freed → ∃ new, (s'.engs e).freed = (s.engs e).freed ++ new ∧ Frees ops s e l new := fun h =>
    ⟨[], by rw [h, List.append_nil], .none l⟩
  have upd : ∀ {e0 : ℕ} {x : Eng V R} {l' : List (ℕ × Site)}, s'.engs = Function.update s.engs e0 x → x.freed = (s.engs e0).freed ++ l' →
      (e0 = e → Frees ops s e l l') → ∃ new, (s'.engs e).freed = (s.engs e).freed ++ new ∧ Frees ops s e l new := by
    intro e0 x l' h1 h2 h3
    by_cases hc : e = e0
    · refine ⟨l', ?_, h3 hc.symm⟩
      rw [h1, Function.update_apply, if_pos hc, h2, hc]
    · apply keep
      rw [h1, Function.update_apply, if_neg hc]
  cases h
  case jobStop j v h1 h2 h5 h6 => exact upd (by rfl) (by rfl) fun he => .stop h1 he h2 h6
  case jobRefused j v h1 h2 h5 h6 h7 => exact upd (by rfl) (by rfl) fun he => .refused h1 he h2 h6 (by rw [← he]; exact h7)
  case pick j h1 => exact keep rfl
  case visit e0 n k d g rest h1 h2 =>
    rw [visit_eq] at upd ⊢
    exact upd (by rfl) (by rfl) fun he => by subst he; exact .visit h1
  case body e0 k d r h1 h2 =>
    rw [finish_eq] at upd ⊢
    refine upd (by rfl) ?_ fun he => by subst he; exact .body h1 h2
    simp only [List.append_assoc]
  case bgVisit e0 n o rest h1 h2 => exact upd (by rfl) (by rfl) fun he => by subst he; exact .dispose h2
  case destroy e0 h1 h2 h3 h4 => exact upd (by rfl) (by rfl) fun he => by subst he; exact .destroy
  all_goals exact keep (upd_same (f := Eng.freed) (by rfl) (by rfl) e)

/-- What a step does to a job that has not been superseded, unless it cancels jobs. -/
theorem job_step {ops : ConvOps V} {build : R → ProcSpec → V} {s s' : Sys V R} {l : Label R} (hn : (s.jobs.map Job.id).Nodup) (h : Step ops build s l s')
    (hl : ∀ e, l ≠ .loadRemove e) {j : Job V R} (hj : j ∈ s.jobs) (hs : j.stop = false) (hp : j.pc ≠ .pushed) :
    (∃ j' ∈ s'.jobs, j'.id = j.id ∧ j'.eng = j.eng ∧ j'.stop = false ∧ j'.pc ≠ .pushed) ∨ j.id ∈ (s'.engs j.eng).delivered.map Held.id ∨
      (j.id, .worker) ∈ (s'.engs j.eng).freed := by
  have hsame := @same_job V R s hn
  cases h
  case loadRemove e i req h1 => exact absurd rfl (hl e)
  case loadAdd e i req p h1 h2 => exact Or.inl ⟨j, List.mem_append_left _ hj, rfl, rfl, hs, hp⟩
  case pick k h1 =>
    obtain ⟨h2, h3⟩ := mem_of_find h1
    left
    by_cases hc : j.id = k.id
    · have := hsame hj h2 hc; subst this
      exact ⟨_, setJob_mem (j' := { j with pc := .building }) hj rfl, rfl, rfl, hs, by simp⟩
    · exact ⟨j, setJob_other hj hc, rfl, rfl, hs, hp⟩
  case build k h1 h2 =>
    left
    by_cases hc : j.id = k.id
    · have := hsame hj h1 hc; subst this
      exact ⟨_, setJob_mem (s := s) (j' := { j with pc := .built (build j.req j.spec) }) hj rfl, rfl, rfl, hs, by simp⟩
    · exact ⟨j, setJob_other (s := s) hj hc, rfl, rfl, hs, hp⟩
  case jobLock k v h1 h2 h5 h6 =>
    left
    by_cases hc : j.id = k.id
    · have := hsame hj h1 hc; subst this
      exact ⟨_, setJob_mem (s := s) (j' := { j with pc := .locked v }) hj rfl, rfl, rfl, hs, by simp⟩
    · exact ⟨j, setJob_other (s := s) hj hc, rfl, rfl, hs, hp⟩
  case jobStop k v h1 h2 h5 h6 =>
    have hc : j.id ≠ k.id := fun hc => by
      have := hsame hj h1 hc; subst this
      rw [h6] at hs; cases hs
    exact Or.inl ⟨j, mem_dropJob.mpr ⟨hj, hc⟩, rfl, rfl, hs, hp⟩
  case jobPush k v h1 h2 h5 h6 h7 =>
    by_cases hc : j.id = k.id
    · have := hsame hj h1 hc; subst this
      right; left
      rw [setEng_engs, if_pos rfl]
      simp
    · exact Or.inl ⟨j, setJob_other (s := s) hj hc, rfl, rfl, hs, hp⟩
  case jobRefused k v h1 h2 h5 h6 h7 =>
    by_cases hc : j.id = k.id
    · have := hsame hj h1 hc; subst this
      right; right
      rw [setEng_engs, if_pos rfl]
      simp
    · exact Or.inl ⟨j, setJob_other (s := s) hj hc, rfl, rfl, hs, hp⟩
  case jobDone k h1 h2 h5 =>
    have hc : j.id ≠ k.id := fun hc => by
      have := hsame hj h1 hc; subst this
      exact hp h2
    exact Or.inl ⟨j, mem_dropJob.mpr ⟨hj, hc⟩, rfl, rfl, hs, hp⟩
  all_goals exact Or.inl ⟨j, hj, rfl, rfl, hs, hp⟩

/-- A load that has neither a job nor a caller never gets one. -/
structure Lost (e i : ℕ) (s : Sys V R) : Prop where
  old : i < s.next
  job : ∀ j ∈ s.jobs, j.eng = e → j.id ≠ i
  load : ∀ k r p, (s.engs e).loader = some (k, r, p) → k ≠ i

theorem Lost.step {ops : ConvOps V} {build : R → ProcSpec → V} {s s' : Sys V R} {l : Label R} {e i : ℕ} (hI : Lost e i s) (h : Step ops build s l s') :
    Lost e i s' ∧ (i ∉ (s.engs e).made → i ∉ (s'.engs e).made) := by
  refine ⟨?_, fun hm => ?_⟩
  · have h0 := h
    by_cases hq : Label.quiet l = true
    · obtain ⟨q1, q2, q3⟩ := step_quiet h hq
      exact ⟨by rw [q2]; exact hI.1, by rw [q1]; exact hI.2, fun k r p h => hI.3 k r p (by rw [← (q3 e).loader]; exact h)⟩
    obtain ⟨a1, a2, a3⟩ := hI
    cases h <;> try (exact absurd rfl hq)
    case create e0 h1 => sys_step
    case loadLock e0 req h1 h2 => sys_step
    case loadRemove e0 n req h1 => sys_step
    case loadFlag e0 n req h1 h2 => sys_step
    case loadSkip e0 n req h1 h2 => sys_step
    case loadAdd e0 n req p h1 h2 => sys_step
    case pick j h1 =>
      have h2 := mem_of_find h1
      have h4 := @mem_setJob V R s { j with pc := .building }
      sys_step
    case build j h1 h2 =>
      have h4 := @mem_setJob V R s { j with pc := .built (build j.req j.spec) }
      sys_step
    case jobLock j v h1 h2 h5 h6 =>
      have h4 := @mem_setJob V R s { j with pc := .locked v }
      sys_step
    case jobLockDead j v h1 h2 h5 => sys_step
    case jobStop j v h1 h2 h5 h6 =>
      have h4 := @mem_dropJob V R s
      sys_step
    case jobPush j v h1 h2 h5 h6 h7 =>
      have h4 := @mem_setJob V R s { j with pc := .pushed }
      sys_step
    case jobRefused j v h1 h2 h5 h6 h7 =>
      have h4 := @mem_setJob V R s { j with pc := .pushed }
      sys_step
    case jobCheckDead j v h1 h2 h5 => sys_step
    case jobDone j h1 h2 h5 =>
      have h4 := @mem_dropJob V R s
      sys_step
    case jobDoneDead j h1 h2 h5 => sys_step
    case destroy e0 h1 h2 h3 h4 => sys_step
  · rcases made_step h e with ⟨h1, _⟩ | ⟨j, h1, h2, _, _, h3⟩
    · rw [h1]; exact hm
    · rw [h3, List.mem_append, List.mem_singleton, not_or]
      exact ⟨hm, fun hc => hI.job j h1 h2 hc.symm⟩

theorem Lost.run {ops : ConvOps V} {build : R → ProcSpec → V} {s s' : Sys V R} {ls : List (Label R)} {e i : ℕ} (hI : Lost e i s) (hm : i ∉ (s.engs e).made)
    (h : Run ops build s ls s') : i ∉ (s'.engs e).made :=
  (run_induct (P := fun s => Lost e i s ∧ i ∉ (s.engs e).made) (fun s l s' hp hs => ⟨(hp.1.step hs).1, (hp.1.step hs).2 hp.2⟩) h ⟨hI, hm⟩).2

/-- What has been built for an engine has been built for a format of its. -/
theorem made_format {ops : ConvOps V} {build : R → ProcSpec → V} {ls : List (Label R)} {s : Sys V R} (h : Exec ops build ls s) :
    ∀ e, (s.engs e).made ≠ [] → formatsIn e ls ≠ [] := by
  refine exec_induct (P := fun ls s => ∀ e, (s.engs e).made ≠ [] → formatsIn e ls ≠ []) (fun e h => absurd rfl h) ?_ h
  intro ls s l s' hx ih hs e hne
  have hO := (exec_known hx).origins
  have mono : formatsIn e ls ≠ [] → formatsIn e (ls ++ [l]) ≠ [] := fun h => by rw [formatsIn_append]; simp [h]
  rcases made_step hs e with ⟨h1, _⟩ | ⟨j, h1, h2, _, _, h3⟩
  · rw [h1] at hne; exact mono (ih e hne)
  · apply mono
    have := hO.format j h1
    rw [h2] at this
    exact List.ne_nil_of_mem this

/-- The records only grow. -/
theorem run_grows {ops : ConvOps V} {build : R → ProcSpec → V} {s s' : Sys V R} {ls : List (Label R)} (h : Run ops build s ls s') (e : ℕ) :
    (∃ nd, (s'.engs e).delivered = (s.engs e).delivered ++ nd) ∧ ∃ nf, (s'.engs e).freed = (s.engs e).freed ++ nf := by
  induction h with
  | nil s => exact ⟨⟨[], by simp⟩, [], by simp⟩
  | cons h t ih =>
    obtain ⟨⟨nd, h1⟩, nf, h2⟩ := ih
    obtain ⟨f, h3, _⟩ := freed_step h e
    have hd := delivered_step h e
    refine ⟨?_, f ++ nf, by rw [h2, h3, List.append_assoc]⟩
    rcases hd with hd | ⟨j, _, v, _, _, _, _, _, _, hd⟩
    · exact ⟨nd, by rw [h1, hd]⟩
    · exact ⟨[⟨j.id, v⟩] ++ nd, by rw [h1, hd, List.append_assoc]⟩

end Zones.Proofs
