import Verif.Proofs.Fair

/-! The last load arrives. -/

open Zones.Model Zones.Spec

namespace Zones.Proofs

variable {V R : Type} {ops : ConvOps V} {build : R → ProcSpec → V}

set_option linter.unusedVariables false

/-- A job for load `i` of engine `e` that may still deliver. -/
def Carried (e i : ℕ) (s : Sys V R) : Prop := ∃ j ∈ s.jobs, j.id = i ∧ j.eng = e ∧ j.stop = false ∧ j.pc ≠ .pushed

/-- What a step does to such a job, unless it cancels jobs: it stays, or it has delivered, or it has found the queue full. -/
theorem carried_step {s s' : Sys V R} {l : Label R} {e i : ℕ} (hI : Inv ops s) (h : Step ops build s l s') (hl : ∀ e, l ≠ .loadRemove e) (hc : Carried e i s) :
    Carried e i s' ∨ l = .jobCheck i ∧ ((∃ v, (s'.engs e).delivered = (s.engs e).delivered ++ [⟨i, v⟩]) ∨ (s.engs e).cmd.length + (s.engs e).cmdTaken = 399 ∧
      (i, .worker) ∈ (s'.engs e).freed) := by
  obtain ⟨j, hj, rfl, rfl, hs, hp⟩ := hc
  have hsame := @same_job V R s hI.ids.nodup
  cases h
  case loadRemove e i req h1 => exact absurd rfl (hl e)
  case loadAdd e i req p h1 h2 => exact Or.inl ⟨j, List.mem_append_left _ hj, rfl, rfl, hs, hp⟩
  case pick k h1 =>
    obtain ⟨h2, h3⟩ := mem_of_find h1
    left
    by_cases hc : j.id = k.id
    · have := hsame hj h2 hc; subst this
      exact ⟨_, setJob_mem (j' := { j with pc := .building }) hj rfl, rfl, rfl, hs, by simp⟩
    · exact ⟨j, setJob_other hj hc, rfl, rfl, hs, hp⟩
  case build k h1 h2 =>
    left
    by_cases hc : j.id = k.id
    · have := hsame hj h1 hc; subst this
      exact ⟨_, setJob_mem (s := s) (j' := { j with pc := .built (build j.req j.spec) }) hj rfl, rfl, rfl, hs, by simp⟩
    · exact ⟨j, setJob_other (s := s) hj hc, rfl, rfl, hs, hp⟩
  case jobLock k v h1 h2 h5 h6 =>
    left
    by_cases hc : j.id = k.id
    · have := hsame hj h1 hc; subst this
      exact ⟨_, setJob_mem (s := s) (j' := { j with pc := .locked v }) hj rfl, rfl, rfl, hs, by simp⟩
    · exact ⟨j, setJob_other (s := s) hj hc, rfl, rfl, hs, hp⟩
  case jobStop k v h1 h2 h5 h6 =>
    have hc : j.id ≠ k.id := fun hc => by
      have := hsame hj h1 hc; subst this
      rw [h6] at hs; cases hs
    exact Or.inl ⟨j, mem_dropJob.mpr ⟨hj, hc⟩, rfl, rfl, hs, hp⟩
  case jobPush k v h1 h2 h5 h6 h7 =>
    by_cases hc : j.id = k.id
    · have := hsame hj h1 hc; subst this
      right
      rw [setEng_engs, if_pos rfl]
      exact ⟨rfl, Or.inl ⟨v, rfl⟩⟩
    · exact Or.inl ⟨j, setJob_other (s := s) hj hc, rfl, rfl, hs, hp⟩
  case jobRefused k v h1 h2 h5 h6 h7 =>
    by_cases hc : j.id = k.id
    · have := hsame hj h1 hc; subst this
      right
      have hfit := (hI.flow j.eng).cmdFits
      unfold queueRoom at h7 hfit
      refine ⟨rfl, Or.inr ⟨by omega, ?_⟩⟩
      rw [setEng_engs, if_pos rfl]
      simp
    · exact Or.inl ⟨j, setJob_other (s := s) hj hc, rfl, rfl, hs, hp⟩
  case jobDone k h1 h2 h5 =>
    have hc : j.id ≠ k.id := fun hc => by
      have := hsame hj h1 hc; subst this
      exact hp h2
    exact Or.inl ⟨j, mem_dropJob.mpr ⟨hj, hc⟩, rfl, rfl, hs, hp⟩
  all_goals exact Or.inl ⟨j, hj, rfl, rfl, hs, hp⟩

/-- Load `i` of engine `e` is in the hands of its `LoadIR` call. -/
def Called (e i : ℕ) (s : Sys V R) : Prop := ∃ r p, (s.engs e).loader = some (i, r, p)

/-- What a step does to such a call on a prepared engine. -/
theorem called_step {s s' : Sys V R} {l : Label R} {e i : ℕ} (hI : Inv ops s) (h : Step ops build s l s') (hsp : (s.engs e).core.spec ≠ none) (hc : Called e i s) :
    Called e i s' ∨ Carried e i s' := by
  obtain ⟨r, p, hp⟩ := hc
  have same : (s'.engs e).loader = (s.engs e).loader → Called e i s' ∨ Carried e i s' := fun h => Or.inl ⟨r, p, h.trans hp⟩
  by_cases hq : Label.quiet l = true
  · exact same (((step_quiet h hq).2.2) e).loader
  have other : ∀ {e0 : ℕ} {x : Eng V R}, e ≠ e0 → ((s.setEng e0 x).engs e).loader = (s.engs e).loader := fun hc => by rw [setEng_engs, if_neg hc]
  cases h <;> try (exact absurd rfl hq)
  case loadLock e0 req h1 h2 =>
    by_cases hc : e = e0
    · subst hc
      rw [h2.1] at hp; cases hp
    · exact same (other (x := { s.engs e0 with loader := some (s.next, req, .locked) }) hc)
  case loadRemove e0 i0 req h1 =>
    by_cases hc : e = e0
    · subst hc
      rw [hp] at h1
      simp only [Option.some.injEq, Prod.mk.injEq] at h1
      left
      refine ⟨req, .removed, ?_⟩
      show ((s.setEng e _).engs e).loader = _
      rw [setEng_engs, if_pos rfl, h1.1]
    · exact same (other (x := { s.engs e0 with loader := some (i0, req, .removed) }) hc)
  case loadFlag e0 i0 req h1 h2 =>
    by_cases hc : e = e0
    · subst hc
      rw [hp] at h1
      simp only [Option.some.injEq, Prod.mk.injEq] at h1
      left
      refine ⟨req, .flagged, ?_⟩
      rw [setEng_engs, if_pos rfl, h1.1]
    · exact same (other hc)
  case loadSkip e0 i0 req h1 h2 =>
    by_cases hc : e = e0
    · subst hc; exact absurd h2 hsp
    · exact same (other hc)
  case loadAdd e0 i0 req p0 h1 h2 =>
    by_cases hc : e = e0
    · subst hc
      rw [hp] at h1
      simp only [Option.some.injEq, Prod.mk.injEq] at h1
      right
      exact ⟨⟨i0, e, req, p0, false, .queued⟩, List.mem_append_right _ (List.mem_singleton.mpr rfl), h1.1.symm, rfl, rfl, by simp⟩
    · exact same (other (x := { s.engs e0 with loader := none }) hc)
  all_goals
    refine same ?_
    first
      | rfl
      | (show ((Sys.setEng _ _ _).engs e).loader = _
         rw [setEng_engs]
         split_ifs with hc
         · rw [hc]
         · rfl)

/-- The last load arrives, or is refused by a full queue. -/
theorem last_load_arrives {b : Behaviour ops build} (hf : b.Fair loadingSteps) {n e : ℕ} {req : R} (hload : b.act n = some (.loadLock e req))
    (hprep : formatsIn e (b.upTo n) ≠ []) (hn : b.NoLoadsFrom (n + 1)) (ho : ∀ m, n ≤ m → ∀ e', b.act m = some (.loadRemove e') → e' = e)
    (hd : b.NoDanglingFrom n) :
    ∃ m, n < m ∧ b.act m = some (.jobCheck (loadsIn (b.upTo n)).length) ∧
      ((∃ v, ((b.state (m + 1)).engs e).delivered = ((b.state m).engs e).delivered ++ [⟨(loadsIn (b.upTo n)).length, v⟩]) ∨
        ((b.state m).engs e).cmd.length + ((b.state m).engs e).cmdTaken = 399 ∧ ((loadsIn (b.upTo n)).length, .worker) ∈ ((b.state (m + 1)).engs e).freed) := by
  have hx := fun m => upTo_exec b m
  have inv : ∀ m, Inv ops (b.state m) := fun m => exec_inv (hx m)
  have hnx : (b.state n).next = (loadsIn (b.upTo n)).length := (exec_known (hx n)).origins.next
  generalize hi : (loadsIn (b.upTo n)).length = i at hnx ⊢
  have hstep := b.step n _ hload
  have h0 : Called e i (b.state (n + 1)) := by
    generalize b.state (n + 1) = s' at hstep
    cases hstep with
    | loadLock h1 h2 =>
      refine ⟨req, .locked, ?_⟩
      show ((Sys.setEng _ e _).engs e).loader = _
      rw [setEng_engs, if_pos rfl, hnx]
  have hal : ((b.state n).engs e).status = .alive := by
    generalize b.state (n + 1) = s' at hstep
    cases hstep with
    | loadLock h1 h2 => exact h1
  have hd' : b.NoDanglingFrom (n + 1) := by
    refine ⟨alive_step (inv n) hstep hd.1 (fun e he => by cases he), fun m hm => hd.2 m (by omega)⟩
  have hprep' : ∀ m, n ≤ m → formatsIn e (b.upTo m) ≠ [] := by
    intro m hm
    obtain ⟨k, rfl⟩ := Nat.exists_eq_add_of_le hm
    rw [upTo_add, formatsIn_append]
    simp [hprep]
  obtain ⟨M, hM, hend⟩ := loads_end hf hn hd'
  -- the load is with its call, or with its job, or has arrived
  by_contra hno
  push Not at hno
  have key : ∀ m, n + 1 ≤ m → Called e i (b.state m) ∨ Carried e i (b.state m) := by
    intro m hm
    induction m, hm using Nat.le_induction with
    | base => exact Or.inl h0
    | succ m hm ih =>
      cases ha : b.act m with
      | none => rw [b.rest m ha]; exact ih
      | some l =>
        have hs := b.step m l ha
        rcases ih with ih | ih
        · refine called_step (inv m) hs ?_ ih
          have hst : ((b.state m).engs e).status = .alive := by
            obtain ⟨r, p, hp⟩ := ih
            exact (inv m).locks.alive e (by rw [hp]; simp)
          rw [((exec_known (hx m)).traced e).spec (by rw [hst]; simp)]
          intro hc
          exact hprep' m (by omega) (List.getLast?_eq_none_iff.mp hc)
        · have hl : ∀ e', l ≠ .loadRemove e' := by
            intro e' hl
            have he : e' = e := ho m (by omega) e' (by rw [ha, hl])
            subst he
            subst hl
            obtain ⟨j, hj, hji, hje, hjs, hjp⟩ := ih
            -- a call of this engine that is under way has a later number than the job, but there is none
            have hlater : ∃ k r, k > i ∧ ((b.state m).engs e').loader = some (k, r, .locked) := by
              generalize b.state (m + 1) = s' at hs
              cases hs with
              | @loadRemove _ k r h1 =>
                have := (inv m).order.jload _ _ _ _ h1 j hj hje
                exact ⟨k, r, by omega, h1⟩
            obtain ⟨k, r, hk, hl⟩ := hlater
            have h1 := (exec_known (hx m)).origins.load _ _ _ _ hl
            have h2 : k < (loadsIn (b.upTo m)).length := (List.getElem?_eq_some_iff.mp h1).1
            have h3 : loadsIn (b.upTo m) = loadsIn (b.upTo n) ++ [(e', req)] := by
              obtain ⟨q, rfl⟩ := Nat.exists_eq_add_of_le hm
              rw [upTo_add, loadsIn_append, upTo_add, loadsIn_append]
              have e1 : loadsIn (b.during n 1) = [(e', req)] := by
                show loadsIn ([] ++ (b.act (n + 0)).toList) = _
                rw [Nat.add_zero, hload]; rfl
              have e2 : loadsIn (b.during (n + 1) q) = [] := by
                unfold loadsIn
                rw [List.filterMap_eq_nil_iff]
                intro l hl
                obtain ⟨a, _, ha⟩ := mem_during.mp hl
                have := hn (n + 1 + a) (by omega)
                cases l <;> first | rfl | exact absurd ha (this _ _)
              rw [e1, e2, List.append_nil]
            rw [h3, List.length_append, hi, List.length_singleton] at h2
            omega
          rcases carried_step (inv m) hs hl ih with h | ⟨h1, h2⟩
          · exact Or.inr h
          · subst h1
            obtain ⟨h3, h4⟩ := hno m (by omega) ha
            rcases h2 with ⟨v, h2⟩ | ⟨h5, h6⟩
            · exact absurd h2 (h3 v)
            · exact absurd h6 (h4 h5)
  obtain ⟨g1, g2⟩ := hend (max M (n + 1)) (le_max_left _ _)
  rcases key (max M (n + 1)) (le_max_right _ _) with ⟨r, p, h⟩ | ⟨j, h, _⟩
  · rw [g2 e] at h; cases h
  · rw [g1] at h; cases h

end Zones.Proofs
