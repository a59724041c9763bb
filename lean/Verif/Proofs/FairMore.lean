import Verif.Proofs.FairLoad

/-! The background thread and the message thread get their work done. -/

open Zones.Model Zones.Spec

namespace Zones.Proofs

variable {V R : Type} {ops : ConvOps V} {build : R → ProcSpec → V}

set_option linter.unusedVariables false

/-! ## The first moment of a change -/

theorem first_change {P : ℕ → Prop} {n m : ℕ} (hn : P n) (hm : n ≤ m) (hP : ¬ P m) : ∃ k, n ≤ k ∧ k < m ∧ P k ∧ ¬ P (k + 1) := by
  induction m, hm using Nat.le_induction with
  | base => exact absurd hn hP
  | succ m hm ih =>
    by_cases h : P m
    · exact ⟨m, hm, by omega, h, hP⟩
    · obtain ⟨k, h1, h2, h3⟩ := ih h
      exact ⟨k, h1, by omega, h3⟩

/-! ## Background thread -/

/-- Steps of others only add to the notification queue. -/
theorem ntf_step {s s' : Sys V R} {l : Label R} (hs : Step ops build s l s') (e : ℕ) (hb : ¬ backgroundSteps e l) (hd : l ≠ .destroy e) :
    (∃ new, (s'.engs e).ntf = (s.engs e).ntf ++ new) ∧ (s'.engs e).bg = (s.engs e).bg := by
  have other : ∀ {e0 : ℕ} {x : Eng V R}, e ≠ e0 → (∃ new, ((s.setEng e0 x).engs e).ntf = (s.engs e).ntf ++ new) ∧ ((s.setEng e0 x).engs e).bg = (s.engs e).bg :=
    fun hc => by rw [setEng_engs, if_neg hc]; exact ⟨⟨[], by simp⟩, rfl⟩
  cases hs
  case visit e0 n k d g rest h1 h2 =>
    by_cases hc : e = e0
    · subst hc
      rw [setEng_engs, if_pos rfl, visit_eq]
      exact ⟨⟨_, rfl⟩, rfl⟩
    · exact other hc
  case body e0 k d r h1 h2 =>
    by_cases hc : e = e0
    · subst hc
      rw [setEng_engs, if_pos rfl, finish_eq]
      exact ⟨⟨_, rfl⟩, rfl⟩
    · exact other hc
  case call e0 k h1 h2 =>
    by_cases hc : e = e0
    · subst hc
      rw [setEng_engs, if_pos rfl]
      exact ⟨⟨[], (List.append_nil _).symm⟩, rfl⟩
    · exact other hc
  case bgBegin e0 h1 h2 => exact other fun hc => hb hc.symm
  case bgVisit e0 n o rest h1 h2 => exact other fun hc => hb hc.symm
  case bgEnd e0 h1 => exact other fun hc => hb hc.symm
  case destroy e0 h1 h2 h3 h4 => exact other fun hc => hd (by rw [hc])
  all_goals
    first
      | exact ⟨⟨[], (List.append_nil _).symm⟩, rfl⟩
      | (show (∃ new, ((Sys.setEng _ _ _).engs e).ntf = _ ++ new) ∧ ((Sys.setEng _ _ _).engs e).bg = _
         rw [setEng_engs]
         split_ifs with hc
         · rw [hc]; exact ⟨⟨[], (List.append_nil _).symm⟩, rfl⟩
         · exact ⟨⟨[], (List.append_nil _).symm⟩, rfl⟩)

open Classical in
/-- Steps of the background thread until it has visited an entry of the notification queue. -/
noncomputable def ntfRank (e : ℕ) (o : Option (Held V)) (s : Sys V R) : ℕ :=
  if o ∈ (s.engs e).ntf then
    (s.engs e).ntf.idxOf o + match (s.engs e).bg with
      | none => 2
      | some k => if (s.engs e).ntf.idxOf o < k then 1 else 3
  else 0

open Classical in
theorem idxOf_append_left {α : Type} {o : α} {xs ys : List α} (h : o ∈ xs) : (xs ++ ys).idxOf o = xs.idxOf o := List.idxOf_append_of_mem h

open Classical in
theorem ntf_visited {b : Behaviour ops build} {e : ℕ} (hf : b.Fair (backgroundSteps e)) {n : ℕ} (hal : ∀ m, n ≤ m → ((b.state m).engs e).status = .alive)
    {o : Option (Held V)} (ho : o ∈ ((b.state n).engs e).ntf) :
    ∃ m rest, n ≤ m ∧ b.act m = some (.bgVisit e) ∧ ((b.state m).engs e).ntf = o :: rest := by
  have inv : ∀ m, Inv ops (b.state m) := fun m => exec_inv (upTo_exec b m)
  have nodes : ∀ m, n ≤ m → b.act m ≠ some (.destroy e) := by
    intro m hm hc
    have h1 := b.step m _ hc
    have h2 := hal (m + 1) (by omega)
    generalize b.state (m + 1) = s' at h1 h2
    cases h1 with
    | destroy => rw [setEng_engs, if_pos rfl] at h2; cases h2
  by_contra hno
  push Not at hno
  have hRank : ∃ m, n ≤ m ∧ ntfRank e o (b.state m) = 0 := by
    refine rank_zero hf (ntfRank e o) (n := n) ?_ ?_ ?_
    · -- steps of the background thread
      intro m hm l ha hT hr
      have hs := b.step m l ha
      have hmem : o ∈ ((b.state m).engs e).ntf := by
        by_contra hc
        exact hr (by unfold ntfRank; rw [if_neg hc])
      have hlt := List.idxOf_lt_length_of_mem hmem
      have hno' : l = .bgVisit e → ∀ rest, ((b.state m).engs e).ntf ≠ o :: rest := fun hl rest => hno m rest hm (by rw [ha, hl])
      generalize b.state (m + 1) = s' at hs
      generalize b.state m = s at hs hmem hlt hr hno'
      cases hs <;> try (exact hT.elim)
      case bgBegin e0 g1 g2 =>
        have : e0 = e := hT
        subst this
        unfold ntfRank
        rw [setEng_engs, if_pos rfl, if_pos hmem, if_pos hmem, g2]
        simp only
        rw [if_pos hlt]
        omega
      case bgEnd e0 g1 =>
        have : e0 = e := hT
        subst this
        unfold ntfRank
        rw [setEng_engs, if_pos rfl, if_pos hmem, if_pos hmem, g1]
        simp only
        rw [if_neg (Nat.not_lt_zero _)]
        omega
      case bgVisit e0 j o' rest g1 g2 =>
        have : e0 = e := hT
        subst this
        unfold ntfRank
        rw [setEng_engs, if_pos rfl, if_pos hmem, g1, g2]
        simp only
        rw [List.idxOf_cons]
        by_cases hc : o' = o
        · subst hc
          exact absurd g2 (hno' rfl rest)
        · have hmr : o ∈ rest := by
            rw [g2] at hmem
            rcases List.mem_cons.mp hmem with h | h
            · exact absurd h.symm hc
            · exact h
          rw [if_pos hmr]
          have : (o' == o) = false := by simpa using hc
          rw [this]
          simp only [cond_false]
          split_ifs <;> omega
    · -- other steps
      intro m hm l ha hT hr
      have hs := b.step m l ha
      have hmem : o ∈ ((b.state m).engs e).ntf := by
        by_contra hc
        exact hr (by unfold ntfRank; rw [if_neg hc])
      obtain ⟨⟨new, h5⟩, h6⟩ := ntf_step hs e hT fun hc => nodes m hm (by rw [ha, hc])
      unfold ntfRank
      rw [h5, h6, if_pos hmem, if_pos (List.mem_append_left _ hmem), List.idxOf_append_of_mem hmem]
    · -- it can always make a step
      intro m hm hr
      cases hb : ((b.state m).engs e).bg with
      | none => exact ⟨.bgBegin e, rfl, _, .bgBegin (hal m hm) hb⟩
      | some k =>
        cases k with
        | zero => exact ⟨.bgEnd e, rfl, _, .bgEnd hb⟩
        | succ k =>
          have := ((inv m).flow e).bg _ hb
          cases hq : ((b.state m).engs e).ntf with
          | nil => rw [hq] at this; cases this
          | cons o' rest => exact ⟨.bgVisit e, rfl, _, .bgVisit hb hq⟩
  obtain ⟨m, hm, h0⟩ := hRank
  have hnot : ¬ o ∈ ((b.state m).engs e).ntf := by
    intro hc
    unfold ntfRank at h0
    rw [if_pos hc] at h0
    cases hb : ((b.state m).engs e).bg with
    | none => rw [hb] at h0; simp at h0
    | some k => rw [hb] at h0; simp only at h0; split_ifs at h0 <;> omega
  obtain ⟨k, h1, h2, h3, h4⟩ := first_change (P := fun m => o ∈ ((b.state m).engs e).ntf) ho hm hnot
  cases ha : b.act k with
  | none => rw [b.rest k ha] at h4; exact absurd h3 h4
  | some l =>
    have hs := b.step k l ha
    by_cases hb : backgroundSteps e l
    · generalize b.state (k + 1) = s' at hs h4
      cases hs <;> try (exact hb.elim)
      case bgBegin e0 g1 g2 =>
        have : e0 = e := hb
        subst this
        rw [setEng_engs, if_pos rfl] at h4; exact absurd h3 h4
      case bgEnd e0 g1 =>
        have : e0 = e := hb
        subst this
        rw [setEng_engs, if_pos rfl] at h4; exact absurd h3 h4
      case bgVisit e0 j o' rest g1 g2 =>
        have : e0 = e := hb
        subst this
        rw [setEng_engs, if_pos rfl] at h4
        rw [g2] at h3
        rcases List.mem_cons.mp h3 with h5 | h5
        · exact hno k rest h1 ha (by rw [g2, h5])
        · exact absurd h5 h4
    · obtain ⟨⟨new, h5⟩, _⟩ := ntf_step hs e hb fun hc => nodes k h1 (by rw [ha, hc])
      exact absurd (by rw [h5]; exact List.mem_append_left _ h3) h4

/-! ## Message thread -/

theorem async_step {s s' : Sys V R} {l : Label R} (hs : Step ops build s l s') (hl : l ≠ .async) : ∃ new, s'.async = s.async ++ new := by
  cases hs
  case jobDone j h hj ha => exact ⟨_, rfl⟩
  case async => exact absurd rfl hl
  case asyncDead => exact absurd rfl hl
  all_goals exact ⟨[], (List.append_nil _).symm⟩

theorem callback_runs {b : Behaviour ops build} (hf : b.Fair fun l => l = .async) {n e : ℕ} (he : e ∈ (b.state n).async) :
    ∃ m rest, n ≤ m ∧ b.act m = some .async ∧ (b.state m).async = e :: rest := by
  have more : ∀ m, More (b.state m) := fun m => exec_more (upTo_exec b m)
  by_contra hno
  push Not at hno
  have hRank : ∃ m, n ≤ m ∧ (if e ∈ (b.state m).async then (b.state m).async.idxOf e + 1 else 0) = 0 := by
    refine rank_zero hf (fun s => if e ∈ s.async then s.async.idxOf e + 1 else 0) (n := n) ?_ ?_ ?_
    · intro m hm l ha hT hr
      have hs := b.step m l ha
      subst hT
      have hmem : e ∈ (b.state m).async := by
        by_contra hc
        exact hr (if_neg hc)
      have key : ∀ e0 rest, (b.state m).async = e0 :: rest → (b.state (m + 1)).async = rest →
          (if e ∈ (b.state (m + 1)).async then (b.state (m + 1)).async.idxOf e + 1 else 0) < if e ∈ (b.state m).async then (b.state m).async.idxOf e + 1 else 0 := by
        intro e0 rest h1 h2
        rw [if_pos hmem, h2, h1, List.idxOf_cons]
        by_cases hc : e0 = e
        · subst hc
          exact absurd h1 (hno m rest hm ha)
        · have hmr : e ∈ rest := by
            rw [h1] at hmem
            rcases List.mem_cons.mp hmem with h | h
            · exact absurd h.symm hc
            · exact h
          rw [if_pos hmr]
          have : (e0 == e) = false := by simpa using hc
          rw [this]
          simp
      generalize b.state (m + 1) = s' at hs key
      cases hs with
      | async g1 g2 => exact key _ _ g1 rfl
      | asyncDead g1 g2 => exact key _ _ g1 rfl
    · intro m hm l ha hT hr
      have hs := b.step m l ha
      have hmem : e ∈ (b.state m).async := by
        by_contra hc
        exact hr (if_neg hc)
      obtain ⟨new, h5⟩ := async_step hs hT
      rw [h5, if_pos hmem, if_pos (List.mem_append_left _ hmem), List.idxOf_append_of_mem hmem]
    · intro m hm hr
      have hmem : e ∈ (b.state m).async := by
        by_contra hc
        exact hr (if_neg hc)
      cases hq : (b.state m).async with
      | nil => rw [hq] at hmem; cases hmem
      | cons e0 rest =>
        cases hst : ((b.state m).engs e0).status with
        | unborn => exact absurd hst ((more m).asyncBorn e0 (by rw [hq]; exact List.mem_cons_self ..))
        | alive => exact ⟨.async, rfl, _, .async hq hst⟩
        | dead => exact ⟨.async, rfl, _, .asyncDead hq hst⟩
  obtain ⟨m, hm, h0⟩ := hRank
  have hnot : e ∉ (b.state m).async := fun hc => by rw [if_pos hc] at h0; cases h0
  obtain ⟨k, h1, h2, h3, h4⟩ := first_change (P := fun m => e ∈ (b.state m).async) he hm hnot
  cases ha : b.act k with
  | none => rw [b.rest k ha] at h4; exact absurd h3 h4
  | some l =>
    have hs := b.step k l ha
    by_cases hc : l = .async
    · subst hc
      generalize b.state (k + 1) = s' at hs h4
      cases hs with
      | @async e0 rest g1 g2 =>
        rw [g1] at h3
        rcases List.mem_cons.mp h3 with h5 | h5
        · exact hno k rest h1 ha (by rw [g1, h5])
        · exact absurd h5 h4
      | @asyncDead e0 rest g1 g2 =>
        rw [g1] at h3
        rcases List.mem_cons.mp h3 with h5 | h5
        · exact hno k rest h1 ha (by rw [g1, h5])
        · exact absurd h5 h4
    · obtain ⟨new, h5⟩ := async_step hs hc
      exact absurd (by rw [h5]; exact List.mem_append_left _ h3) h4

end Zones.Proofs
