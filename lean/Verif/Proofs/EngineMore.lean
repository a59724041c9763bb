import Verif.Proofs.EngineWhere

/-! Further invariants of the concurrent system. -/

open Zones.Model Zones.Spec

namespace Zones.Proofs

variable {V R : Type}

set_option linter.unusedSimpArgs false
set_option linter.unusedVariables false

/-- The members of an engine in which a step may differ without touching the invariants below. -/
structure SameMore (x y : Eng V R) : Prop where
  status : y.status = x.status
  loader : y.loader = x.loader
  spec : x.core.spec ≠ none → y.core.spec ≠ none
  empty : x.status = .dead → x.holding = [] → y.holding = []

/-- An engine holds nothing. -/
structure More (s : Sys V R) : Prop where
  flagged : ∀ e i r, (s.engs e).loader = some (i, r, .flagged) → (s.engs e).core.spec ≠ none
  asyncBorn : ∀ e ∈ s.async, (s.engs e).status ≠ .unborn
  deadEmpty : ∀ e, (s.engs e).status = .dead → (s.engs e).holding = []
  pushed : ∀ j ∈ s.jobs, j.pc = .pushed → ∀ i ∈ s.jobs, i.eng = j.eng → i.id ≠ j.id → i.stop = true

theorem More.same {s : Sys V R} (h : More s) {e0 : ℕ} {x : Eng V R} (hx : SameMore (s.engs e0) x) : More (s.setEng e0 x) := by
  obtain ⟨a1, a2, a3, a4⟩ := h
  obtain ⟨b1, b2, b3, b4⟩ := hx
  sys_step

theorem spec_callHead {c : Core V} {k : Call} (h : c.spec ≠ none) : (c.callHead k).spec ≠ none := by
  cases k with
  | prepare p g => intro h; cases h
  | process b => exact h
  | reset => exact h
  | clear => exact h

theorem More.step {ops : ConvOps V} {build : R → ProcSpec → V} {s s' : Sys V R} {l : Label R} (hV : Inv ops s)
    (hI : More s) (h : Step ops build s l s') : More s' := by
  have hsame := @same_job V R s hV.ids.nodup
  have hborn := hV.locks.born
  have hnoload := hV.order.noload
  have hsingle := hV.order.single
  have hexcl := hV.locks.excl
  have hjhold := hV.locks.jhold
  obtain ⟨a1, a2, a3, a4⟩ := hI
  cases h
  case create e h1 =>
    have : Eng.holding { s.engs e with status := .alive } = (s.engs e).holding := rfl
    sys_step
  case loadLock e req h1 h2 =>
    have : Eng.holding { s.engs e with loader := some (s.next, req, .locked) } = (s.engs e).holding := rfl
    sys_step
  case loadRemove e i req h1 =>
    have : Eng.holding { s.engs e with loader := some (i, req, .removed) } = (s.engs e).holding := rfl
    sys_step
  case loadFlag e i req h1 h2 =>
    have : Eng.holding { s.engs e with
        loader := some (i, req, .flagged)
        loading := true
        notified := (s.engs e).notified ++ [true] } = (s.engs e).holding := rfl
    sys_step
  case loadSkip e i req h1 h2 =>
    have : Eng.holding { s.engs e with loader := (none : Option (ℕ × R × LPc)) } = (s.engs e).holding := rfl
    sys_step
  case loadAdd e i req p h1 h2 =>
    have : Eng.holding { s.engs e with loader := (none : Option (ℕ × R × LPc)) } = (s.engs e).holding := rfl
    sys_step
  case pick j h1 =>
    have h2 := mem_of_find h1
    have h4 := @mem_setJob_iff V R s j { j with pc := .building } h2.1 rfl
    sys_step
  case build j h1 h2 =>
    have h4 := @mem_setJob_iff V R s j { j with pc := .built (build j.req j.spec) } h1 rfl
    have : Eng.holding { s.engs j.eng with made := (s.engs j.eng).made ++ [j.id] } = (s.engs j.eng).holding := rfl
    sys_step
  case jobLock j v h1 h2 h5 h6 =>
    have h4 := @mem_setJob_iff V R s j { j with pc := .locked v } h1 rfl
    have : Eng.holding { s.engs j.eng with holder := some j.id } = (s.engs j.eng).holding := rfl
    sys_step
  case jobLockDead j v h1 h2 h5 =>
    exact More.same ⟨a1, a2, a3, a4⟩ ⟨rfl, rfl, id, fun _ => id⟩
  case jobStop j v h1 h2 h5 h6 =>
    have h4 := @mem_dropJob V R s
    have : Eng.holding { s.engs j.eng with
          holder := none
          freed := (s.engs j.eng).freed ++ [(j.id, .worker)] } = (s.engs j.eng).holding := rfl
    sys_step
  case jobPush j v h1 h2 h5 h6 h7 =>
    have h4 := @mem_setJob_iff V R s j { j with pc := .pushed } h1 rfl
    sys_step
  case jobRefused j v h1 h2 h5 h6 h7 =>
    have h4 := @mem_setJob_iff V R s j { j with pc := .pushed } h1 rfl
    sys_step
  case jobCheckDead j v h1 h2 h5 =>
    exact More.same ⟨a1, a2, a3, a4⟩ ⟨rfl, rfl, id, fun _ => id⟩
  case jobDone j h1 h2 h5 =>
    have h4 := @mem_dropJob V R s
    sys_step
  case jobDoneDead j h1 h2 h5 =>
    exact More.same ⟨a1, a2, a3, a4⟩ ⟨rfl, rfl, id, fun _ => id⟩
  case call e k h1 h2 =>
    exact More.same ⟨a1, a2, a3, a4⟩ ⟨rfl, rfl, spec_callHead, fun h => by rw [h1] at h; cases h⟩
  case service e k h1 => exact More.same ⟨a1, a2, a3, a4⟩ ⟨rfl, rfl, id, fun _ => id⟩
  case visit e n k d g rest h1 h2 =>
    have ha := (hV.flow e).alive (by rw [h1]; simp)
    rw [visit_eq]
    refine More.same ⟨a1, a2, a3, a4⟩ ⟨rfl, rfl, fun h => ?_, fun h => by rw [ha] at h; cases h⟩
    show ((s.engs e).core.handle ops g).1.spec ≠ none
    rw [(settings_handle _ _).spec]; exact h
  case serviced e k d h1 => exact More.same ⟨a1, a2, a3, a4⟩ ⟨rfl, rfl, id, fun _ => id⟩
  case body e k d r h1 h2 =>
    have ha := (hV.flow e).alive (by rw [h1]; simp)
    rw [finish_eq]
    refine More.same ⟨a1, a2, a3, a4⟩ ⟨rfl, rfl, fun h => ?_, fun h => by rw [ha] at h; cases h⟩
    show r.1.spec ≠ none
    rw [(callBody_slots h2).2]; exact h
  case bgBegin e h1 h2 => exact More.same ⟨a1, a2, a3, a4⟩ ⟨rfl, rfl, id, fun _ => id⟩
  case bgVisit e n o rest h1 h2 =>
    have ha := (hV.flow e).bgAlive (by rw [h1]; simp)
    exact More.same ⟨a1, a2, a3, a4⟩ ⟨rfl, rfl, id, fun h => by rw [ha] at h; cases h⟩
  case bgEnd e h1 => exact More.same ⟨a1, a2, a3, a4⟩ ⟨rfl, rfl, id, fun _ => id⟩
  case async e rest h1 h2 =>
    obtain ⟨b1, b2, b3, b4⟩ : More (s.setEng e { s.engs e with notified := (s.engs e).notified ++ [(s.engs e).loading] }) :=
      More.same ⟨a1, a2, a3, a4⟩ ⟨rfl, rfl, id, fun _ => id⟩
    refine ⟨b1, fun e' he' => b2 e' ?_, b3, b4⟩
    show e' ∈ s.async
    rw [h1]; exact List.mem_cons_of_mem _ he'
  case asyncDead e rest h1 h2 =>
    obtain ⟨b1, b2, b3, b4⟩ : More (s.setEng e { s.engs e with touched := true }) :=
      More.same ⟨a1, a2, a3, a4⟩ ⟨rfl, rfl, id, fun _ => id⟩
    refine ⟨b1, fun e' he' => b2 e' ?_, b3, b4⟩
    show e' ∈ s.async
    rw [h1]; exact List.mem_cons_of_mem _ he'
  case destroy e h1 h2 h3 h4 =>
    have : Eng.holding { s.engs e with
          status := .dead
          core := {}
          cmd := []
          ntf := []
          freed := (s.engs e).freed ++ (s.engs e).holding.map fun h => (h.id, .destructor) } = [] := rfl
    sys_step

theorem exec_more {ops : ConvOps V} {build : R → ProcSpec → V} {ls : List (Label R)} {s : Sys V R} (h : Exec ops build ls s) : More s := by
  have : Inv ops s ∧ More s := by
    refine run_induct (P := fun s => Inv ops s ∧ More s) (fun s l s' hi hs => ⟨hi.1.step hs, hi.2.step hi.1 hs⟩) h ⟨Inv.start ops, ?_⟩
    exact ⟨fun e i r h => (by cases h), fun e h => (by cases h), fun e h => rfl, fun j h => (by cases h)⟩
  exact this.2

/-! ## Which loads may still be delivered -/

/-- Only loads from number `n` on can still be delivered to engine `e`. -/
structure After (e n : ℕ) (s : Sys V R) : Prop where
  job : ∀ j ∈ s.jobs, j.eng = e → j.stop = false → j.pc ≠ .pushed → n ≤ j.id
  load : ∀ i r p, (s.engs e).loader = some (i, r, p) → n ≤ i
  next : n ≤ s.next

theorem After.quiet {e n : ℕ} {s s' : Sys V R} (h : After e n s) (q : Quiet s s') : After e n s' := by
  obtain ⟨q1, q2, q3⟩ := q
  have hl : ∀ e, (s'.engs e).loader = (s.engs e).loader := fun e => (q3 e).loader
  obtain ⟨a1, a2, a3⟩ := h
  constructor <;> simp only [q1, q2, hl] <;> assumption

theorem After.step {ops : ConvOps V} {build : R → ProcSpec → V} {s s' : Sys V R} {l : Label R} {e n : ℕ} (hI : After e n s) (h : Step ops build s l s') :
    After e n s' ∧ ∃ new, (s'.engs e).delivered = (s.engs e).delivered ++ new ∧ ∀ d ∈ new, n ≤ d.id := by
  have h0 := h
  have quiet : Quiet s s' → After e n s' ∧ ∃ new, (s'.engs e).delivered = (s.engs e).delivered ++ new ∧ ∀ d ∈ new, n ≤ d.id := fun q =>
    ⟨hI.quiet q, [], by rw [(q.2.2 e).delivered, List.append_nil], fun d hd => (by cases hd)⟩
  by_cases hq : Label.quiet l = true
  · exact quiet (step_quiet h hq)
  have nil : ∀ {l : List (Held V)}, ∃ new, l = l ++ new ∧ ∀ d ∈ new, n ≤ d.id := fun {l} => ⟨[], by simp, fun d hd => (by cases hd)⟩
  have keep : ∀ {x : Eng V R} {e0 : ℕ}, x.delivered = (s.engs e0).delivered →
      ∃ new, ((s.setEng e0 x).engs e).delivered = (s.engs e).delivered ++ new ∧ ∀ d ∈ new, n ≤ d.id := by
    intro x e0 hx
    have : ((s.setEng e0 x).engs e).delivered = (s.engs e).delivered := by
      rw [setEng_engs]; split_ifs with hc
      · rw [hx, hc]
      · rfl
    rw [this]; exact nil
  obtain ⟨a1, a2, a3⟩ := hI
  cases h <;> try (exact absurd rfl hq)
  case create e0 h1 => exact ⟨by sys_step, keep rfl⟩
  case loadLock e0 req h1 h2 => exact ⟨by sys_step, keep (x := { s.engs e0 with loader := some (s.next, req, .locked) }) rfl⟩
  case loadRemove e0 i req h1 => exact ⟨by sys_step, keep (x := { s.engs e0 with loader := some (i, req, .removed) }) rfl⟩
  case loadFlag e0 i req h1 h2 => exact ⟨by sys_step, keep rfl⟩
  case loadSkip e0 i req h1 h2 => exact ⟨by sys_step, keep rfl⟩
  case loadAdd e0 i req p h1 h2 => exact ⟨by sys_step, keep (x := { s.engs e0 with loader := none }) rfl⟩
  case pick j h1 =>
    have h2 := mem_of_find h1
    have h4 := @mem_setJob_iff V R s j { j with pc := .building } h2.1 rfl
    exact ⟨by sys_step, nil⟩
  case build j h1 h2 =>
    have h4 := @mem_setJob_iff V R s j { j with pc := .built (build j.req j.spec) } h1 rfl
    exact ⟨by sys_step, keep rfl⟩
  case jobLock j v h1 h2 h5 h6 =>
    have h4 := @mem_setJob_iff V R s j { j with pc := .locked v } h1 rfl
    exact ⟨by sys_step, keep rfl⟩
  case jobLockDead j v h1 h2 h5 => exact ⟨by sys_step, keep rfl⟩
  case jobStop j v h1 h2 h5 h6 =>
    have h4 := @mem_dropJob V R s
    exact ⟨by sys_step, keep rfl⟩
  case jobPush j v h1 h2 h5 h6 h7 =>
    have h4 := @mem_setJob_iff V R s j { j with pc := .pushed } h1 rfl
    refine ⟨by sys_step, ?_⟩
    by_cases hc : e = j.eng
    · refine ⟨[⟨j.id, v⟩], ?_, fun d hd => ?_⟩
      · rw [setEng_engs, if_pos hc, hc]
      · rw [List.mem_singleton] at hd
        subst hd
        exact a1 j h1 hc.symm h6 (by rw [h2]; simp)
    · rw [setEng_engs, if_neg hc]; exact nil
  case jobRefused j v h1 h2 h5 h6 h7 =>
    have h4 := @mem_setJob_iff V R s j { j with pc := .pushed } h1 rfl
    exact ⟨by sys_step, keep rfl⟩
  case jobCheckDead j v h1 h2 h5 => exact ⟨by sys_step, keep rfl⟩
  case jobDone j h1 h2 h5 =>
    have h4 := @mem_dropJob V R s
    exact ⟨by sys_step, keep (x := { s.engs j.eng with
      holder := none
      loading := false }) rfl⟩
  case jobDoneDead j h1 h2 h5 => exact ⟨by sys_step, keep rfl⟩
  case destroy e0 h1 h2 h3 h4 => exact ⟨by sys_step, keep rfl⟩

theorem After.run {ops : ConvOps V} {build : R → ProcSpec → V} {s s' : Sys V R} {ls : List (Label R)} {e n : ℕ} (hI : After e n s) (h : Run ops build s ls s') :
    After e n s' ∧ ∃ new, (s'.engs e).delivered = (s.engs e).delivered ++ new ∧ ∀ d ∈ new, n ≤ d.id := by
  induction h with
  | nil s => exact ⟨hI, [], by simp, fun d hd => (by cases hd)⟩
  | cons h t ih =>
    obtain ⟨h1, n1, e1, p1⟩ := hI.step h
    obtain ⟨h2, n2, e2, p2⟩ := ih h1
    refine ⟨h2, n1 ++ n2, by rw [e2, e1, List.append_assoc], fun d hd => ?_⟩
    rcases List.mem_append.mp hd with hd | hd
    · exact p1 d hd
    · exact p2 d hd

/-! ## The newest load -/

/-- The call of `LoadIR` in progress is the newest load of its engine. -/
theorem loader_newest {ops : ConvOps V} {build : R → ProcSpec → V} {ls : List (Label R)} {s : Sys V R} (h : Exec ops build ls s) :
    ∀ e i r p, (s.engs e).loader = some (i, r, p) → ∀ k q, (loadsIn ls)[k]? = some (e, q) → k ≤ i := by
  refine exec_induct (P := fun ls s => ∀ e i r p, (s.engs e).loader = some (i, r, p) → ∀ k q, (loadsIn ls)[k]? = some (e, q) → k ≤ i)
    (fun e i r p h => (by cases h)) ?_ h
  intro ls s l s' he hp hs
  have hn := (exec_known he).origins.next
  have h0 := hs
  by_cases hq : Label.quiet l = true
  · obtain ⟨_, _, q⟩ := step_quiet hs hq
    intro e i r p hl k x hk
    rw [loadsIn_append, loadsIn_quiet hq, List.append_nil] at hk
    exact hp e i r p (by rw [← (q e).loader]; exact hl) k x hk
  have app : loadsIn [l] = [] → loadsIn (ls ++ [l]) = loadsIn ls := fun h => by rw [loadsIn_append, h, List.append_nil]
  cases hs <;> try (exact absurd rfl hq)
  case loadLock e0 req h1 h2 =>
    have e1 : loadsIn (ls ++ [.loadLock e0 req]) = loadsIn ls ++ [(e0, req)] := loadsIn_append _ _
    intro e i r p hl k x hk
    rw [e1] at hk
    have hk' := (List.getElem?_eq_some_iff.mp hk).1
    simp only [List.length_append, List.length_singleton] at hk'
    simp only [setEng_engs] at hl
    by_cases hc : e = e0
    · rw [if_pos hc] at hl
      simp only [Option.some.injEq, Prod.mk.injEq] at hl
      omega
    · rw [if_neg hc] at hl
      by_cases hlt : k < (loadsIn ls).length
      · rw [List.getElem?_append_left hlt] at hk
        exact hp e i r p hl k x hk
      · have : k = (loadsIn ls).length := by omega
        subst this
        rw [List.getElem?_append_right le_rfl] at hk
        simp at hk
        exact absurd hk.1.symm hc
  all_goals
    intro e i r p hl k x hk
    rw [app rfl] at hk
    simp only [setEng_engs, setJob_engs, dropJob_engs] at hl
    grind

end Zones.Proofs
