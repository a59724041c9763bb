import Verif.Proofs.EngineOutputs

/-! Which loads may still be delivered; what touches an engine. -/

open Zones.Model Zones.Spec

namespace Zones.Proofs

variable {V R : Type}

set_option linter.unusedSimpArgs false
set_option linter.unusedVariables false

/-- Only loads satisfying `P` can still be delivered to engine `e`. -/
structure Only (e : ℕ) (P : ℕ → Prop) (s : Sys V R) : Prop where
  job : ∀ j ∈ s.jobs, j.eng = e → j.stop = false → j.pc ≠ .pushed → P j.id
  load : ∀ i r p, (s.engs e).loader = some (i, r, p) → P i
  next : ∀ k, s.next ≤ k → P k

theorem Only.quiet {e : ℕ} {P : ℕ → Prop} {s s' : Sys V R} (h : Only e P s) (q : Quiet s s') : Only e P s' := by
  obtain ⟨q1, q2, q3⟩ := q
  have hl : ∀ e, (s'.engs e).loader = (s.engs e).loader := fun e => (q3 e).loader
  obtain ⟨a1, a2, a3⟩ := h
  constructor <;> simp only [q1, q2, hl] <;> assumption

theorem Only.step {ops : ConvOps V} {build : R → ProcSpec → V} {s s' : Sys V R} {l : Label R} {e : ℕ} {P : ℕ → Prop} (hI : Only e P s) (h : Step ops build s l s') :
    Only e P s' ∧ ∃ new, (s'.engs e).delivered = (s.engs e).delivered ++ new ∧ ∀ d ∈ new, P d.id := by
  have h0 := h
  have quiet : Quiet s s' → Only e P s' ∧ ∃ new, (s'.engs e).delivered = (s.engs e).delivered ++ new ∧ ∀ d ∈ new, P d.id := fun q =>
    ⟨hI.quiet q, [], by rw [(q.2.2 e).delivered, List.append_nil], fun d hd => (by cases hd)⟩
  by_cases hq : Label.quiet l = true
  · exact quiet (step_quiet h hq)
  have nil : ∀ {l : List (Held V)}, ∃ new, l = l ++ new ∧ ∀ d ∈ new, P d.id := fun {l} => ⟨[], by simp, fun d hd => (by cases hd)⟩
  have keep : ∀ {x : Eng V R} {e0 : ℕ}, x.delivered = (s.engs e0).delivered →
      ∃ new, ((s.setEng e0 x).engs e).delivered = (s.engs e).delivered ++ new ∧ ∀ d ∈ new, P d.id := by
    intro x e0 hx
    have : ((s.setEng e0 x).engs e).delivered = (s.engs e).delivered := by
      rw [setEng_engs]; split_ifs with hc
      · rw [hx, hc]
      · rfl
    rw [this]; exact nil
  obtain ⟨a1, a2, a3⟩ := hI
  cases h <;> try (exact absurd rfl hq)
  case create e0 h1 => exact ⟨by sys_step, keep rfl⟩
  case loadLock e0 req h1 h2 => exact ⟨by sys_step, keep (x := { s.engs e0 with loader := some (s.next, req, .locked) }) rfl⟩
  case loadRemove e0 i req h1 => exact ⟨by sys_step, keep (x := { s.engs e0 with loader := some (i, req, .removed) }) rfl⟩
  case loadFlag e0 i req h1 h2 => exact ⟨by sys_step, keep rfl⟩
  case loadSkip e0 i req h1 h2 => exact ⟨by sys_step, keep rfl⟩
  case loadAdd e0 i req p h1 h2 => exact ⟨by sys_step, keep (x := { s.engs e0 with loader := none }) rfl⟩
  case pick j h1 =>
    have h2 := mem_of_find h1
    have h4 := @mem_setJob_iff V R s j { j with pc := .building } h2.1 rfl
    exact ⟨by sys_step, nil⟩
  case build j h1 h2 =>
    have h4 := @mem_setJob_iff V R s j { j with pc := .built (build j.req j.spec) } h1 rfl
    exact ⟨by sys_step, keep rfl⟩
  case jobLock j v h1 h2 h5 h6 =>
    have h4 := @mem_setJob_iff V R s j { j with pc := .locked v } h1 rfl
    exact ⟨by sys_step, keep rfl⟩
  case jobLockDead j v h1 h2 h5 => exact ⟨by sys_step, keep rfl⟩
  case jobStop j v h1 h2 h5 h6 =>
    have h4 := @mem_dropJob V R s
    exact ⟨by sys_step, keep rfl⟩
  case jobPush j v h1 h2 h5 h6 h7 =>
    have h4 := @mem_setJob_iff V R s j { j with pc := .pushed } h1 rfl
    refine ⟨by sys_step, ?_⟩
    by_cases hc : e = j.eng
    · refine ⟨[⟨j.id, v⟩], ?_, fun d hd => ?_⟩
      · rw [setEng_engs, if_pos hc, hc]
      · rw [List.mem_singleton] at hd
        subst hd
        exact a1 j h1 hc.symm h6 (by rw [h2]; simp)
    · rw [setEng_engs, if_neg hc]; exact nil
  case jobRefused j v h1 h2 h5 h6 h7 =>
    have h4 := @mem_setJob_iff V R s j { j with pc := .pushed } h1 rfl
    exact ⟨by sys_step, keep rfl⟩
  case jobCheckDead j v h1 h2 h5 => exact ⟨by sys_step, keep rfl⟩
  case jobDone j h1 h2 h5 =>
    have h4 := @mem_dropJob V R s
    exact ⟨by sys_step, keep (x := { s.engs j.eng with
      holder := none
      loading := false }) rfl⟩
  case jobDoneDead j h1 h2 h5 => exact ⟨by sys_step, keep rfl⟩
  case destroy e0 h1 h2 h3 h4 => exact ⟨by sys_step, keep rfl⟩

theorem Only.run {ops : ConvOps V} {build : R → ProcSpec → V} {s s' : Sys V R} {ls : List (Label R)} {e : ℕ} {P : ℕ → Prop} (hI : Only e P s) (h : Run ops build s ls s') :
    Only e P s' ∧ ∃ new, (s'.engs e).delivered = (s.engs e).delivered ++ new ∧ ∀ d ∈ new, P d.id := by
  induction h with
  | nil s => exact ⟨hI, [], by simp, fun d hd => (by cases hd)⟩
  | cons h t ih =>
    obtain ⟨h1, n1, e1, p1⟩ := hI.step h
    obtain ⟨h2, n2, e2, p2⟩ := ih h1
    refine ⟨h2, n1 ++ n2, by rw [e2, e1, List.append_assoc], fun d hd => ?_⟩
    rcases List.mem_append.mp hd with hd | hd
    · exact p1 d hd
    · exact p2 d hd


/-- Only a destroyed engine is ever accessed after its destruction. -/
theorem touched_step {ops : ConvOps V} {build : R → ProcSpec → V} {s s' : Sys V R} {l : Label R} (h : Step ops build s l s') (e : ℕ) :
    ((s'.engs e).touched = (s.engs e).touched ∧ ((s'.engs e).status ≠ .dead → (s.engs e).status ≠ .dead)) ∨ (s'.engs e).status = .dead := by
  have keep : ∀ {e0 : ℕ} {x : Eng V R}, s'.engs = Function.update s.engs e0 x → x.touched = (s.engs e0).touched →
      (x.status ≠ .dead → (s.engs e0).status ≠ .dead) →
      ((s'.engs e).touched = (s.engs e).touched ∧ ((s'.engs e).status ≠ .dead → (s.engs e).status ≠ .dead)) ∨ (s'.engs e).status = .dead := by
    intro e0 x h1 h2 h4
    left
    rw [h1, Function.update_apply]
    split_ifs with hc
    · rw [hc]; exact ⟨h2, h4⟩
    · exact ⟨rfl, id⟩
  have dead : ∀ {e0 : ℕ} {x : Eng V R}, s'.engs = Function.update s.engs e0 x → x.status = .dead →
      ((s'.engs e).touched = (s.engs e).touched ∧ ((s'.engs e).status ≠ .dead → (s.engs e).status ≠ .dead)) ∨ (s'.engs e).status = .dead := by
    intro e0 x h1 h2
    rw [h1, Function.update_apply]
    split_ifs with hc
    · exact Or.inr h2
    · exact Or.inl ⟨rfl, id⟩
  cases h
  case pick j h1 => exact Or.inl ⟨rfl, id⟩
  case visit e0 n k d g rest h1 h2 =>
    rw [visit_eq] at keep ⊢
    exact keep (by rfl) (by rfl) (by exact fun h => h)
  case body e0 k d r h1 h2 =>
    rw [finish_eq] at keep ⊢
    exact keep (by rfl) (by rfl) (by exact fun h => h)
  case create e0 h1 => exact keep (by rfl) (by rfl) (fun _ => by rw [h1]; simp)
  case destroy e0 h1 h2 h3 h4 => exact dead (by rfl) (by rfl)
  case jobLockDead j v h1 h2 h5 => exact dead (by rfl) (by exact h5)
  case jobCheckDead j v h1 h2 h5 => exact dead (by rfl) (by exact h5)
  case jobDoneDead j h1 h2 h5 => exact dead (by rfl) (by exact h5)
  case asyncDead e0 rest h1 h2 => exact dead (by rfl) (by exact h2)
  all_goals exact keep (by rfl) (by rfl) (by exact fun h => h)

theorem exec_untouched {ops : ConvOps V} {build : R → ProcSpec → V} {ls : List (Label R)} {s : Sys V R} (h : Exec ops build ls s) :
    ∀ e, (s.engs e).status ≠ .dead → (s.engs e).touched = false := by
  refine exec_induct (P := fun _ s => ∀ e, (s.engs e).status ≠ .dead → (s.engs e).touched = false) (fun e _ => rfl) ?_ h
  intro ls s l s' _ ih hs e hd
  rcases touched_step hs e with ⟨h1, h2⟩ | h1
  · rw [h1]; exact ih e (h2 hd)
  · exact absurd h1 hd

/-- How many more steps the current audio-side call may take. -/
def APc.left : APc V → ℕ
  | .idle => 0
  | .entered _ => 402
  | .serving _ _ n => n + 2
  | .served _ _ => 1

/-- Steps of the audio side use up what is left, others leave it alone. -/
theorem left_step {ops : ConvOps V} {build : R → ProcSpec → V} {s s' : Sys V R} {l : Label R} (hF : ∀ e, Flow ops (s.engs e)) (h : Step ops build s l s')
    (e : ℕ) : (APc.left (s'.engs e).pc = APc.left (s.engs e).pc ∧ ¬ audioSteps e l) ∨ APc.left (s'.engs e).pc < APc.left (s.engs e).pc ∨ ∃ k, l = .call e k := by
  have keep : ∀ {e0 : ℕ} {x : Eng V R}, s'.engs = Function.update s.engs e0 x → x.pc = (s.engs e0).pc → APc.left (s'.engs e).pc = APc.left (s.engs e).pc := by
    intro e0 x h1 h2
    rw [h1, Function.update_apply]
    split_ifs with hc
    · rw [hc, h2]
    · rfl
  have upd : ∀ {e0 : ℕ} {x : Eng V R}, s'.engs = Function.update s.engs e0 x → APc.left x.pc < APc.left (s.engs e0).pc → (e ≠ e0 → ¬ audioSteps e l) →
      (APc.left (s'.engs e).pc = APc.left (s.engs e).pc ∧ ¬ audioSteps e l) ∨ APc.left (s'.engs e).pc < APc.left (s.engs e).pc ∨ ∃ k, l = .call e k := by
    intro e0 x h1 h2 h3
    rw [h1, Function.update_apply]
    split_ifs with hc
    · rw [hc]; exact Or.inr (Or.inl h2)
    · exact Or.inl ⟨rfl, h3 hc⟩
  cases h
  case pick j h1 => exact Or.inl ⟨rfl, fun h => h⟩
  case call e0 k h1 h2 =>
    by_cases hc : e = e0
    · subst hc; exact Or.inr (Or.inr ⟨k, rfl⟩)
    · left
      rw [setEng_engs, if_neg hc]
      exact ⟨rfl, fun h => h⟩
  case service e0 k h1 =>
    refine upd (by rfl) ?_ (fun h h' => h h'.symm)
    rw [h1]
    have := (hF e0).cmdFits
    unfold queueRoom at this
    show (s.engs e0).cmd.length + 2 < 402
    omega
  case visit e0 n k d g rest h1 h2 =>
    rw [visit_eq] at upd ⊢
    refine upd (by rfl) ?_ (fun h h' => h h'.symm)
    rw [h1]
    show n + 2 < n + 1 + 2
    omega
  case serviced e0 k d h1 =>
    refine upd (by rfl) ?_ (fun h h' => h h'.symm)
    rw [h1]
    show 1 < 0 + 2
    omega
  case body e0 k d r h1 h2 =>
    rw [finish_eq] at upd ⊢
    refine upd (by rfl) ?_ (fun h h' => h h'.symm)
    rw [h1]
    show 0 < 1
    omega
  all_goals exact Or.inl ⟨keep (by rfl) (by rfl), fun h => h⟩

/-- A call of `LoadIR` that has announced the load keeps the lock until it adds the job. -/
theorem flagged_step {ops : ConvOps V} {build : R → ProcSpec → V} {s s' : Sys V R} {l : Label R} (hF : ∀ e, Flow ops (s.engs e)) (h : Step ops build s l s') {e i : ℕ} {req : R}
    (hl : (s.engs e).loader = some (i, req, .flagged)) (hw : l ≠ .loadAdd e) :
    (s'.engs e).loader = some (i, req, .flagged) ∧ ∀ r, l ≠ .loadLock e r := by
  by_cases hq : Label.quiet l = true
  · obtain ⟨_, _, q3⟩ := step_quiet h hq
    refine ⟨by rw [(q3 e).loader]; exact hl, fun r hr => ?_⟩
    subst hr; cases hq
  have other : ∀ {e0 : ℕ} {x : Eng V R}, s'.engs = Function.update s.engs e0 x → (e = e0 → x.loader = (s.engs e0).loader) → (∀ r, l ≠ .loadLock e r) →
      (s'.engs e).loader = some (i, req, .flagged) ∧ ∀ r, l ≠ .loadLock e r := by
    intro e0 x h1 h2 h3
    refine ⟨?_, h3⟩
    rw [h1, Function.update_apply]
    split_ifs with hc
    · rw [h2 hc, ← hc]; exact hl
    · exact hl
  have contra : ∀ {e0 i' : ℕ} {r' : R} {p : LPc}, (s.engs e0).loader = some (i', r', p) → p ≠ .flagged → e = e0 → False := by
    intro e0 i' r' p h1 h2 h3
    rw [← h3, hl] at h1
    simp only [Option.some.injEq, Prod.mk.injEq] at h1
    exact h2 h1.2.2.symm
  cases h <;> try (exact absurd rfl hq)
  case create e0 h1 => exact other (by rfl) (fun _ => by rfl) (fun r h => by cases h)
  case loadLock e0 r h1 h2 =>
    have hne : e ≠ e0 := fun hc => by
      rw [← hc] at h2
      rw [h2.1] at hl; cases hl
    exact other (by rfl) (fun h => absurd h hne) (fun r h => by cases h; exact hne rfl)
  case loadRemove e0 i' r h1 => exact other (by rfl) (fun h => (contra h1 (by simp) h).elim) (fun r h => by cases h)
  case loadFlag e0 i' r h1 h2 => exact other (by rfl) (fun h => (contra h1 (by simp) h).elim) (fun r h => by cases h)
  case loadSkip e0 i' r h1 h2 => exact other (by rfl) (fun h => (contra h1 (by simp) h).elim) (fun r h => by cases h)
  case loadAdd e0 i' r p h1 h2 => exact other (by rfl) (fun h => absurd (by rw [h]) hw) (fun r h => by cases h)
  case pick j h1 => exact ⟨hl, fun r h => by cases h⟩
  all_goals exact other (by rfl) (fun _ => by rfl) (fun r h => by cases h)

/-- What waits in the queue of an engine in a call stays there, unless its own thread takes it. -/
theorem waiting_step {ops : ConvOps V} {build : R → ProcSpec → V} {s s' : Sys V R} {l : Label R} (h : Step ops build s l s') {e : ℕ} (ha : ¬ audioSteps e l)
    (hc : ∀ k, l ≠ .call e k) : (s'.engs e).pc = (s.engs e).pc ∧ (s'.engs e).hist = (s.engs e).hist ∧
      ((s.engs e).pc ≠ .idle → (s.engs e).cmd <+: (s'.engs e).cmd) := by
  have upd : ∀ {e0 : ℕ} {x : Eng V R}, s'.engs = Function.update s.engs e0 x →
      (e = e0 → x.pc = (s.engs e0).pc ∧ x.hist = (s.engs e0).hist ∧ ((s.engs e0).pc ≠ .idle → (s.engs e0).cmd <+: x.cmd)) →
      (s'.engs e).pc = (s.engs e).pc ∧ (s'.engs e).hist = (s.engs e).hist ∧ ((s.engs e).pc ≠ .idle → (s.engs e).cmd <+: (s'.engs e).cmd) := by
    intro e0 x h1 h2
    rw [h1, Function.update_apply]
    split_ifs with hc
    · rw [hc]; exact h2 hc
    · exact ⟨rfl, rfl, fun _ => List.prefix_rfl⟩
  cases h
  case pick j h1 => exact ⟨rfl, rfl, fun _ => List.prefix_rfl⟩
  case call e0 k h1 h2 => exact upd (by rfl) fun h => absurd (by rw [h]) (hc k)
  case service e0 k h1 => exact upd (by rfl) fun h => absurd h.symm ha
  case visit e0 n k d g rest h1 h2 => exact upd (by rfl) fun h => absurd h.symm ha
  case serviced e0 k d h1 => exact upd (by rfl) fun h => absurd h.symm ha
  case body e0 k d r h1 h2 => exact upd (by rfl) fun h => absurd h.symm ha
  case jobPush j v h1 h2 h5 h6 h7 => exact upd (by rfl) fun _ => ⟨by rfl, by rfl, fun _ => List.prefix_append ..⟩
  case destroy e0 h1 h2 h3 h4 => exact upd (by rfl) fun _ => ⟨by rfl, by rfl, fun h => absurd h2 h⟩
  all_goals exact upd (by rfl) fun _ => ⟨by rfl, by rfl, fun _ => by exact List.prefix_rfl⟩

/-- A call `k` of engine `e`, which had completed the calls `H` and found `q` waiting, has found or will find all of `q`. -/
def Finding (H : List (List (Held V) × Call)) (q : List (Held V)) (k : Call) (x : Eng V R) : Prop :=
  match x.pc with
  | .idle => ∃ found, x.hist = H ++ [(found, k)] ∧ q <+: found
  | .entered k' => k' = k ∧ x.hist = H ∧ q <+: x.cmd
  | .serving k' d n => k' = k ∧ x.hist = H ∧ q <+: d ++ x.cmd ∧ q.length ≤ d.length + n
  | .served k' d => k' = k ∧ x.hist = H ∧ q <+: d

theorem Finding.step {ops : ConvOps V} {build : R → ProcSpec → V} {s s' : Sys V R} {l : Label R} (h : Step ops build s l s') {e : ℕ}
    {H : List (List (Held V) × Call)} {q : List (Held V)} {k : Call} (hc : ∀ k, l ≠ .call e k) (hF : Finding H q k (s.engs e)) :
    Finding H q k (s'.engs e) := by
  by_cases ha : audioSteps e l
  · cases h <;> try (exact absurd ha id)
    case service e0 k' h1 =>
      have ha : e0 = e := ha
      subst ha
      rw [setEng_engs, if_pos rfl]
      unfold Finding at hF ⊢
      rw [h1] at hF
      obtain ⟨h2, h3, h4⟩ := hF
      exact ⟨h2, h3, by simpa using h4, by simpa using h4.length_le⟩
    case visit e0 n k' d g rest h1 h2 =>
      have ha : e0 = e := ha
      subst ha
      rw [setEng_engs, if_pos rfl, visit_eq]
      unfold Finding at hF ⊢
      rw [h1] at hF
      obtain ⟨h3, h4, h5, h6⟩ := hF
      refine ⟨h3, h4, ?_, ?_⟩
      · rw [h2] at h5
        simpa using h5
      · rw [List.length_append, List.length_singleton]; omega
    case serviced e0 k' d h1 =>
      have ha : e0 = e := ha
      subst ha
      rw [setEng_engs, if_pos rfl]
      unfold Finding at hF ⊢
      rw [h1] at hF
      obtain ⟨h3, h4, h5, h6⟩ := hF
      exact ⟨h3, h4, List.prefix_of_prefix_length_le h5 (List.prefix_append ..) h6⟩
    case body e0 k' d r h1 h2 =>
      have ha : e0 = e := ha
      subst ha
      rw [setEng_engs, if_pos rfl, finish_eq]
      unfold Finding at hF ⊢
      rw [h1] at hF
      obtain ⟨h3, h4, h5⟩ := hF
      exact ⟨d, by rw [h4, h3], h5⟩
  · obtain ⟨h1, h2, h3⟩ := waiting_step h ha hc
    unfold Finding at hF ⊢
    rw [h1, h2]
    cases hp : (s.engs e).pc with
    | idle => rw [hp] at hF; exact hF
    | entered k' =>
      rw [hp] at hF
      exact ⟨hF.1, hF.2.1, hF.2.2.trans (h3 (by rw [hp]; simp))⟩
    | serving k' d n =>
      rw [hp] at hF
      exact ⟨hF.1, hF.2.1, hF.2.2.1.trans (List.prefix_append_right_inj d |>.mpr (h3 (by rw [hp]; simp))), hF.2.2.2⟩
    | served k' d => rw [hp] at hF; exact hF

end Zones.Proofs
