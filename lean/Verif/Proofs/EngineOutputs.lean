import Verif.Proofs.EngineRecord

/-! The blocks an engine of the concurrent system leaves behind are those of a sequential history. -/

open Zones.Model Zones.Spec

namespace Zones.Proofs

variable {V R : Type}

theorem perform_calls (ops : ConvOps V) : ∀ (hist : List (List (Held V) × Call)) (c : Core V), (perform ops c hist).map Prod.fst = c.calls ops hist
  | [], c => rfl
  | b :: bs, c => by
    unfold perform Core.calls
    cases h : c.call ops b.1 b.2 with
    | none => rfl
    | some r =>
      simp only [Option.bind_some, Option.map_map]
      rw [← perform_calls ops bs r.1]
      rfl

theorem perform_append (ops : ConvOps V) (ys : List (List (Held V) × Call)) : ∀ (xs : List (List (Held V) × Call)) (c : Core V),
    perform ops c (xs ++ ys) = (perform ops c xs).bind fun q => (perform ops q.1 ys).map fun q' => (q'.1, q.2 ++ q'.2)
  | [], c => by
    show perform ops c ys = _
    cases h : perform ops c ys <;> simp [perform, h]
  | b :: bs, c => by
    rw [List.cons_append, perform, perform]
    cases h : c.call ops b.1 b.2 with
    | none => rfl
    | some r =>
      simp only [Option.bind_some]
      rw [perform_append ops ys bs r.1]
      cases perform ops r.1 bs with
      | none => rfl
      | some q =>
        simp only [Option.bind_some, Option.map_some]
        cases perform ops q.1 ys with
        | none => rfl
        | some q' => simp

/-- Playing is performing `process` calls. -/
theorem perform_play (ops : ConvOps V) : ∀ (bs : List (List (Held V) × Buf)) (c : Core V),
    perform ops c (bs.map fun b => (b.1, Call.process b.2)) = c.play ops bs
  | [], c => rfl
  | b :: bs, c => by
    rw [List.map_cons, perform, Core.play]
    cases h : c.call ops b.1 (.process b.2) with
    | none => rfl
    | some r =>
      simp only [Option.bind_some]
      rw [perform_play ops bs r.1]

/-- What a step does to the record of calls and outputs. -/
theorem outs_step {ops : ConvOps V} {build : R → ProcSpec → V} {s s' : Sys V R} {l : Label R} (h : Step ops build s l s') (e : ℕ) :
    ((s'.engs e).hist = (s.engs e).hist ∧ (s'.engs e).outs = (s.engs e).outs ∧ ((s'.engs e).status ≠ .dead → (s.engs e).status ≠ .dead)) ∨
    ∃ k d r, (s.engs e).pc = .served k d ∧ (s.engs e).core.callBody ops k = some r ∧ (s'.engs e).status = (s.engs e).status ∧
      (s'.engs e).hist = (s.engs e).hist ++ [(d, k)] ∧ (s'.engs e).outs = (s.engs e).outs ++ r.2.out.toList := by
  have keep : ∀ {e0 : ℕ} {x : Eng V R}, s'.engs = Function.update s.engs e0 x → x.hist = (s.engs e0).hist → x.outs = (s.engs e0).outs →
      (x.status ≠ .dead → (s.engs e0).status ≠ .dead) →
      ((s'.engs e).hist = (s.engs e).hist ∧ (s'.engs e).outs = (s.engs e).outs ∧ ((s'.engs e).status ≠ .dead → (s.engs e).status ≠ .dead)) := by
    intro e0 x h1 h2 h3 h4
    rw [h1, Function.update_apply]
    split_ifs with hc
    · rw [hc]; exact ⟨h2, h3, h4⟩
    · exact ⟨rfl, rfl, id⟩
  cases h
  case body e0 k d r h1 h2 =>
    by_cases hc : e = e0
    · right
      subst hc
      refine ⟨k, d, r, h1, h2, ?_⟩
      rw [finish_eq, setEng_engs, if_pos rfl]
      exact ⟨rfl, rfl, rfl⟩
    · left
      rw [setEng_engs, if_neg hc]
      exact ⟨rfl, rfl, id⟩
  case pick j h1 => exact Or.inl ⟨rfl, rfl, id⟩
  case visit e0 n k d g rest h1 h2 =>
    rw [visit_eq] at keep ⊢
    exact Or.inl (keep (by rfl) (by rfl) (by rfl) (by exact fun h => h))
  case create e0 h1 => exact Or.inl (keep (by rfl) (by rfl) (by rfl) (fun _ => by rw [h1]; simp))
  case destroy e0 h1 h2 h3 h4 => exact Or.inl (keep (by rfl) (by rfl) (by rfl) (fun _ => by rw [h1]; simp))
  all_goals exact Or.inl (keep (by rfl) (by rfl) (by rfl) (by exact fun h => h))

theorem exec_outs {ops : ConvOps V} {build : R → ProcSpec → V} {ls : List (Label R)} {s : Sys V R} (h : Exec ops build ls s) :
    ∀ e, (s.engs e).status ≠ .dead → ∃ c0, perform ops {} (s.engs e).hist = some (c0, (s.engs e).outs) := by
  refine exec_induct (P := fun _ s => ∀ e, (s.engs e).status ≠ .dead → ∃ c0, perform ops {} (s.engs e).hist = some (c0, (s.engs e).outs))
    (fun e _ => ⟨{}, rfl⟩) ?_ h
  intro ls s l s' hx ih hs e hd
  rcases outs_step hs e with ⟨h1, h2, h3⟩ | ⟨k, d, r, h1, h2, h3, h4, h5⟩
  · rw [h1, h2]; exact ih e (h3 hd)
  · rw [h3] at hd
    obtain ⟨c0, hc⟩ := ih e hd
    obtain ⟨c1, g1, g2⟩ := ((exec_inv hx).flow e).refines hd
    rw [h1] at g2
    have : c1 = c0 := by
      have := perform_calls ops (s.engs e).hist {}
      rw [hc, g1] at this
      simpa using this.symm
    subst this
    rw [h4, h5, perform_append, hc]
    have hcall : c1.call ops d k = some r := by
      unfold Core.call
      rw [← show (s.engs e).core = _ from g2]
      exact h2
    refine ⟨r.1, ?_⟩
    simp [perform, hcall]

end Zones.Proofs
