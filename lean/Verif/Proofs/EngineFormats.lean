import Verif.Spec.EngineFormats
import Verif.Proofs.EngineTrace

/-!
# Convolvers are made for the format in force when the job is handed over
-/

open Zones.Spec Zones.Model

namespace Zones.Proofs

variable {V R : Type}

theorem handedOver_more {e i : ℕ} {req : R} {p : ProcSpec} {ls : List (Label R)} (h : HandedOver e i req p ls) (ms : List (Label R)) : HandedOver e i req p (ls ++ ms) := by
  obtain ⟨a, b, rfl, h1, h2⟩ := h
  exact ⟨a, b ++ ms, by simp, h1, h2⟩

structure Sourced (build : R → ProcSpec → V) (ls : List (Label R)) (s : Sys V R) : Prop where
  load : ∀ e i r p, (s.engs e).loader = some (i, r, p) → LatestLoad e i r ls
  job : ∀ j ∈ s.jobs, HandedOver j.eng j.id j.req j.spec ls
  built : ∀ j ∈ s.jobs, ∀ v, j.pc = .built v → v = build j.req j.spec
  locked : ∀ j ∈ s.jobs, ∀ v, j.pc = .locked v → v = build j.req j.spec
  got : ∀ e, ∀ d ∈ (s.engs e).delivered, ∃ r p, HandedOver e d.id r p ls ∧ d.obj = build r p

theorem Sourced.more {build : R → ProcSpec → V} {ls : List (Label R)} {s : Sys V R} (h : Sourced build ls s) (l : Label R) (hl : loadsIn [l] = []) :
    Sourced build (ls ++ [l]) s := by
  have e1 : loadsIn (ls ++ [l]) = loadsIn ls := by rw [loadsIn_append, hl, List.append_nil]
  obtain ⟨h1, h2, h3, h4, h5⟩ := h
  refine ⟨fun e i r p hp => ?_, fun j hj => handedOver_more (h2 j hj) _, h3, h4, fun e d hd => ?_⟩
  · have := h1 e i r p hp
    unfold LatestLoad at this ⊢
    rw [e1]
    exact this
  · obtain ⟨r, p, a, b⟩ := h5 e d hd
    exact ⟨r, p, handedOver_more a _, b⟩

theorem Sourced.quiet {build : R → ProcSpec → V} {ls : List (Label R)} {s s' : Sys V R} (h : Sourced build ls s) (q : Quiet s s') : Sourced build ls s' := by
  obtain ⟨q1, q2, q3⟩ := q
  have hl : ∀ e, (s'.engs e).loader = (s.engs e).loader := fun e => (q3 e).loader
  have hd : ∀ e, (s'.engs e).delivered = (s.engs e).delivered := fun e => (q3 e).delivered
  obtain ⟨h1, h2, h3, h4, h5⟩ := h
  constructor <;> simp only [q1, hl, hd] <;> assumption

theorem Sourced.step {ops : ConvOps V} {build : R → ProcSpec → V} {s s' : Sys V R} {l : Label R} {ls : List (Label R)} (hT : ∀ e, Traced e ls (s.engs e))
    (hn : s.next = (loadsIn ls).length) (hI : Sourced build ls s) (h : Step ops build s l s') : Sourced build (ls ++ [l]) s' := by
  have h0 := h
  cases h <;> try (exact (hI.more _ (loadsIn_quiet rfl)).quiet (step_quiet h0 rfl))
  case create e h1 =>
    obtain ⟨a1, a2, a3, a4, a5⟩ := hI.more (.create e) rfl
    sys_step
  case loadLock e req h1 h2 =>
    have e1 : loadsIn (ls ++ [.loadLock e req]) = loadsIn ls ++ [(e, req)] := loadsIn_append _ _
    obtain ⟨a1, a2, a3, a4, a5⟩ := hI
    refine ⟨fun e' i r p hp => ?_, fun j hj => handedOver_more (a2 j hj) _, a3, a4, fun e' d hd => ?_⟩
    · unfold LatestLoad
      rw [e1]
      simp only [setEng_engs] at hp
      split at hp
      next hc =>
        subst hc
        simp only [Option.some.injEq, Prod.mk.injEq] at hp
        obtain ⟨rfl, rfl, rfl⟩ := hp
        rw [hn]
        refine ⟨by simp, fun j x hj hx => ?_⟩
        rw [List.getElem?_eq_none (by simp; omega)] at hx
        cases hx
      next hc =>
        obtain ⟨b1, b2⟩ := a1 e' i r p hp
        refine ⟨?_, fun j x hj hx => ?_⟩
        · rw [List.getElem?_append_left]
          · exact b1
          · exact (List.getElem?_eq_some_iff.mp b1).1
        · rcases Nat.lt_trichotomy j (loadsIn ls).length with h | h | h
          · rw [List.getElem?_append_left h] at hx
            exact b2 j x hj hx
          · subst h
            simp at hx
            rw [← hx]
            exact fun h => hc h.symm
          · rw [List.getElem?_eq_none (by simp; omega)] at hx
            cases hx
    · have hd' : d ∈ (s.engs e').delivered := by
        simp only [setEng_engs] at hd
        split at hd
        next hc => subst hc; exact hd
        next => exact hd
      obtain ⟨r, p, a, b⟩ := a5 e' d hd'
      exact ⟨r, p, handedOver_more a _, b⟩
  case loadRemove e i req h1 =>
    obtain ⟨a1, a2, a3, a4, a5⟩ := hI.more (.loadRemove e) rfl
    sys_step
  case loadFlag e i req h1 h2 =>
    obtain ⟨a1, a2, a3, a4, a5⟩ := hI.more (.loadFlag e) rfl
    sys_step
  case loadSkip e i req h1 h2 =>
    obtain ⟨a1, a2, a3, a4, a5⟩ := hI.more (.loadFlag e) rfl
    sys_step
  case loadAdd e i req p h1 h2 =>
    have hp : HandedOver e i req p (ls ++ [.loadAdd e]) := by
      refine ⟨ls, [], rfl, hI.load e i req _ h1, ?_⟩
      by_cases hd : (s.engs e).status = .dead
      · have := (hT e).dead hd
        rw [h2] at this; cases this
      · have := (hT e).spec hd
        rw [h2] at this
        exact this.symm
    obtain ⟨a1, a2, a3, a4, a5⟩ := hI.more (.loadAdd e) rfl
    sys_step
  case pick j h1 =>
    have h2 := mem_of_find h1
    have h4 := @mem_setJob V R s { j with pc := .building }
    obtain ⟨a1, a2, a3, a4, a5⟩ := hI.more .pick rfl
    sys_step
  case build j h1 h2 =>
    have h4 := @mem_setJob V R s { j with pc := .built (build j.req j.spec) }
    obtain ⟨a1, a2, a3, a4, a5⟩ := hI.more (.build j.id) rfl
    sys_step
  case jobLock j v h1 h2 h5 h6 =>
    have h4 := @mem_setJob V R s { j with pc := .locked v }
    obtain ⟨a1, a2, a3, a4, a5⟩ := hI.more (.jobLock j.id) rfl
    sys_step
  case jobLockDead j v h1 h2 h5 =>
    exact (hI.more (.jobLock j.id) rfl).quiet (quiet_set ⟨rfl, rfl, rfl, rfl, rfl⟩)
  case jobStop j v h1 h2 h5 h6 =>
    have h4 := @mem_dropJob V R s
    obtain ⟨a1, a2, a3, a4, a5⟩ := hI.more (.jobCheck j.id) rfl
    sys_step
  case jobPush j v h1 h2 h5 h6 h7 =>
    have h4 := @mem_setJob V R s { j with pc := .pushed }
    obtain ⟨a1, a2, a3, a4, a5⟩ := hI.more (.jobCheck j.id) rfl
    sys_step
  case jobRefused j v h1 h2 h5 h6 h7 =>
    have h4 := @mem_setJob V R s { j with pc := .pushed }
    obtain ⟨a1, a2, a3, a4, a5⟩ := hI.more (.jobCheck j.id) rfl
    sys_step
  case jobCheckDead j v h1 h2 h5 =>
    exact (hI.more (.jobCheck j.id) rfl).quiet (quiet_set ⟨rfl, rfl, rfl, rfl, rfl⟩)
  case jobDone j h1 h2 h5 =>
    have h4 := @mem_dropJob V R s
    obtain ⟨a1, a2, a3, a4, a5⟩ := hI.more (.jobDone j.id) rfl
    sys_step
  case jobDoneDead j h1 h2 h5 =>
    exact (hI.more (.jobDone j.id) rfl).quiet (quiet_set ⟨rfl, rfl, rfl, rfl, rfl⟩)
  case destroy e h1 h2 h3 h4 =>
    obtain ⟨a1, a2, a3, a4, a5⟩ := hI.more (.destroy e) rfl
    sys_step

theorem exec_sourced {ops : ConvOps V} {build : R → ProcSpec → V} {s : Sys V R} {ls : List (Label R)} (h : Exec ops build ls s) : Sourced build ls s := by
  refine exec_induct (P := fun ls s => Sourced build ls s) ⟨nofun, nofun, nofun, nofun, nofun⟩ (fun ls s l s' hx ih hs => ?_) h
  have hk := exec_known hx
  exact ih.step hk.traced hk.origins.next hs

/-! ## Once -/

theorem handedOver_snoc {e i : ℕ} {req : R} {p : ProcSpec} {ls : List (Label R)} {l : Label R} (h : HandedOver e i req p (ls ++ [l])) :
    HandedOver e i req p ls ∨ l = .loadAdd e ∧ LatestLoad e i req ls ∧ (formatsIn e ls).getLast? = some p := by
  obtain ⟨a, b, h1, h2, h3⟩ := h
  rcases List.eq_nil_or_concat b with rfl | ⟨b, x, rfl⟩
  · obtain ⟨rfl, h4⟩ := List.append_inj' h1 rfl
    right
    simp only [List.cons.injEq, and_true] at h4
    exact ⟨h4, h2, h3⟩
  · left
    rw [List.concat_eq_append, ← List.cons_append, ← List.append_assoc] at h1
    obtain ⟨rfl, -⟩ := List.append_inj' h1 rfl
    exact ⟨a, b, rfl, h2, h3⟩

theorem handedOver_lt {e i : ℕ} {req : R} {p : ProcSpec} {ls : List (Label R)} (h : HandedOver e i req p ls) : (loadsIn ls)[i]? = some (e, req) := by
  obtain ⟨a, b, rfl, h2, h3⟩ := h
  rw [loadsIn_append, List.getElem?_append_left]
  · exact h2.1
  · exact (List.getElem?_eq_some_iff.mp h2.1).1

theorem handedOver_format {e i : ℕ} {req : R} {p : ProcSpec} {ls : List (Label R)} (h : HandedOver e i req p ls) : p ∈ formatsIn e ls := by
  obtain ⟨a, b, rfl, h2, h3⟩ := h
  rw [formatsIn_append]
  exact List.mem_append_left _ (List.mem_of_getLast? h3)

theorem latest_unique {e i i' : ℕ} {r r' : R} {ls : List (Label R)} (h : LatestLoad e i r ls) (h' : LatestLoad e i' r' ls) : i = i' := by
  rcases Nat.lt_trichotomy i i' with g | g | g
  · exact absurd rfl (h.2 _ _ g h'.1)
  · exact g
  · exact absurd rfl (h'.2 _ _ g h.1)

/-- The load that is being carried out comes from the state before, or begins. -/
theorem loader_step {ops : ConvOps V} {build : R → ProcSpec → V} {s s' : Sys V R} {l : Label R} (h : Step ops build s l s') {e i : ℕ} {r : R} {p : LPc}
    (hl : (s'.engs e).loader = some (i, r, p)) : ((∃ r' p', (s.engs e).loader = some (i, r', p')) ∧ l ≠ .loadAdd e) ∨ i = s.next ∧ ∀ e', l ≠ .loadAdd e' := by
  cases h <;> simp only [setEng_engs, setJob_engs, dropJob_engs, visit_eq, finish_eq] at hl <;> (try split at hl) <;> grind

theorem loadAdd_loader {ops : ConvOps V} {build : R → ProcSpec → V} {s s' : Sys V R} {e : ℕ} (h : Step ops build s (.loadAdd e) s') : ∃ i r p, (s.engs e).loader = some (i, r, p) := by
  cases h
  case loadAdd h _ => exact ⟨_, _, _, h⟩

theorem exec_once {ops : ConvOps V} {build : R → ProcSpec → V} {s : Sys V R} {ls : List (Label R)} (h : Exec ops build ls s) :
    (∀ e i r p, (s.engs e).loader = some (i, r, p) → ∀ r' p', ¬ HandedOver e i r' p' ls) ∧
      ∀ e i r p r' p', HandedOver e i r p ls → HandedOver e i r' p' ls → r = r' ∧ p = p' := by
  refine exec_induct (P := fun ls s => (∀ e i r p, (s.engs e).loader = some (i, r, p) → ∀ r' p', ¬ HandedOver e i r' p' ls) ∧
      ∀ e i r p r' p', HandedOver e i r p ls → HandedOver e i r' p' ls → r = r' ∧ p = p') ⟨nofun, ?_⟩ (fun ls s l s' hx ih hs => ⟨?_, ?_⟩) h
  · rintro e i r p r' p' ⟨a, b, h, -⟩
    simp at h
  · intro e i r p hl r' p' hh
    rcases loader_step hs hl with ⟨⟨r1, p1, h1⟩, h2⟩ | ⟨h1, h2⟩
    · rcases handedOver_snoc hh with h3 | ⟨h3, -⟩
      · exact ih.1 e i r1 p1 h1 r' p' h3
      · exact h2 h3
    · rcases handedOver_snoc hh with h3 | ⟨h3, -⟩
      · have := (List.getElem?_eq_some_iff.mp (handedOver_lt h3)).1
        rw [h1, (exec_known hx).origins.next] at this
        omega
      · exact h2 _ h3
  · intro e i r p r' p' h1 h2
    have old : ∀ {r r' : R} {p p' : ProcSpec}, HandedOver e i r p ls → l = .loadAdd e → LatestLoad e i r' ls → False := by
      intro r r' p p' g1 g2 g3
      subst g2
      obtain ⟨j, q, u, hj⟩ := loadAdd_loader hs
      have := latest_unique ((exec_sourced hx).load e j q u hj) g3
      subst this
      exact ih.1 e j q u hj r p g1
    rcases handedOver_snoc h1 with g | ⟨g, g', g''⟩
    · rcases handedOver_snoc h2 with k | ⟨k, k', k''⟩
      · exact ih.2 _ _ _ _ _ _ g k
      · exact (old (p' := p) g k k').elim
    · rcases handedOver_snoc h2 with k | ⟨k, k', k''⟩
      · exact (old (p' := p) k g g').elim
      · have e1 := g'.1.symm.trans k'.1
        have e2 := g''.symm.trans k''
        simp only [Option.some.injEq, Prod.mk.injEq, true_and] at e1 e2
        exact ⟨e1, e2⟩

end Zones.Proofs
