import Verif.Proofs.EngineOrigins

/-! How the state of the system relates to the steps that led to it. -/

open Zones.Model Zones.Spec

namespace Zones.Proofs

variable {V R : Type}

set_option linter.unusedSimpArgs false
set_option linter.unusedVariables false

theorem loadsIn_append (a b : List (Label R)) : loadsIn (a ++ b) = loadsIn a ++ loadsIn b := List.filterMap_append

theorem callsIn_append (e : ℕ) (a b : List (Label R)) : callsIn e (a ++ b) = callsIn e a ++ callsIn e b := List.filterMap_append

theorem formatsIn_append (e : ℕ) (a b : List (Label R)) : formatsIn e (a ++ b) = formatsIn e a ++ formatsIn e b := by
  unfold formatsIn
  rw [callsIn_append, List.filterMap_append]

/-! ## Calls and formats -/

structure Traced (e : ℕ) (ls : List (Label R)) (x : Eng V R) : Prop where
  calls : x.hist.map Prod.snd ++ (APc.calling x.pc).toList = callsIn e ls
  spec : x.status ≠ .dead → x.core.spec = (formatsIn e ls).getLast?
  dead : x.status = .dead → x.core.spec = none
  unborn : x.status = .unborn → x.pc = .idle ∧ x.hist = []

structure SameCalls (x y : Eng V R) : Prop where
  hist : y.hist = x.hist
  calling : APc.calling y.pc = APc.calling x.pc
  spec : y.core.spec = x.core.spec
  status : y.status = x.status

theorem SameCalls.refl (x : Eng V R) : SameCalls x x := ⟨rfl, rfl, rfl, rfl⟩

theorem Traced.same {e : ℕ} {ls : List (Label R)} {x y : Eng V R} (h : Traced e ls x) (k : SameCalls x y) (hu : y.status = .unborn → y.pc = .idle) : Traced e ls y :=
  ⟨by rw [k.hist, k.calling]; exact h.1, fun hs => by rw [k.spec]; exact h.2 (by rw [← k.status]; exact hs),
    fun hs => by rw [k.spec]; exact h.3 (by rw [← k.status]; exact hs),
    fun hs => ⟨hu hs, by rw [k.hist]; exact (h.4 (by rw [← k.status]; exact hs)).2⟩⟩

theorem traced_set {s : Sys V R} {ls : List (Label R)} {l : Label R} (hI : ∀ e, Traced e ls (s.engs e)) (hl : ∀ e, callsIn e [l] = []) {e0 : ℕ} {x : Eng V R}
    (hx : Traced e0 ls (s.engs e0) → Traced e0 ls x) : ∀ e, Traced e (ls ++ [l]) ((s.setEng e0 x).engs e) := by
  intro e
  have key : ∀ y : Eng V R, Traced e ls y → Traced e (ls ++ [l]) y := by
    intro y hy
    have e1 : callsIn e (ls ++ [l]) = callsIn e ls := by rw [callsIn_append, hl, List.append_nil]
    have e2 : formatsIn e (ls ++ [l]) = formatsIn e ls := by unfold formatsIn; rw [e1]
    exact ⟨by rw [e1]; exact hy.1, by rw [e2]; exact hy.2, hy.3, hy.4⟩
  apply key
  rw [setEng_engs]
  split_ifs with hc
  · subst hc; exact hx (hI e)
  · exact hI e

theorem traced_plain {s : Sys V R} {ls : List (Label R)} {l : Label R} (hI : ∀ e, Traced e ls (s.engs e)) (hl : ∀ e, callsIn e [l] = []) {e0 : ℕ} {x : Eng V R}
    (hx : SameCalls (s.engs e0) x) (hpc : x.pc = (s.engs e0).pc) : ∀ e, Traced e (ls ++ [l]) ((s.setEng e0 x).engs e) :=
  traced_set hI hl fun h => h.same hx fun hs => by rw [hpc]; exact (h.4 (by rw [← hx.status]; exact hs)).1

theorem Traced.step {ops : ConvOps V} {build : R → ProcSpec → V} {s s' : Sys V R} {l : Label R} {ls : List (Label R)} (hF : ∀ e, Flow ops (s.engs e))
    (hI : ∀ e, Traced e ls (s.engs e)) (h : Step ops build s l s') : ∀ e, Traced e (ls ++ [l]) (s'.engs e) := by
  cases h
  case create e h1 =>
    exact traced_set hI (fun _ => rfl) fun h => ⟨h.1, fun _ => h.2 (by rw [h1]; simp), fun hs => (by cases hs), fun hs => (by cases hs)⟩
  case loadLock e req h1 h2 => exact traced_plain hI (fun _ => rfl) (x := { s.engs e with loader := some (s.next, req, .locked) }) ⟨rfl, rfl, rfl, rfl⟩ rfl
  case loadRemove e i req h1 => exact traced_plain hI (fun _ => rfl) (x := { s.engs e with loader := some (i, req, .removed) }) ⟨rfl, rfl, rfl, rfl⟩ rfl
  case loadFlag e i req h1 h2 => exact traced_plain hI (fun _ => rfl) ⟨rfl, rfl, rfl, rfl⟩ rfl
  case loadSkip e i req h1 h2 => exact traced_plain hI (fun _ => rfl) ⟨rfl, rfl, rfl, rfl⟩ rfl
  case loadAdd e i req p h1 h2 => exact traced_plain hI (fun _ => rfl) (x := { s.engs e with loader := none }) ⟨rfl, rfl, rfl, rfl⟩ rfl
  case pick j h1 =>
    have := traced_plain (s := s) (l := (.pick : Label R)) hI (fun _ => rfl) (e0 := 0) (x := s.engs 0) (.refl _) rfl
    intro e
    have h := this e
    rw [setEng_engs] at h
    split_ifs at h with hc
    · subst hc; exact h
    · exact h
  case build j h1 h2 => exact traced_plain (s := s) hI (fun _ => rfl) (e0 := j.eng) ⟨rfl, rfl, rfl, rfl⟩ rfl
  case jobLock j v h1 h2 h5 h6 => exact traced_plain (s := s) hI (fun _ => rfl) (e0 := j.eng) ⟨rfl, rfl, rfl, rfl⟩ rfl
  case jobLockDead j v h1 h2 h5 => exact traced_plain (s := s) hI (fun _ => rfl) (e0 := j.eng) ⟨rfl, rfl, rfl, rfl⟩ rfl
  case jobStop j v h1 h2 h5 h6 => exact traced_plain (s := s) hI (fun _ => rfl) (e0 := j.eng) ⟨rfl, rfl, rfl, rfl⟩ rfl
  case jobPush j v h1 h2 h5 h6 h7 => exact traced_plain (s := s) hI (fun _ => rfl) (e0 := j.eng) ⟨rfl, rfl, rfl, rfl⟩ rfl
  case jobRefused j v h1 h2 h5 h6 h7 => exact traced_plain (s := s) hI (fun _ => rfl) (e0 := j.eng) ⟨rfl, rfl, rfl, rfl⟩ rfl
  case jobCheckDead j v h1 h2 h5 => exact traced_plain (s := s) hI (fun _ => rfl) (e0 := j.eng) ⟨rfl, rfl, rfl, rfl⟩ rfl
  case jobDone j h1 h2 h5 =>
    exact traced_plain (s := s) hI (fun _ => rfl) (e0 := j.eng) (x := { s.engs j.eng with
      holder := none
      loading := false }) ⟨rfl, rfl, rfl, rfl⟩ rfl
  case jobDoneDead j h1 h2 h5 => exact traced_plain (s := s) hI (fun _ => rfl) (e0 := j.eng) ⟨rfl, rfl, rfl, rfl⟩ rfl
  case call e k h1 h2 =>
    intro e'
    rw [setEng_engs]
    by_cases hc : e' = e
    · rw [if_pos hc]
      subst hc
      have hc1 : callsIn e' [(.call e' k : Label R)] = [k] := by simp [callsIn]
      have h := hI e'
      refine ⟨?_, fun _ => ?_, fun hd => ?_, fun hu => ?_⟩
      · rw [callsIn_append, hc1, ← h.1, h2]
        simp [APc.calling]
      · have hs := h.2 (by rw [h1]; simp)
        rw [formatsIn_append]
        cases k with
        | prepare p g =>
          have hf : formatsIn e' [(.call e' (.prepare p g) : Label R)] = [p] := by unfold formatsIn; rw [hc1]; rfl
          rw [hf, List.getLast?_concat]; rfl
        | process b =>
          have hf : formatsIn e' [(.call e' (.process b) : Label R)] = [] := by unfold formatsIn; rw [hc1]; rfl
          rw [hf, List.append_nil]; exact hs
        | reset =>
          have hf : formatsIn e' [(.call e' .reset : Label R)] = [] := by unfold formatsIn; rw [hc1]; rfl
          rw [hf, List.append_nil]; exact hs
        | clear =>
          have hf : formatsIn e' [(.call e' .clear : Label R)] = [] := by unfold formatsIn; rw [hc1]; rfl
          rw [hf, List.append_nil]; exact hs
      · have hd : (s.engs e').status = .dead := hd
        rw [h1] at hd; cases hd
      · have hd : (s.engs e').status = .unborn := hu
        rw [h1] at hd; cases hd
    · rw [if_neg hc]
      have hc1 : callsIn e' [(.call e k : Label R)] = [] := by simp [callsIn, Ne.symm hc]
      have h := hI e'
      refine ⟨?_, fun hd => ?_, h.3, h.4⟩
      · rw [callsIn_append, hc1, List.append_nil]; exact h.1
      · have : formatsIn e' (ls ++ [.call e k]) = formatsIn e' ls := by unfold formatsIn; rw [callsIn_append, hc1, List.append_nil]
        rw [this]; exact h.2 hd
  case service e k h1 =>
    have ha := (hF e).alive (by rw [h1]; simp)
    exact traced_set hI (fun _ => rfl) fun h => h.same ⟨rfl, by rw [h1]; rfl, rfl, rfl⟩ fun hu => by
      have hu : (s.engs e).status = .unborn := hu
      rw [ha] at hu; cases hu
  case visit e n k d g rest h1 h2 =>
    have ha := (hF e).alive (by rw [h1]; simp)
    rw [visit_eq]
    refine traced_set hI (fun _ => rfl) fun h => h.same ⟨rfl, by rw [h1]; rfl, (settings_handle _ _).spec, rfl⟩ fun hu => ?_
    have hu : (s.engs e).status = .unborn := hu
    rw [ha] at hu; cases hu
  case serviced e k d h1 =>
    have ha := (hF e).alive (by rw [h1]; simp)
    exact traced_set hI (fun _ => rfl) fun h => h.same ⟨rfl, by rw [h1]; rfl, rfl, rfl⟩ fun hu => by
      have hu : (s.engs e).status = .unborn := hu
      rw [ha] at hu; cases hu
  case body e k d r h1 h2 =>
    have ha := (hF e).alive (by rw [h1]; simp)
    rw [finish_eq]
    refine traced_set hI (fun _ => rfl) fun h => ⟨?_, fun hd => ?_, fun hd => ?_, fun hd => ?_⟩
    · rw [← h.1, h1]
      simp [APc.calling]
    · rw [← h.2 (by rw [ha]; simp)]
      exact (callBody_slots h2).2
    · have hd : (s.engs e).status = .dead := hd
      rw [ha] at hd; cases hd
    · have hd : (s.engs e).status = .unborn := hd
      rw [ha] at hd; cases hd
  case bgBegin e h1 h2 => exact traced_plain hI (fun _ => rfl) ⟨rfl, rfl, rfl, rfl⟩ rfl
  case bgVisit e n o rest h1 h2 => exact traced_plain hI (fun _ => rfl) ⟨rfl, rfl, rfl, rfl⟩ rfl
  case bgEnd e h1 => exact traced_plain hI (fun _ => rfl) ⟨rfl, rfl, rfl, rfl⟩ rfl
  case async e rest h1 h2 =>
    exact traced_plain hI (fun _ => rfl) (x := { s.engs e with notified := (s.engs e).notified ++ [(s.engs e).loading] }) ⟨rfl, rfl, rfl, rfl⟩ rfl
  case asyncDead e rest h1 h2 => exact traced_plain hI (fun _ => rfl) (x := { s.engs e with touched := true }) ⟨rfl, rfl, rfl, rfl⟩ rfl
  case destroy e h1 h2 h3 h4 =>
    exact traced_set hI (fun _ => rfl) fun h => ⟨h.1, fun hd => absurd rfl hd, fun _ => rfl, fun hd => (by cases hd)⟩

/-! ## Requests -/

structure Origins (build : R → ProcSpec → V) (ls : List (Label R)) (s : Sys V R) : Prop where
  next : s.next = (loadsIn ls).length
  load : ∀ e i r p, (s.engs e).loader = some (i, r, p) → (loadsIn ls)[i]? = some (e, r)
  job : ∀ j ∈ s.jobs, (loadsIn ls)[j.id]? = some (j.eng, j.req)
  format : ∀ j ∈ s.jobs, j.spec ∈ formatsIn j.eng ls
  built : ∀ j ∈ s.jobs, ∀ v, j.pc = .built v → v = build j.req j.spec
  locked : ∀ j ∈ s.jobs, ∀ v, j.pc = .locked v → v = build j.req j.spec
  got : ∀ e, ∀ d ∈ (s.engs e).delivered, ∃ r p, (loadsIn ls)[d.id]? = some (e, r) ∧ p ∈ formatsIn e ls ∧ d.obj = build r p

theorem Origins.more {build : R → ProcSpec → V} {ls : List (Label R)} {s : Sys V R} (h : Origins build ls s) (l : Label R) (hl : loadsIn [l] = []) :
    Origins build (ls ++ [l]) s := by
  have e1 : loadsIn (ls ++ [l]) = loadsIn ls := by rw [loadsIn_append, hl, List.append_nil]
  have e2 : ∀ e p, p ∈ formatsIn e ls → p ∈ formatsIn e (ls ++ [l]) := fun e p hp => by rw [formatsIn_append]; exact List.mem_append_left _ hp
  obtain ⟨h1, h2, h3, h4, h5, h6, h7⟩ := h
  constructor <;> (try rw [e1]) <;> grind

theorem Origins.quiet {build : R → ProcSpec → V} {ls : List (Label R)} {s s' : Sys V R} (h : Origins build ls s) (q : Quiet s s') : Origins build ls s' := by
  obtain ⟨q1, q2, q3⟩ := q
  have hl : ∀ e, (s'.engs e).loader = (s.engs e).loader := fun e => (q3 e).loader
  have hd : ∀ e, (s'.engs e).delivered = (s.engs e).delivered := fun e => (q3 e).delivered
  obtain ⟨h1, h2, h3, h4, h5, h6, h7⟩ := h
  constructor <;> simp only [q1, q2, hl, hd] <;> assumption

theorem loadsIn_quiet {l : Label R} (h : Label.quiet l = true) : loadsIn [l] = [] := by
  cases l <;> first | rfl | cases h

theorem Origins.step {ops : ConvOps V} {build : R → ProcSpec → V} {s s' : Sys V R} {l : Label R} {ls : List (Label R)} (hT : ∀ e, Traced e ls (s.engs e))
    (hI : Origins build ls s) (h : Step ops build s l s') : Origins build (ls ++ [l]) s' := by
  have h0 := h
  cases h <;> try (exact (hI.more _ (loadsIn_quiet rfl)).quiet (step_quiet h0 rfl))
  case create e h1 =>
    obtain ⟨a1, a2, a3, a4, a5, a6, a7⟩ := hI.more (.create e) rfl
    sys_step
  case loadLock e req h1 h2 =>
    have e1 : loadsIn (ls ++ [.loadLock e req]) = loadsIn ls ++ [(e, req)] := loadsIn_append _ _
    have e2 : ∀ e', formatsIn e' (ls ++ [.loadLock e req]) = formatsIn e' ls := fun e' => by rw [formatsIn_append]; exact List.append_nil _
    have e3 : ∀ i x, (loadsIn ls)[i]? = some x → (loadsIn ls ++ [(e, req)])[i]? = some x := fun i x hx => by
      rw [List.getElem?_append_left]
      · exact hx
      · exact (List.getElem?_eq_some_iff.mp hx).1
    have e4 : (loadsIn ls ++ [(e, req)])[(loadsIn ls).length]? = some (e, req) := by simp
    obtain ⟨a1, a2, a3, a4, a5, a6, a7⟩ := hI
    constructor <;> (try simp only [setEng_engs, setEng_jobs, setEng_next, e1, e2]) <;> grind
  case loadRemove e i req h1 =>
    obtain ⟨a1, a2, a3, a4, a5, a6, a7⟩ := hI.more (.loadRemove e) rfl
    sys_step
  case loadFlag e i req h1 h2 =>
    obtain ⟨a1, a2, a3, a4, a5, a6, a7⟩ := hI.more (.loadFlag e) rfl
    sys_step
  case loadSkip e i req h1 h2 =>
    obtain ⟨a1, a2, a3, a4, a5, a6, a7⟩ := hI.more (.loadFlag e) rfl
    sys_step
  case loadAdd e i req p h1 h2 =>
    have hp : p ∈ formatsIn e (ls ++ [.loadAdd e]) := by
      rw [formatsIn_append]
      refine List.mem_append_left _ ?_
      by_cases hd : (s.engs e).status = .dead
      · have := (hT e).dead hd
        rw [h2] at this; cases this
      · have := (hT e).spec hd
        rw [h2] at this
        exact List.mem_of_getLast? this.symm
    obtain ⟨a1, a2, a3, a4, a5, a6, a7⟩ := hI.more (.loadAdd e) rfl
    sys_step
  case pick j h1 =>
    have h2 := mem_of_find h1
    have h4 := @mem_setJob V R s { j with pc := .building }
    obtain ⟨a1, a2, a3, a4, a5, a6, a7⟩ := hI.more .pick rfl
    sys_step
  case build j h1 h2 =>
    have h4 := @mem_setJob V R s { j with pc := .built (build j.req j.spec) }
    obtain ⟨a1, a2, a3, a4, a5, a6, a7⟩ := hI.more (.build j.id) rfl
    sys_step
  case jobLock j v h1 h2 h5 h6 =>
    have h4 := @mem_setJob V R s { j with pc := .locked v }
    obtain ⟨a1, a2, a3, a4, a5, a6, a7⟩ := hI.more (.jobLock j.id) rfl
    sys_step
  case jobLockDead j v h1 h2 h5 =>
    exact (hI.more (.jobLock j.id) rfl).quiet (quiet_set ⟨rfl, rfl, rfl, rfl, rfl⟩)
  case jobStop j v h1 h2 h5 h6 =>
    have h4 := @mem_dropJob V R s
    obtain ⟨a1, a2, a3, a4, a5, a6, a7⟩ := hI.more (.jobCheck j.id) rfl
    sys_step
  case jobPush j v h1 h2 h5 h6 h7 =>
    have h4 := @mem_setJob V R s { j with pc := .pushed }
    obtain ⟨a1, a2, a3, a4, a5, a6, a7⟩ := hI.more (.jobCheck j.id) rfl
    sys_step
  case jobRefused j v h1 h2 h5 h6 h7 =>
    have h4 := @mem_setJob V R s { j with pc := .pushed }
    obtain ⟨a1, a2, a3, a4, a5, a6, a7⟩ := hI.more (.jobCheck j.id) rfl
    sys_step
  case jobCheckDead j v h1 h2 h5 =>
    exact (hI.more (.jobCheck j.id) rfl).quiet (quiet_set ⟨rfl, rfl, rfl, rfl, rfl⟩)
  case jobDone j h1 h2 h5 =>
    have h4 := @mem_dropJob V R s
    obtain ⟨a1, a2, a3, a4, a5, a6, a7⟩ := hI.more (.jobDone j.id) rfl
    sys_step
  case jobDoneDead j h1 h2 h5 =>
    exact (hI.more (.jobDone j.id) rfl).quiet (quiet_set ⟨rfl, rfl, rfl, rfl, rfl⟩)
  case destroy e h1 h2 h3 h4 =>
    obtain ⟨a1, a2, a3, a4, a5, a6, a7⟩ := hI.more (.destroy e) rfl
    sys_step

/-! ## No response before the first `prepare` -/

/-- Batches before the first `prepare` are empty. -/
def Early : List (List (Held V) × Call) → Prop
  | [] => True
  | (b, k) :: rest => (∃ p g, k = .prepare p g) ∨ b = [] ∧ Early rest

theorem Early.snoc : ∀ (hist : List (List (Held V) × Call)) (b : List (Held V)) (k : Call), Early hist →
    (b = [] ∨ ∃ p g, .prepare p g ∈ hist.map Prod.snd ++ [k]) → Early (hist ++ [(b, k)])
  | [], b, k, _, h => by
    rcases h with h | ⟨p, g, h⟩
    · exact Or.inr ⟨h, trivial⟩
    · simp at h; exact Or.inl ⟨p, g, h.symm⟩
  | (b', k') :: rest, b, k, h, h' => by
    rcases h with h | ⟨h1, h2⟩
    · exact Or.inl h
    · by_cases hk : ∃ p g, k' = .prepare p g
      · exact Or.inl hk
      · refine Or.inr ⟨h1, Early.snoc rest b k h2 ?_⟩
        rcases h' with h' | ⟨p, g, h'⟩
        · exact Or.inl h'
        · simp only [List.map_cons, List.cons_append, List.mem_cons] at h'
          rcases h' with h' | h'
          · exact absurd ⟨p, g, h'.symm⟩ hk
          · exact Or.inr ⟨p, g, h'⟩

theorem formats_prepare {e : ℕ} {ls : List (Label R)} {p : ProcSpec} (h : p ∈ formatsIn e ls) : ∃ g, Call.prepare p g ∈ callsIn e ls := by
  unfold formatsIn at h
  rw [List.mem_filterMap] at h
  obtain ⟨k, hk, e⟩ := h
  cases k with
  | prepare q g => simp only [Option.some.injEq] at e; subst e; exact ⟨g, hk⟩
  | process b => cases e
  | reset => cases e
  | clear => cases e

theorem early_step {ops : ConvOps V} {build : R → ProcSpec → V} {s s' : Sys V R} {l : Label R} {ls : List (Label R)} (hF : ∀ e, Flow ops (s.engs e))
    (hT : ∀ e, Traced e ls (s.engs e)) (hO : Origins build ls s)
    (hI : ∀ e, Early (s.engs e).hist) (h : Step ops build s l s') : ∀ e, Early (s'.engs e).hist := by
  have plain : ∀ (e : ℕ) (x : Eng V R), x.hist = (s.engs e).hist → ∀ e', Early ((s.setEng e x).engs e').hist := by
    intro e x hx e'
    rw [setEng_engs]
    split_ifs
    · rw [hx]; exact hI e
    · exact hI e'
  cases h
  case body e k d r h1 h2 =>
    intro e'
    rw [setEng_engs]
    split_ifs with hc
    · subst hc
      rw [finish_eq]
      refine Early.snoc _ _ _ (hI e') ?_
      cases hd : d with
      | nil => exact Or.inl rfl
      | cons g ds =>
        right
        have ha := (hF e').alive (by rw [h1]; simp)
        have hf := (hF e').flow (by rw [ha]; simp)
        have hg : g ∈ (s.engs e').delivered := by
          rw [← hf, h1, hd]
          simp [APc.visited]
        obtain ⟨r', p, _, hp, _⟩ := hO.got e' g hg
        obtain ⟨m, hm⟩ := formats_prepare hp
        rw [← (hT e').calls, h1] at hm
        exact ⟨p, m, hm⟩
    · exact hI e'
  case visit e n k d g rest h1 h2 => rw [visit_eq]; exact plain _ _ rfl
  case pick => exact hI
  all_goals exact plain _ _ rfl

/-- Everything known about a state and the steps that led to it. -/
structure Known' (ops : ConvOps V) (build : R → ProcSpec → V) (ls : List (Label R)) (s : Sys V R) : Prop where
  inv : Inv ops s
  traced : ∀ e, Traced e ls (s.engs e)
  origins : Origins build ls s
  early : ∀ e, Early (s.engs e).hist

theorem exec_known {ops : ConvOps V} {build : R → ProcSpec → V} {ls : List (Label R)} {s : Sys V R} (h : Exec ops build ls s) : Known' ops build ls s := by
  refine exec_induct (P := Known' ops build) ?_ ?_ h
  · refine ⟨Inv.start ops, fun e => ⟨rfl, fun _ => rfl, fun h => (by cases h), fun _ => ⟨rfl, rfl⟩⟩, ?_, fun e => trivial⟩
    exact ⟨rfl, fun e i r p h => (by cases h), fun j h => (by cases h), fun j h => (by cases h), fun j h => (by cases h), fun j h => (by cases h),
      fun e d h => (by cases h)⟩
  · intro ls s l s' he hp hs
    exact ⟨hp.inv.step hs, Traced.step hp.inv.flow hp.traced hs, Origins.step hp.traced hp.origins hs,
      early_step hp.inv.flow hp.traced hp.origins hp.early hs⟩

/-- Put the parts of a well-formed history together. -/
theorem wellFormed_of {N : ℕ} {Good : V → Prop} : ∀ (hist : List (List (Held V) × Call)) (M : Option ℕ), HostBehaves N M (hist.map Prod.snd) →
    (∀ b ∈ hist, ∀ g ∈ b.1, Good g.obj) → (M = none → Early hist) → WellFormed N Good M hist
  | [], _, _, _, _ => trivial
  | (b, k) :: rest, M, hh, hg, he => by
    have hg' : ∀ b ∈ rest, ∀ g ∈ b.1, Good g.obj := fun b hb => hg b (by simp [hb])
    have he0 : M = none → (∀ p g, k ≠ .prepare p g) → b = [] := fun hM hk => by
      rcases he hM with ⟨p, g, h⟩ | h
      · exact absurd h (hk p g)
      · exact h.1
    have he1 : (∀ p g, k ≠ .prepare p g) → M = none → Early rest := fun hk hM => by
      rcases he hM with ⟨p, g, h⟩ | h
      · exact absurd h (hk p g)
      · exact h.2
    refine ⟨hg (b, k) (by simp), he0, ?_⟩
    cases k with
    | process blk => exact ⟨hh.1, hh.2.1, wellFormed_of rest M hh.2.2 hg' (he1 fun _ _ h => by cases h)⟩
    | reset => exact wellFormed_of rest M hh hg' (he1 fun _ _ h => by cases h)
    | clear => exact wellFormed_of rest M hh hg' (he1 fun _ _ h => by cases h)
    | prepare p g => exact ⟨hh.1, wellFormed_of rest _ hh.2 hg' fun h => by cases h⟩

end Zones.Proofs
