import Verif.Proofs.EngineMore

/-! When `IsLoading` is true. -/

open Zones.Model Zones.Spec

namespace Zones.Proofs

variable {V R : Type}

set_option linter.unusedSimpArgs false
set_option linter.unusedVariables false

/-- Members of an engine that matter for `IsLoading`. -/
structure SameFlag (x y : Eng V R) : Prop where
  status : y.status = x.status
  loader : y.loader = x.loader
  loading : y.loading = x.loading
  spec : y.core.spec = x.core.spec

theorem SameFlag.refl (x : Eng V R) : SameFlag x x := ⟨rfl, rfl, rfl, rfl⟩

/-- Steps that leave all that alone. -/
def Label.plain : Label R → Bool
  | .service _ | .visit _ | .serviced _ | .body _ | .bgBegin _ | .bgVisit _ | .bgEnd _ | .async => true
  | _ => false

theorem plain_set {s : Sys V R} {e : ℕ} {x : Eng V R} (h : SameFlag (s.engs e) x) : ∀ e', SameFlag (s.engs e') ((s.setEng e x).engs e') := by
  intro e'
  rw [setEng_engs]
  split_ifs with hc
  · subst hc; exact h
  · exact .refl _

theorem step_plain {ops : ConvOps V} {build : R → ProcSpec → V} {s s' : Sys V R} {l : Label R} (h : Step ops build s l s') (hl : Label.plain l = true) :
    s'.jobs = s.jobs ∧ ∀ e, SameFlag (s.engs e) (s'.engs e) := by
  cases h <;> try (exact Bool.noConfusion hl)
  case service => exact ⟨rfl, plain_set ⟨rfl, rfl, rfl, rfl⟩⟩
  case visit e n k d g rest h1 h2 =>
    rw [visit_eq]
    exact ⟨rfl, plain_set ⟨rfl, rfl, rfl, (settings_handle _ _).spec⟩⟩
  case serviced => exact ⟨rfl, plain_set ⟨rfl, rfl, rfl, rfl⟩⟩
  case body e k d r h1 h2 =>
    rw [finish_eq]
    exact ⟨rfl, plain_set ⟨rfl, rfl, rfl, (callBody_slots h2).2⟩⟩
  case bgBegin => exact ⟨rfl, plain_set ⟨rfl, rfl, rfl, rfl⟩⟩
  case bgVisit => exact ⟨rfl, plain_set ⟨rfl, rfl, rfl, rfl⟩⟩
  case bgEnd => exact ⟨rfl, plain_set ⟨rfl, rfl, rfl, rfl⟩⟩
  case async e rest h1 h2 => exact ⟨rfl, plain_set (e := e) (x := { s.engs e with notified := (s.engs e).notified ++ [(s.engs e).loading] }) ⟨rfl, rfl, rfl, rfl⟩⟩
  case asyncDead e rest h1 h2 => exact ⟨rfl, plain_set (e := e) (x := { s.engs e with touched := true }) ⟨rfl, rfl, rfl, rfl⟩⟩

theorem spec_head (c : Core V) (k : Call) : c.spec ≠ none → (c.callHead k).spec ≠ none := fun h => spec_callHead h

/-! ## True only while a load is outstanding -/

/-- If nobody else uses the pool. -/
structure Sound (e : ℕ) (s : Sys V R) : Prop where
  known : (s.engs e).status ≠ .dead → (s.engs e).loading = true → (s.engs e).core.spec ≠ none
  reason : (s.engs e).loading = true → (∃ i r p, (s.engs e).loader = some (i, r, p) ∧ p ≠ .locked) ∨ ∃ j ∈ s.jobs, j.eng = e ∧ j.stop = false

theorem Sound.step {ops : ConvOps V} {build : R → ProcSpec → V} {s s' : Sys V R} {l : Label R} {e : ℕ} (hV : Inv ops s)
    (hI : Sound e s) (h : Step ops build s l s') (hl : ∀ e', e' ≠ e → l ≠ .loadRemove e') : Sound e s' := by
  have hsame := @same_job V R s hV.ids.nodup
  have halive := hV.locks.alive
  by_cases hp : Label.plain l = true
  · obtain ⟨q1, q2⟩ := step_plain h hp
    have b1 := (q2 e).status
    have b2 := (q2 e).loader
    have b3 := (q2 e).loading
    have b4 := (q2 e).spec
    obtain ⟨a1, a2⟩ := hI
    constructor <;> simp only [q1, b1, b2, b3, b4] <;> assumption
  obtain ⟨a1, a2⟩ := hI
  cases h <;> try (exact absurd rfl hp)
  case create e0 h1 => sys_step
  case loadLock e0 req h1 h2 => sys_step
  case loadRemove e0 i req h1 =>
    have : e0 = e := by
      by_contra hne
      exact hl e0 hne rfl
    sys_step
  case loadFlag e0 i req h1 h2 => sys_step
  case loadSkip e0 i req h1 h2 => sys_step
  case loadAdd e0 i req p h1 h2 =>
    by_cases hc : e = e0
    · subst hc
      refine ⟨fun h3 h4 => ?_, fun _ => Or.inr ⟨⟨i, e, req, p, false, .queued⟩, by simp, rfl, rfl⟩⟩
      simp only [setEng_engs, if_true]
      rw [h2]; simp
    · sys_step
  case pick j h1 =>
    have h2 := mem_of_find h1
    have h4 := @mem_setJob_iff V R s j { j with pc := .building } h2.1 rfl
    have h8 := setJob_mem (j' := { j with pc := .building }) h2.1 rfl
    sys_step
  case build j h1 h2 =>
    have h4 := @mem_setJob_iff V R s j { j with pc := .built (build j.req j.spec) } h1 rfl
    have h8 := setJob_mem (j' := { j with pc := .built (build j.req j.spec) }) h1 rfl
    sys_step
  case jobLock j v h1 h2 h5 h6 =>
    have h4 := @mem_setJob_iff V R s j { j with pc := .locked v } h1 rfl
    have h8 := setJob_mem (j' := { j with pc := .locked v }) h1 rfl
    sys_step
  case jobLockDead j v h1 h2 h5 => sys_step
  case jobStop j v h1 h2 h5 h6 =>
    have h4 := @mem_dropJob V R s
    sys_step
  case jobPush j v h1 h2 h5 h6 h7 =>
    have h4 := @mem_setJob_iff V R s j { j with pc := .pushed } h1 rfl
    have h8 := setJob_mem (j' := { j with pc := .pushed }) h1 rfl
    sys_step
  case jobRefused j v h1 h2 h5 h6 h7 =>
    have h4 := @mem_setJob_iff V R s j { j with pc := .pushed } h1 rfl
    have h8 := setJob_mem (j' := { j with pc := .pushed }) h1 rfl
    sys_step
  case jobCheckDead j v h1 h2 h5 => sys_step
  case jobDone j h1 h2 h5 =>
    have h4 := @mem_dropJob V R s
    sys_step
  case jobDoneDead j h1 h2 h5 => sys_step
  case call e0 k h1 h2 =>
    have h4 := spec_head (s.engs e0).core k
    sys_step
  case destroy e0 h1 h2 h3 h4 => sys_step

/-! ## True while a load is outstanding -/

/-- If no audio-side call resets the flag. -/
structure Kept (e : ℕ) (s : Sys V R) : Prop where
  job : ∀ j ∈ s.jobs, j.eng = e → j.stop = false → (s.engs e).loading = true
  load : ∀ i r, (s.engs e).loader = some (i, r, .flagged) → (s.engs e).loading = true

theorem Kept.step {ops : ConvOps V} {build : R → ProcSpec → V} {s s' : Sys V R} {l : Label R} {e : ℕ} (hV : Inv ops s) (hM : More s)
    (hI : Kept e s) (h : Step ops build s l s') (hl : ∀ k, l = .call e k → k.resets = false) : Kept e s' := by
  have hsame := @same_job V R s hV.ids.nodup
  have hexcl := hV.locks.excl
  have hjhold := hV.locks.jhold
  have hpushed := hM.pushed
  by_cases hp : Label.plain l = true
  · obtain ⟨q1, q2⟩ := step_plain h hp
    have b1 := (q2 e).status
    have b2 := (q2 e).loader
    have b3 := (q2 e).loading
    have b4 := (q2 e).spec
    obtain ⟨a1, a2⟩ := hI
    constructor <;> simp only [q1, b1, b2, b3, b4] <;> assumption
  obtain ⟨a1, a2⟩ := hI
  cases h <;> try (exact absurd rfl hp)
  case create e0 h1 => sys_step
  case loadLock e0 req h1 h2 => sys_step
  case loadRemove e0 i req h1 => sys_step
  case loadFlag e0 i req h1 h2 => sys_step
  case loadSkip e0 i req h1 h2 => sys_step
  case loadAdd e0 i req p h1 h2 => sys_step
  case pick j h1 =>
    have h2 := mem_of_find h1
    have h4 := @mem_setJob_iff V R s j { j with pc := .building } h2.1 rfl
    sys_step
  case build j h1 h2 =>
    have h4 := @mem_setJob_iff V R s j { j with pc := .built (build j.req j.spec) } h1 rfl
    sys_step
  case jobLock j v h1 h2 h5 h6 =>
    have h4 := @mem_setJob_iff V R s j { j with pc := .locked v } h1 rfl
    sys_step
  case jobLockDead j v h1 h2 h5 => sys_step
  case jobStop j v h1 h2 h5 h6 =>
    have h4 := @mem_dropJob V R s
    sys_step
  case jobPush j v h1 h2 h5 h6 h7 =>
    have h4 := @mem_setJob_iff V R s j { j with pc := .pushed } h1 rfl
    sys_step
  case jobRefused j v h1 h2 h5 h6 h7 =>
    have h4 := @mem_setJob_iff V R s j { j with pc := .pushed } h1 rfl
    sys_step
  case jobCheckDead j v h1 h2 h5 => sys_step
  case jobDone j h1 h2 h5 =>
    have h4 := @mem_dropJob V R s
    sys_step
  case jobDoneDead j h1 h2 h5 => sys_step
  case call e0 k h1 h2 =>
    by_cases hc : e0 = e
    · have := hl k (by rw [hc])
      sys_step
    · sys_step
  case destroy e0 h1 h2 h3 h4 => sys_step

/-! ## The flag can stay set -/

/-- Nothing is being loaded into engine `e`, yet its flag is set. -/
structure Stuck (e : ℕ) (s : Sys V R) : Prop where
  loading : (s.engs e).loading = true
  loader : (s.engs e).loader = none
  job : ∀ j ∈ s.jobs, j.eng = e → j.stop = true ∧ j.pc ≠ .pushed

theorem Stuck.step {ops : ConvOps V} {build : R → ProcSpec → V} {s s' : Sys V R} {l : Label R} {e : ℕ}
    (hI : Stuck e s) (h : Step ops build s l s') (hl : ∀ k, l = .call e k → k.resets = false) (hl' : ∀ req, l ≠ .loadLock e req) : Stuck e s' := by
  by_cases hp : Label.plain l = true
  · obtain ⟨q1, q2⟩ := step_plain h hp
    have b1 := (q2 e).status
    have b2 := (q2 e).loader
    have b3 := (q2 e).loading
    have b4 := (q2 e).spec
    obtain ⟨a1, a2, a3⟩ := hI
    constructor <;> simp only [q1, b1, b2, b3, b4] <;> assumption
  obtain ⟨a1, a2, a3⟩ := hI
  cases h <;> try (exact absurd rfl hp)
  case create e0 h1 => sys_step
  case loadLock e0 req h1 h2 =>
    have : e0 ≠ e := fun hc => hl' req (by rw [hc])
    sys_step
  case loadRemove e0 i req h1 => sys_step
  case loadFlag e0 i req h1 h2 => sys_step
  case loadSkip e0 i req h1 h2 => sys_step
  case loadAdd e0 i req p h1 h2 => sys_step
  case pick j h1 =>
    have h2 := mem_of_find h1
    have h4 := @mem_setJob_iff V R s j { j with pc := .building } h2.1 rfl
    sys_step
  case build j h1 h2 =>
    have h4 := @mem_setJob_iff V R s j { j with pc := .built (build j.req j.spec) } h1 rfl
    sys_step
  case jobLock j v h1 h2 h5 h6 =>
    have h4 := @mem_setJob_iff V R s j { j with pc := .locked v } h1 rfl
    sys_step
  case jobLockDead j v h1 h2 h5 => sys_step
  case jobStop j v h1 h2 h5 h6 =>
    have h4 := @mem_dropJob V R s
    sys_step
  case jobPush j v h1 h2 h5 h6 h7 =>
    have h4 := @mem_setJob_iff V R s j { j with pc := .pushed } h1 rfl
    sys_step
  case jobRefused j v h1 h2 h5 h6 h7 =>
    have h4 := @mem_setJob_iff V R s j { j with pc := .pushed } h1 rfl
    sys_step
  case jobCheckDead j v h1 h2 h5 => sys_step
  case jobDone j h1 h2 h5 =>
    have h4 := @mem_dropJob V R s
    sys_step
  case jobDoneDead j h1 h2 h5 => sys_step
  case call e0 k h1 h2 =>
    by_cases hc : e0 = e
    · have := hl k (by rw [hc])
      sys_step
    · sys_step
  case destroy e0 h1 h2 h3 h4 => sys_step

/-! ## After destruction -/

/-- Nothing can reach engine `e`, which has been destroyed. -/
structure Gone (e : ℕ) (s : Sys V R) : Prop where
  dead : (s.engs e).status = .dead
  untouched : (s.engs e).touched = false
  loader : (s.engs e).loader = none
  job : ∀ j ∈ s.jobs, j.eng ≠ e
  async : e ∉ s.async

theorem Gone.step {ops : ConvOps V} {build : R → ProcSpec → V} {s s' : Sys V R} {l : Label R} {e : ℕ} (hV : Inv ops s)
    (hI : Gone e s) (h : Step ops build s l s') : Gone e s' := by
  have hal := (hV.flow e).alive
  have hbal := (hV.flow e).bgAlive
  obtain ⟨a1, a2, a3, a4, a5⟩ := hI
  have same : ∀ {e0 : ℕ} {x : Eng V R}, e0 ≠ e → Gone e (s.setEng e0 x) := by
    intro e0 x hne
    have : (s.setEng e0 x).engs e = s.engs e := by rw [setEng_engs, if_neg (Ne.symm hne)]
    exact ⟨by rw [this]; exact a1, by rw [this]; exact a2, by rw [this]; exact a3, a4, a5⟩
  have ne_of_alive : ∀ {e0}, (s.engs e0).status = .alive → e0 ≠ e := fun {e0} h hc => by rw [hc, a1] at h; cases h
  have ne_of_pc : ∀ {e0}, (s.engs e0).pc ≠ .idle → e0 ≠ e := fun {e0} h => ne_of_alive ((hV.flow e0).alive h)
  have ne_of_bg : ∀ {e0}, (s.engs e0).bg ≠ none → e0 ≠ e := fun {e0} h => ne_of_alive ((hV.flow e0).bgAlive h)
  cases h
  case create e0 h1 => sys_step
  case loadLock e0 req h1 h2 => sys_step
  case loadRemove e0 i req h1 => sys_step
  case loadFlag e0 i req h1 h2 => sys_step
  case loadSkip e0 i req h1 h2 => sys_step
  case loadAdd e0 i req p h1 h2 => sys_step
  case pick j h1 =>
    have h2 := mem_of_find h1
    have h4 := @mem_setJob_iff V R s j { j with pc := .building } h2.1 rfl
    sys_step
  case build j h1 h2 =>
    have h4 := @mem_setJob_iff V R s j { j with pc := .built (build j.req j.spec) } h1 rfl
    sys_step
  case jobLock j v h1 h2 h5 h6 =>
    have h4 := @mem_setJob_iff V R s j { j with pc := .locked v } h1 rfl
    sys_step
  case jobLockDead j v h1 h2 h5 => sys_step
  case jobStop j v h1 h2 h5 h6 =>
    have h4 := @mem_dropJob V R s
    sys_step
  case jobPush j v h1 h2 h5 h6 h7 =>
    have h4 := @mem_setJob_iff V R s j { j with pc := .pushed } h1 rfl
    sys_step
  case jobRefused j v h1 h2 h5 h6 h7 =>
    have h4 := @mem_setJob_iff V R s j { j with pc := .pushed } h1 rfl
    sys_step
  case jobCheckDead j v h1 h2 h5 => sys_step
  case jobDone j h1 h2 h5 =>
    have h4 := @mem_dropJob V R s
    sys_step
  case jobDoneDead j h1 h2 h5 => sys_step
  case call e0 k h1 h2 => exact same (ne_of_alive h1)
  case service e0 k h1 => exact same (ne_of_pc (by rw [h1]; simp))
  case visit e0 n k d g rest h1 h2 => exact same (ne_of_pc (by rw [h1]; simp))
  case serviced e0 k d h1 => exact same (ne_of_pc (by rw [h1]; simp))
  case body e0 k d r h1 h2 => exact same (ne_of_pc (by rw [h1]; simp))
  case bgBegin e0 h1 h2 => exact same (ne_of_alive h1)
  case bgVisit e0 n o rest h1 h2 => exact same (ne_of_bg (by rw [h1]; simp))
  case bgEnd e0 h1 => exact same (ne_of_bg (by rw [h1]; simp))
  case async e0 rest h1 h2 => sys_step
  case asyncDead e0 rest h1 h2 => sys_step
  case destroy e0 h1 h2 h3 h4 => sys_step

end Zones.Proofs
