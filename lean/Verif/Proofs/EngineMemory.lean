import Verif.Spec.EngineMemory
import Verif.Spec.EngineWork
import Verif.Proofs.EngineTrace

/-! How many convolvers exist, and a property of all of them. -/

open Zones.Model Zones.Spec

namespace Zones.Proofs

variable {V R : Type}

/-! ## A property of the convolvers that calls preserve -/

/-- `P` of all of them -/
def Each (P : V → Prop) (hs : List (Held V)) : Prop := ∀ h ∈ hs, P h.obj

theorem Each.append {P : V → Prop} {hs gs : List (Held V)} : Each P (hs ++ gs) ↔ Each P hs ∧ Each P gs := List.forall_mem_append

theorem each_slot {ops : ConvOps V} {P : V → Prop} (hp : ∀ v b r, P v → ops.process v b = some r → P r.1) {h : Option (Held V)} {b : Buf}
    {r : Option (Held V) × Buf} (hP : Each P h.toList) (e : Core.runSlot ops h b = some r) : Each P r.1.toList := by
  cases h with
  | none => cases e; exact hP
  | some h =>
    unfold Core.runSlot Core.runHeld at e
    simp only [Option.map_map, Option.map_eq_some_iff] at e
    obtain ⟨q, e1, rfl⟩ := e
    intro g hg
    have hg : g ∈ [({ h with obj := q.1 } : Held V)] := hg
    rw [List.mem_singleton] at hg
    subst hg
    exact hp _ _ _ (hP h (by simp)) e1

theorem each_held {ops : ConvOps V} {P : V → Prop} (hp : ∀ v b r, P v → ops.process v b = some r → P r.1) {h : Held V} {b : Buf}
    {r : Held V × Buf} (hP : P h.obj) (e : Core.runHeld ops h b = some r) : P r.1.obj := by
  unfold Core.runHeld at e
  rw [Option.map_eq_some_iff] at e
  obtain ⟨q, e1, rfl⟩ := e
  exact hp _ _ _ hP e1

theorem each_handle {ops : ConvOps V} {P : V → Prop} {c : Core V} {g : Held V} (h : Each P (heldBy c)) (hg : P g.obj) :
    Each P (heldBy (c.handle ops g).1 ++ (c.handle ops g).2.flatMap Option.toList) := by
  have h' : ∀ x, x ∈ heldBy (c.handle ops g).1 ++ (c.handle ops g).2.flatMap Option.toList → x ∈ heldBy c ∨ x = g := by
    intro x
    cases ha : c.active with
    | none =>
      rw [handle_none ha]
      cases hf : c.fade <;> cases hp : c.pending <;> simp [heldBy, ha, hf, hp] <;> tauto
    | some a =>
      cases hf : c.fade with
      | some f =>
        rw [handle_fading ha hf]
        cases hp : c.pending <;> simp [heldBy, ha, hf, hp] <;> tauto
      | none =>
        rw [handle_begin ha hf]
        cases hp : c.pending <;> simp [heldBy, ha, hf, hp, Core.beginFade, Core.setFadeTime] <;> tauto
  intro x hx
  rcases h' x hx with hx | rfl
  · exact h x hx
  · exact hg

theorem each_endFade {ops : ConvOps V} {P : V → Prop} {c : Core V} (h : Each P (heldBy c)) :
    Each P (heldBy (c.endFade ops).1 ++ (c.endFade ops).2.flatMap Option.toList) := by
  have h' : ∀ x, x ∈ heldBy (c.endFade ops).1 ++ (c.endFade ops).2.flatMap Option.toList → x ∈ heldBy c := by
    intro x
    unfold Core.endFade
    by_cases h : c.sIn.isSmoothing = true
    · rw [if_pos h]; simp
    · rw [if_neg h]
      cases hp : c.pending <;> cases hf : c.fade <;> cases ha : c.active <;>
        simp [heldBy, Core.resetFade, Core.beginFade, Core.setFadeTime, hp, hf, ha] <;> tauto
  exact fun x hx => h x (h' x hx)

theorem each_reset {ops : ConvOps V} {P : V → Prop} (hr : ∀ v, P v → P (ops.reset v)) {c : Core V} (h : Each P (heldBy c)) :
    Each P (heldBy (c.resetBody ops).1) ∧ (c.resetBody ops).2.pushed = [] := by
  revert h
  unfold Core.resetBody
  cases ha : c.active <;> cases hf : c.fade <;> cases hp : c.pending <;> simp [heldBy, Each, ha, hf, hp] <;> grind

theorem each_process {ops : ConvOps V} {P : V → Prop} (hp : ∀ v b r, P v → ops.process v b = some r → P r.1) {c : Core V} {b : Buf}
    {r : Core V × Core.Effects V} (h : Each P (heldBy c)) (he : c.processBody ops b = some r) :
    Each P (heldBy r.1 ++ r.2.pushed.flatMap Option.toList) := by
  obtain ⟨h12, hpe⟩ := Each.append.mp h
  obtain ⟨ha, hfa⟩ := Each.append.mp h12
  unfold Core.processBody at he
  cases hf : c.fade with
  | none =>
    rw [hf] at he
    obtain ⟨q, e1, e2⟩ := Option.map_eq_some_iff.mp he
    cases e2
    rw [show (Core.Effects.pushed { out := some q.2 } : List (Option (Held V))).flatMap Option.toList = [] from rfl, List.append_nil]
    exact Each.append.mpr ⟨Each.append.mpr ⟨each_slot hp ha e1, by simp [Each]⟩, hpe⟩
  | some f =>
    rw [hf] at he
    obtain ⟨q, e1, e2⟩ := Option.map_eq_some_iff.mp he
    cases e2
    apply each_endFade
    have hf0 : P f.obj := hfa f (by rw [hf]; simp)
    unfold Core.fadeStep at e1
    cases hs : c.strategy with
    | crossfade =>
      rw [hs] at e1
      simp only [Core.crossfadeStep] at e1
      obtain ⟨fb, e0, e⟩ := Option.bind_eq_some_iff.mp e1
      obtain ⟨a, e2, e⟩ := Option.bind_eq_some_iff.mp e
      obtain ⟨g, e3, e⟩ := Option.bind_eq_some_iff.mp e
      obtain ⟨o, e4, e⟩ := Option.bind_eq_some_iff.mp e
      cases e
      have h2 := each_held hp hf0 e3
      exact Each.append.mpr ⟨Each.append.mpr ⟨each_slot hp ha e2, by simpa [Each] using h2⟩, hpe⟩
    | inOut =>
      rw [hs] at e1
      simp only [Core.inOutStep] at e1
      by_cases hc : c.sOut.isSmoothing = true
      · rw [if_pos hc] at e1
        obtain ⟨a, e2, e⟩ := Option.bind_eq_some_iff.mp e1
        cases e
        exact Each.append.mpr ⟨Each.append.mpr ⟨each_slot hp ha e2, hfa⟩, hpe⟩
      · rw [if_neg hc] at e1
        obtain ⟨g, e3, e⟩ := Option.bind_eq_some_iff.mp e1
        cases e
        have h2 := each_held hp hf0 e3
        exact Each.append.mpr ⟨Each.append.mpr ⟨ha, by simpa [Each] using h2⟩, hpe⟩

theorem each_callBody {ops : ConvOps V} {P : V → Prop} (hp : ∀ v b r, P v → ops.process v b = some r → P r.1) (hr : ∀ v, P v → P (ops.reset v))
    {c : Core V} {k : Call} {r : Core V × Core.Effects V} (h : Each P (heldBy c)) (he : c.callBody ops k = some r) :
    Each P (heldBy r.1 ++ r.2.pushed.flatMap Option.toList) := by
  obtain ⟨h1, h2⟩ := each_reset hr h
  cases k with
  | process blk => exact each_process hp h he
  | reset => cases he; rw [h2]; simpa using h1
  | prepare p g => cases he; rw [h2]; simpa using h1
  | clear =>
    cases he
    intro x hx
    refine h1 x ?_
    simp only [heldBy, Core.clearBody, Option.toList_none, List.nil_append, List.append_nil] at hx
    have e : (Core.Effects.pushed (c.clearBody ops).2).flatMap Option.toList = [] := rfl
    simp only [Core.clearBody] at e
    rw [e, List.append_nil] at hx
    exact List.mem_append_left _ (List.mem_append_right _ hx)

/-! ## Of all convolvers in the engines -/

theorem each_holding {P : V → Prop} (x : Eng V R) :
    Each P x.holding ↔ Each P x.cmd ∧ Each P (heldBy x.core) ∧ Each P (x.ntf.flatMap Option.toList) := by
  unfold Eng.holding heldBy
  simp only [Each.append]
  tauto

theorem each_take {P : V → Prop} {os : List (Option (Held V))} (h : Each P (os.flatMap Option.toList)) (n : ℕ) :
    Each P ((os.take n).flatMap Option.toList) := by
  intro x hx
  obtain ⟨o, ho, hx⟩ := List.mem_flatMap.mp hx
  exact h x (List.mem_flatMap.mpr ⟨o, List.mem_of_mem_take ho, hx⟩)

theorem each_step {ops : ConvOps V} {build : R → ProcSpec → V} {P : V → Prop} (hp : ∀ v b r, P v → ops.process v b = some r → P r.1)
    (hr : ∀ v, P v → P (ops.reset v)) {s s' : Sys V R} {l : Label R} (hs : Step ops build s l s') {e : ℕ}
    (hj : ∀ j ∈ s.jobs, j.eng = e → ∀ v, j.pc = .locked v → P v) (h : Each P (s.engs e).holding) : Each P (s'.engs e).holding := by
  have upd : ∀ (s1 : Sys V R) (e' : ℕ) (x : Eng V R), (e = e' → Each P x.holding) → Each P (s1.engs e).holding → Each P ((s1.setEng e' x).engs e).holding := by
    intro s1 e' x hx h1
    rw [setEng_engs]
    split_ifs with hc
    · exact hx hc
    · exact h1
  cases hs <;> try (exact upd _ _ _ (fun hc => by subst hc; exact h) h)
  case pick j h1 => exact h
  case jobPush j v h1 h2 h3 h4 h5 =>
    refine upd _ _ _ (fun hc => ?_) h
    subst hc
    obtain ⟨k1, k2, k3⟩ := (each_holding _).mp h
    refine (each_holding _).mpr ⟨Each.append.mpr ⟨k1, ?_⟩, k2, k3⟩
    intro x hx
    rw [List.mem_singleton] at hx
    subst hx
    exact hj j h1 rfl v h2
  case call e' k h1 h2 =>
    refine upd _ _ _ (fun hc => ?_) h
    subst hc
    obtain ⟨k1, k2, k3⟩ := (each_holding _).mp h
    refine (each_holding _).mpr ⟨k1, ?_, k3⟩
    have : heldBy ((s.engs e).core.callHead k) = heldBy (s.engs e).core := by cases k <;> rfl
    show Each P (heldBy ((s.engs e).core.callHead k))
    rw [this]; exact k2
  case visit e' n k d g rest h1 h2 =>
    refine upd _ _ _ (fun hc => ?_) h
    subst hc
    obtain ⟨k1, k2, k3⟩ := (each_holding _).mp h
    rw [h2] at k1
    have hg := k1 g (by simp)
    obtain ⟨m1, m2⟩ := Each.append.mp (each_handle (ops := ops) k2 hg)
    rw [visit_eq]
    refine (each_holding _).mpr ⟨fun x hx => k1 x (List.mem_cons_of_mem _ hx), m1, ?_⟩
    show Each P (((s.engs e).ntf ++ _).flatMap Option.toList)
    rw [List.flatMap_append]
    exact Each.append.mpr ⟨k3, each_take m2 _⟩
  case body e' k d r h1 h2 =>
    refine upd _ _ _ (fun hc => ?_) h
    subst hc
    obtain ⟨k1, k2, k3⟩ := (each_holding _).mp h
    obtain ⟨m1, m2⟩ := Each.append.mp (each_callBody hp hr k2 h2)
    rw [finish_eq]
    refine (each_holding _).mpr ⟨k1, m1, ?_⟩
    show Each P (((s.engs e).ntf ++ _).flatMap Option.toList)
    rw [List.flatMap_append]
    exact Each.append.mpr ⟨k3, each_take m2 _⟩
  case bgVisit e' n o rest h1 h2 =>
    refine upd _ _ _ (fun hc => ?_) h
    subst hc
    obtain ⟨k1, k2, k3⟩ := (each_holding _).mp h
    refine (each_holding _).mpr ⟨k1, k2, fun x hx => k3 x ?_⟩
    rw [h2, List.flatMap_cons]
    exact List.mem_append_right _ hx
  case destroy e' h1 h2 h3 h4 =>
    refine upd _ _ _ (fun hc => ?_) h
    intro x hx
    simp [Eng.holding] at hx

/-! ## Jobs that wait have not been told to stop -/

theorem waiting_goes_on {ops : ConvOps V} {build : R → ProcSpec → V} {s s' : Sys V R} {l : Label R} (hs : Step ops build s l s')
    (h : ∀ j ∈ s.jobs, j.waiting = true → j.stop = false) : ∀ j ∈ s'.jobs, j.waiting = true → j.stop = false := by
  have drop : ∀ n, ∀ j ∈ (s.dropJob n).jobs, j.waiting = true → j.stop = false := fun n j hj => h j (mem_dropJob.mp hj).1
  have set : ∀ j', j'.waiting = false → ∀ j ∈ (s.setJob j').jobs, j.waiting = true → j.stop = false := by
    intro j' hw j hj hjw
    rcases mem_setJob hj with rfl | ⟨hj, _⟩
    · rw [hw] at hjw; cases hjw
    · exact h j hj hjw
  cases hs <;> try exact h
  case loadRemove e i req h1 =>
    intro j hj hw
    obtain ⟨j', hj', hw', rfl⟩ := mem_removeAll.mp hj
    have : j'.waiting = true := hw
    rw [hw'] at this; cases this
  case loadAdd e i req p h1 h2 =>
    intro j hj hw
    rcases List.mem_append.mp hj with hj | hj
    · exact h j hj hw
    · rw [List.mem_singleton] at hj; subst hj; rfl
  case pick j h1 => exact set _ rfl
  case build j h1 h2 => exact set _ rfl
  case jobLock j v h1 h2 h3 h4 => exact set _ rfl
  case jobStop j v h1 h2 h3 h4 => exact drop _
  case jobPush j v h1 h2 h3 h4 h5 => exact set _ rfl
  case jobRefused j v h1 h2 h3 h4 h5 => exact set _ rfl
  case jobDone j h1 h2 h3 => exact drop _

/-! ## Engines that have not been created -/

theorem unborn_step {ops : ConvOps V} {build : R → ProcSpec → V} {s s' : Sys V R} {l : Label R} (hs : Step ops build s l s')
    (h : ∀ e, (s.engs e).status = .unborn → s.engs e = {} ∧ ∀ j ∈ s.jobs, j.eng ≠ e) :
    ∀ e, (s'.engs e).status = .unborn → s'.engs e = {} ∧ ∀ j ∈ s'.jobs, j.eng ≠ e := by
  intro e hu
  have upd : ∀ (s1 : Sys V R) (e' : ℕ) (x : Eng V R), ((s1.setEng e' x).engs e).status = .unborn → (x.status = .unborn → False) → e ≠ e' ∧
      (s1.engs e).status = .unborn ∧ (s1.setEng e' x).engs e = s1.engs e := by
    intro s1 e' x h1 hx
    rw [setEng_engs] at h1 ⊢
    by_cases hc : e = e'
    · rw [if_pos hc] at h1; exact (hx h1).elim
    · rw [if_neg hc] at h1 ⊢; exact ⟨hc, h1, rfl⟩
  have drop : ∀ n, (s.engs e).status = .unborn → ∀ j ∈ (s.dropJob n).jobs, j.eng ≠ e := fun n hu j hj => (h e hu).2 j (mem_dropJob.mp hj).1
  have set : ∀ j j', j ∈ s.jobs → j'.eng = j.eng → (s.engs e).status = .unborn → ∀ i ∈ (s.setJob j').jobs, i.eng ≠ e := by
    intro j j' hj he hu i hi
    rcases mem_setJob hi with rfl | ⟨hi, _⟩
    · rw [he]; exact (h e hu).2 j hj
    · exact (h e hu).2 i hi
  have busy : ∀ e', (s.engs e').loader ≠ none ∨ (s.engs e').pc ≠ .idle ∨ (s.engs e').bg ≠ none → (s.engs e').status = .unborn → False := by
    intro e' hb hu'
    have := (h e' hu').1
    rw [this] at hb
    rcases hb with hb | hb | hb <;> exact hb rfl
  have worked : ∀ j ∈ s.jobs, (s.engs j.eng).status = .unborn → False := fun j hj hu' => (h j.eng hu').2 j hj rfl
  cases hs
  case create e' h1 =>
    obtain ⟨_, h2, h3⟩ := upd _ _ _ hu (by exact (fun hc => by cases hc))
    rw [h3]; exact h e h2
  case loadLock e' req h1 h2 =>
    obtain ⟨_, k2, k3⟩ := upd _ _ _ hu (by exact (fun hc => by have hc : (s.engs e').status = .unborn := hc; rw [h1] at hc; cases hc))
    exact ⟨k3.trans (h e k2).1, (h e k2).2⟩
  case loadRemove e' i req h1 =>
    obtain ⟨_, k2, k3⟩ := upd _ _ _ hu (by exact (busy e' (Or.inl (by rw [h1]; simp))))
    refine ⟨k3.trans (h e k2).1, fun j hj => ?_⟩
    obtain ⟨j', hj', _, rfl⟩ := mem_removeAll.mp hj
    exact (h e k2).2 j' hj'
  case loadFlag e' i req h1 h2 =>
    obtain ⟨_, k2, k3⟩ := upd _ _ _ hu (by exact (busy e' (Or.inl (by rw [h1]; simp))))
    exact ⟨k3.trans (h e k2).1, (h e k2).2⟩
  case loadSkip e' i req h1 h2 =>
    obtain ⟨_, k2, k3⟩ := upd _ _ _ hu (by exact (busy e' (Or.inl (by rw [h1]; simp))))
    exact ⟨k3.trans (h e k2).1, (h e k2).2⟩
  case loadAdd e' i req p h1 h2 =>
    obtain ⟨k1, k2, k3⟩ := upd _ _ _ hu (by exact (busy e' (Or.inl (by rw [h1]; simp))))
    refine ⟨k3.trans (h e k2).1, fun j hj => ?_⟩
    rcases List.mem_append.mp hj with hj | hj
    · exact (h e k2).2 j hj
    · rw [List.mem_singleton] at hj; subst hj; exact Ne.symm k1
  case pick j h1 =>
    exact ⟨(h e hu).1, set j _ (List.mem_of_find?_eq_some h1) rfl hu⟩
  case build j h1 h2 =>
    obtain ⟨k1, k2, k3⟩ := upd _ _ _ hu (by exact (worked j h1))
    exact ⟨k3.trans (h e k2).1, set j _ h1 rfl k2⟩
  case jobLock j v h1 h2 h3 h4 =>
    obtain ⟨k1, k2, k3⟩ := upd _ _ _ hu (by exact (worked j h1))
    exact ⟨k3.trans (h e k2).1, set j _ h1 rfl k2⟩
  case jobLockDead j v h1 h2 h3 =>
    obtain ⟨k1, k2, k3⟩ := upd _ _ _ hu (by exact (worked j h1))
    exact ⟨k3.trans (h e k2).1, (h e k2).2⟩
  case jobStop j v h1 h2 h3 h4 =>
    obtain ⟨k1, k2, k3⟩ := upd _ _ _ hu (by exact (worked j h1))
    exact ⟨k3.trans (h e k2).1, drop _ k2⟩
  case jobPush j v h1 h2 h3 h4 h5 =>
    obtain ⟨k1, k2, k3⟩ := upd _ _ _ hu (by exact (worked j h1))
    exact ⟨k3.trans (h e k2).1, set j _ h1 rfl k2⟩
  case jobRefused j v h1 h2 h3 h4 h5 =>
    obtain ⟨k1, k2, k3⟩ := upd _ _ _ hu (by exact (worked j h1))
    exact ⟨k3.trans (h e k2).1, set j _ h1 rfl k2⟩
  case jobCheckDead j v h1 h2 h3 =>
    obtain ⟨k1, k2, k3⟩ := upd _ _ _ hu (by exact (worked j h1))
    exact ⟨k3.trans (h e k2).1, (h e k2).2⟩
  case jobDone j h1 h2 h3 =>
    obtain ⟨k1, k2, k3⟩ := upd _ _ _ hu (by exact (worked j h1))
    exact ⟨k3.trans (h e k2).1, drop _ k2⟩
  case jobDoneDead j h1 h2 h3 =>
    obtain ⟨k1, k2, k3⟩ := upd _ _ _ hu (by exact (worked j h1))
    exact ⟨k3.trans (h e k2).1, (h e k2).2⟩
  case call e' k h1 h2 =>
    obtain ⟨_, k2, k3⟩ := upd _ _ _ hu (by exact (fun hc => by have hc : (s.engs e').status = .unborn := hc; rw [h1] at hc; cases hc))
    exact ⟨k3.trans (h e k2).1, (h e k2).2⟩
  case service e' k h1 =>
    obtain ⟨_, k2, k3⟩ := upd _ _ _ hu (by exact (busy e' (Or.inr (Or.inl (by rw [h1]; simp)))))
    exact ⟨k3.trans (h e k2).1, (h e k2).2⟩
  case visit e' n k d g rest h1 h2 =>
    obtain ⟨_, k2, k3⟩ := upd _ _ _ hu (by exact (fun hc => busy e' (Or.inr (Or.inl (by rw [h1]; simp))) (by rw [visit_eq] at hc; exact hc)))
    exact ⟨k3.trans (h e k2).1, (h e k2).2⟩
  case serviced e' k d h1 =>
    obtain ⟨_, k2, k3⟩ := upd _ _ _ hu (by exact (busy e' (Or.inr (Or.inl (by rw [h1]; simp)))))
    exact ⟨k3.trans (h e k2).1, (h e k2).2⟩
  case body e' k d r h1 h2 =>
    obtain ⟨_, k2, k3⟩ := upd _ _ _ hu (by exact (fun hc => busy e' (Or.inr (Or.inl (by rw [h1]; simp))) (by rw [finish_eq] at hc; exact hc)))
    exact ⟨k3.trans (h e k2).1, (h e k2).2⟩
  case bgBegin e' h1 h2 =>
    obtain ⟨_, k2, k3⟩ := upd _ _ _ hu (by exact (fun hc => by have hc : (s.engs e').status = .unborn := hc; rw [h1] at hc; cases hc))
    exact ⟨k3.trans (h e k2).1, (h e k2).2⟩
  case bgVisit e' n o rest h1 h2 =>
    obtain ⟨_, k2, k3⟩ := upd _ _ _ hu (by exact (busy e' (Or.inr (Or.inr (by rw [h1]; simp)))))
    exact ⟨k3.trans (h e k2).1, (h e k2).2⟩
  case bgEnd e' h1 =>
    obtain ⟨_, k2, k3⟩ := upd _ _ _ hu (by exact (busy e' (Or.inr (Or.inr (by rw [h1]; simp)))))
    exact ⟨k3.trans (h e k2).1, (h e k2).2⟩
  case async e' rest h1 h2 =>
    obtain ⟨_, k2, k3⟩ := upd _ _ _ hu (by exact (fun hc => by have hc : (s.engs e').status = .unborn := hc; rw [h2] at hc; cases hc))
    exact ⟨k3.trans (h e k2).1, (h e k2).2⟩
  case asyncDead e' rest h1 h2 =>
    obtain ⟨_, k2, k3⟩ := upd _ _ _ hu (by exact (fun hc => by have hc : (s.engs e').status = .unborn := hc; rw [h2] at hc; cases hc))
    exact ⟨k3.trans (h e k2).1, (h e k2).2⟩
  case destroy e' h1 h2 h3 h4 =>
    obtain ⟨_, k2, k3⟩ := upd _ _ _ hu (by exact (fun hc => by cases hc))
    rw [k3]; exact h e k2

end Zones.Proofs
