import Verif.Proofs.EngineFlow
import Verif.Spec.EngineSys

/-! Where what the engines hold comes from. -/

open Zones.Model Zones.Spec

namespace Zones.Proofs

variable {V R : Type}

set_option linter.unusedSimpArgs false
set_option linter.unusedVariables false

/-! ## Executions -/

theorem Run.append {ops : ConvOps V} {build : R → ProcSpec → V} {s s' s'' : Sys V R} {ls ls' : List (Label R)} (h : Run ops build s ls s')
    (h' : Run ops build s' ls' s'') : Run ops build s (ls ++ ls') s'' := by
  induction h with
  | nil => exact h'
  | cons h t ih => exact .cons h (ih h')

theorem Run.single {ops : ConvOps V} {build : R → ProcSpec → V} {s s' : Sys V R} {l : Label R} (h : Step ops build s l s') : Run ops build s [l] s' :=
  .cons h (.nil _)

/-- Induction over an execution, by its last step. -/
theorem exec_induct {ops : ConvOps V} {build : R → ProcSpec → V} {P : List (Label R) → Sys V R → Prop} (h0 : P [] {})
    (hs : ∀ ls s l s', Exec ops build ls s → P ls s → Step ops build s l s' → P (ls ++ [l]) s') {ls : List (Label R)} {s : Sys V R}
    (h : Exec ops build ls s) : P ls s := by
  have key : ∀ (s : Sys V R) ls s', Run ops build s ls s' → ∀ pre, Exec ops build pre s → P pre s → P (pre ++ ls) s' := by
    intro s ls s' hr
    induction hr with
    | nil s => intro pre _ hp; rw [List.append_nil]; exact hp
    | @cons s s1 s2 l ls h t ih =>
      intro pre he hp
      have := ih (pre ++ [l]) (Run.append he (Run.single h)) (hs pre s l s1 he hp h)
      rw [List.append_assoc] at this
      exact this
  exact key {} ls s h [] (.nil _) h0

/-- What is preserved by every step holds in every later state. -/
theorem run_induct {ops : ConvOps V} {build : R → ProcSpec → V} {P : Sys V R → Prop} (hs : ∀ s l s', P s → Step ops build s l s' → P s')
    {ls : List (Label R)} {s s' : Sys V R} (h : Run ops build s ls s') (h0 : P s) : P s' := by
  induction h with
  | nil => exact h0
  | cons h t ih => exact ih (hs _ _ _ h0 h)

/-- All invariants so far. -/
structure Inv (ops : ConvOps V) (s : Sys V R) : Prop where
  ids : Ids s
  locks : Locks s
  order : Order s
  flow : ∀ e, Flow ops (s.engs e)

theorem Inv.start (ops : ConvOps V) : Inv ops ({} : Sys V R) where
  ids := ⟨List.nodup_nil, fun j h => (by cases h), fun e i r p h => (by cases h), fun e i r p h => (by cases h), fun e e' i r p r' p' h => (by cases h)⟩
  locks := ⟨fun e h => rfl, fun e h => absurd rfl h, fun j h => (by cases h), fun e h => rfl, fun e i h => (by cases h), fun j h => (by cases h)⟩
  order := ⟨fun e => List.Pairwise.nil, fun e d h => (by cases h), fun e i r p h => (by cases h), fun e i r p h => (by cases h), fun j h => (by cases h),
    fun j h => (by cases h), fun e i r p h => (by cases h)⟩
  flow := fun e => Flow.born ops

theorem Inv.step {ops : ConvOps V} {build : R → ProcSpec → V} {s s' : Sys V R} {l : Label R} (h : Inv ops s) (hs : Step ops build s l s') : Inv ops s' :=
  ⟨h.ids.step hs, h.locks.step h.ids hs, h.order.step h.ids h.locks hs, Flow.step h.flow hs⟩

theorem exec_inv {ops : ConvOps V} {build : R → ProcSpec → V} {ls : List (Label R)} {s : Sys V R} (h : Exec ops build ls s) : Inv ops s :=
  run_induct (fun _ _ _ hi hs => hi.step hs) h (Inv.start ops)

/-! ## Slots -/

/-- The responses in the slots. -/
def slots (c : Core V) : List ℕ := (c.active.map Held.id).toList ++ (c.fade.map Held.id).toList ++ (c.pending.map Held.id).toList

/-- The responses in some commands. -/
def idsOf (os : List (Option (Held V))) : List ℕ := (os.flatMap Option.toList).map Held.id

theorem handle_slots (ops : ConvOps V) (c : Core V) (g : Held V) :
    (g.id :: slots c).Perm (slots (c.handle ops g).1 ++ idsOf (c.handle ops g).2) := by
  cases ha : c.active with
  | none =>
    rw [handle_none ha]
    simp [slots, idsOf, ha]
  | some a =>
    cases hf : c.fade with
    | some f =>
      rw [handle_fading ha hf]
      cases hp : c.pending with
      | none =>
        simp only [slots, idsOf, ha, hf, hp]
        rw [List.perm_iff_count]; intro i; simp [List.count_cons]; try omega
      | some p =>
        simp only [slots, idsOf, ha, hf, hp]
        rw [List.perm_iff_count]; intro i; simp [List.count_cons]; try omega
    | none =>
      rw [handle_begin ha hf]
      have e : slots (({ c with pending := none } : Core V).beginFade ops g) = [a.id, g.id] := by
        show (c.active.map Held.id).toList ++ _ ++ _ = _
        rw [ha]; rfl
      simp only [e]
      cases hp : c.pending with
      | none =>
        simp only [slots, idsOf, ha, hf, hp]
        rw [List.perm_iff_count]; intro i; simp [List.count_cons]; try omega
      | some p =>
        simp only [slots, idsOf, ha, hf, hp]
        rw [List.perm_iff_count]; intro i; simp [List.count_cons]; try omega

theorem runHeld_id {ops : ConvOps V} {h : Held V} {blk : Buf} {r : Held V × Buf} (e : Core.runHeld ops h blk = some r) : r.1.id = h.id := by
  unfold Core.runHeld at e
  cases hp : ops.process h.obj blk with
  | none => rw [hp] at e; cases e
  | some q => rw [hp] at e; cases e; rfl

theorem runSlot_id {ops : ConvOps V} {h : Option (Held V)} {blk : Buf} {r : Option (Held V) × Buf} (e : Core.runSlot ops h blk = some r) :
    r.1.map Held.id = h.map Held.id := by
  cases h with
  | none => cases e; rfl
  | some h =>
    unfold Core.runSlot at e
    cases hp : Core.runHeld ops h blk with
    | none => simp only [hp] at e; cases e
    | some q => simp only [hp] at e; cases e; exact congrArg some (runHeld_id hp)

theorem crossfadeStep_slots {ops : ConvOps V} {c : Core V} {f : Held V} {blk : Buf} {r : Core V × Buf} (hf : c.fade = some f)
    (e : c.crossfadeStep ops f blk = some r) : slots r.1 = slots c ∧ r.1.spec = c.spec := by
  unfold Core.crossfadeStep at e
  simp only [Option.bind_eq_bind, Option.bind_eq_some_iff, Option.pure_def, Option.some.injEq] at e
  obtain ⟨fb, _, a, ha, f', hf', out, _, rfl⟩ := e
  refine ⟨?_, rfl⟩
  unfold slots
  simp only [runSlot_id ha, hf, Option.map_some, runHeld_id hf']

theorem inOutStep_slots {ops : ConvOps V} {c : Core V} {f : Held V} {blk : Buf} {r : Core V × Buf} (hf : c.fade = some f)
    (e : c.inOutStep ops f blk = some r) : slots r.1 = slots c ∧ r.1.spec = c.spec := by
  unfold Core.inOutStep at e
  split_ifs at e
  · simp only [Option.bind_eq_bind, Option.bind_eq_some_iff, Option.pure_def, Option.some.injEq] at e
    obtain ⟨a, ha, rfl⟩ := e
    refine ⟨?_, rfl⟩
    unfold slots
    simp only [runSlot_id ha]
  · simp only [Option.bind_eq_bind, Option.bind_eq_some_iff, Option.pure_def, Option.some.injEq] at e
    obtain ⟨f', hf', rfl⟩ := e
    refine ⟨?_, rfl⟩
    unfold slots
    simp only [hf, Option.map_some, runHeld_id hf']

theorem endFade_ids (ops : ConvOps V) (c : Core V) :
    (slots c).Perm (slots (c.endFade ops).1 ++ idsOf (c.endFade ops).2) ∧ (c.endFade ops).1.spec = c.spec := by
  cases hs : c.sIn.isSmoothing with
  | true => rw [endFade_running hs]; simp [idsOf]
  | false =>
    cases hp : c.pending with
    | none =>
      rw [endFade_last hs hp]
      refine ⟨?_, rfl⟩
      have e : slots ({ c with
        active := c.fade
        fade := none } : Core V).resetFade = (c.fade.map Held.id).toList := by
        show (c.fade.map Held.id).toList ++ [] ++ (c.pending.map Held.id).toList = _
        rw [hp]; simp
      rw [e]
      rw [List.perm_iff_count]; intro i
      cases ha : c.active <;> cases hf : c.fade <;> simp [slots, idsOf, ha, hf, hp, List.count_cons] <;> omega
    | some p =>
      rw [endFade_next hs hp]
      refine ⟨?_, rfl⟩
      have e : slots (({ c with
        active := c.fade
        fade := none
        pending := none } : Core V).resetFade.beginFade ops p) = (c.fade.map Held.id).toList ++ [p.id] := by
        show (c.fade.map Held.id).toList ++ [p.id] ++ [] = _
        simp
      rw [e]
      rw [List.perm_iff_count]; intro i
      cases ha : c.active <;> cases hf : c.fade <;> simp [slots, idsOf, ha, hf, hp, List.count_cons] <;> omega

theorem resetBody_slots (ops : ConvOps V) (c : Core V) :
    (slots c).Perm (slots (c.resetBody ops).1 ++ (c.resetBody ops).2.destroyed.map Held.id) ∧ (c.resetBody ops).2.pushed = [] ∧
      (c.resetBody ops).1.spec = c.spec := by
  refine ⟨?_, ?_, (settings_resetBody c).spec⟩
  all_goals
    cases hp : c.pending with
    | some p =>
      rw [resetBody_pending hp]
      try rfl
      try (rw [List.perm_iff_count]; intro i
           cases ha : c.active <;> cases hf : c.fade <;> simp [slots, ha, hf, hp, List.count_cons] <;> omega)
    | none =>
      cases hf : c.fade with
      | some f =>
        rw [resetBody_fade hp hf]
        try rfl
        try (rw [List.perm_iff_count]; intro i
             cases ha : c.active <;> simp [slots, ha, hf, hp, List.count_cons] <;> omega)
      | none =>
        rw [resetBody_plain hp hf]
        try rfl
        try (rw [List.perm_iff_count]; intro i
             cases ha : c.active <;> simp [slots, ha, hf, hp, List.count_cons])

/-- What an audio-side call does with the responses in the slots. -/
theorem callBody_slots {ops : ConvOps V} {c : Core V} {k : Call} {r : Core V × Core.Effects V} (h : c.callBody ops k = some r) :
    (slots c).Perm (slots r.1 ++ idsOf r.2.pushed ++ r.2.destroyed.map Held.id) ∧ r.1.spec = c.spec := by
  have hreset : ∀ q, some (c.resetBody ops) = some q → (slots c).Perm (slots q.1 ++ idsOf q.2.pushed ++ q.2.destroyed.map Held.id) ∧ q.1.spec = c.spec := by
    intro q hq
    cases hq
    obtain ⟨h1, h2, h3⟩ := resetBody_slots ops c
    refine ⟨?_, h3⟩
    rw [h2]
    simpa [idsOf] using h1
  cases k with
  | reset => exact hreset r h
  | prepare p g => exact hreset r h
  | clear =>
    cases h
    obtain ⟨h1, h2, h3⟩ := resetBody_slots ops c
    refine ⟨h1.trans ?_, h3⟩
    show (slots (c.resetBody ops).1 ++ _).Perm (slots ({ (c.resetBody ops).1 with active := none, pending := none } : Core V) ++ idsOf [] ++
      ((c.resetBody ops).2.destroyed ++ (c.resetBody ops).1.active.toList ++ (c.resetBody ops).1.pending.toList).map Held.id)
    generalize (c.resetBody ops).1 = d
    rw [List.perm_iff_count]; intro i
    cases ha : d.active <;> cases hp : d.pending <;> simp [slots, idsOf, ha, hp, List.count_cons] <;> omega
  | process blk =>
    have h' : c.processBody ops blk = some r := h
    cases hf : c.fade with
    | none =>
      rw [processBody_none hf] at h'
      cases hr : Core.runSlot ops c.active blk with
      | none => rw [hr] at h'; cases h'
      | some q =>
        rw [hr] at h'
        cases h'
        refine ⟨?_, rfl⟩
        have e : slots ({ c with active := q.1 } : Core V) = slots c := by
          unfold slots
          simp only [runSlot_id hr]
        simp [e, idsOf]
    | some f =>
      rw [processBody_some hf] at h'
      cases hr : c.fadeStep ops f blk with
      | none => rw [hr] at h'; cases h'
      | some q =>
        rw [hr] at h'
        cases h'
        have e : slots q.1 = slots c ∧ q.1.spec = c.spec := by
          unfold Core.fadeStep at hr
          cases hs : c.strategy with
          | crossfade => simp only [hs] at hr; exact crossfadeStep_slots hf hr
          | inOut => simp only [hs] at hr; exact inOutStep_slots hf hr
        obtain ⟨h1, h2⟩ := endFade_ids ops q.1
        refine ⟨?_, h2.trans e.2⟩
        rw [← e.1]
        simpa using h1

end Zones.Proofs
