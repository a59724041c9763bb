import Verif.Spec.EngineWork
import Mathlib.Tactic.Abel

/-!
# C90: how many convolvers the engine runs
-/

open Zones.Spec Zones.Model

namespace Zones.Props

variable {V : Type}

theorem given_nil : blocksGiven (V := V) [] = 0 := rfl
theorem given_cons (h : Held (V × Multiset ℕ)) (hs : List (Held (V × Multiset ℕ))) : blocksGiven (h :: hs) = h.obj.2 + blocksGiven hs := by
  simp [blocksGiven]
theorem given_append (hs gs : List (Held (V × Multiset ℕ))) : blocksGiven (hs ++ gs) = blocksGiven hs + blocksGiven gs := by
  simp [blocksGiven]

theorem runHeld_given {ops : ConvOps V} {h h' : Held (V × Multiset ℕ)} {b b' : Buf} (e : Core.runHeld (logged ops) h b = some (h', b')) :
    h'.obj.2 = {b.n} + h.obj.2 := by
  unfold Core.runHeld logged at e
  obtain ⟨r, e1, e2⟩ := Option.map_eq_some_iff.mp e
  obtain ⟨r', _, rfl⟩ := Option.map_eq_some_iff.mp e1
  cases e2
  simp

theorem runSlot_given {ops : ConvOps V} {h h' : Option (Held (V × Multiset ℕ))} {b b' : Buf} (e : Core.runSlot (logged ops) h b = some (h', b')) :
    blocksGiven h'.toList = Multiset.replicate h.toList.length b.n + blocksGiven h.toList := by
  cases h with
  | none => cases e; simp
  | some h =>
    obtain ⟨r, e1, e2⟩ := Option.map_eq_some_iff.mp (show (Core.runHeld (logged ops) h b).map _ = _ from e)
    cases e2
    simp [given_cons, given_nil, runHeld_given (h' := r.1) (b' := r.2) e1]

theorem endFade_given {ops : ConvOps V} (c : Core (V × Multiset ℕ)) :
    blocksGiven (heldBy (c.endFade (logged ops)).1) + blocksGiven ((c.endFade (logged ops)).2.flatMap Option.toList) = blocksGiven (heldBy c) := by
  unfold Core.endFade
  by_cases h : c.sIn.isSmoothing = true
  · rw [if_pos h]; simp [given_nil]
  · rw [if_neg h]
    cases hp : c.pending with
    | none => simp [heldBy, Core.resetFade, given_append, given_nil, hp]; abel
    | some p => simp [heldBy, Core.resetFade, Core.beginFade, Core.setFadeTime, given_append, given_nil, given_cons, hp]; abel

theorem crossfade_given {ops : ConvOps V} {c c' : Core (V × Multiset ℕ)} {f : Held (V × Multiset ℕ)} {b b' : Buf} (hf : c.fade = some f)
    (e : c.crossfadeStep (logged ops) f b = some (c', b')) :
    blocksGiven (heldBy c') = Multiset.replicate (c.active.toList.length + 1) b.n + blocksGiven (heldBy c) := by
  unfold Core.crossfadeStep at e
  obtain ⟨fb, e1, e⟩ := Option.bind_eq_some_iff.mp e
  obtain ⟨a, e2, e⟩ := Option.bind_eq_some_iff.mp e
  obtain ⟨g, e3, e⟩ := Option.bind_eq_some_iff.mp e
  obtain ⟨o, e4, e⟩ := Option.bind_eq_some_iff.mp e
  cases e
  have hn : (fb.copyFrom b).n = b.n := by
    unfold Buf.sub at e1
    split at e1
    · cases e1; rfl
    · cases e1
  have h1 := runSlot_given (h' := a.1) (b' := a.2) e2
  have h2 := runHeld_given (h' := g.1) (b' := g.2) e3
  rw [hn] at h2
  simp only [heldBy, given_append, hf, Option.toList_some, given_cons, given_nil, h1, h2, Multiset.replicate_add, Multiset.replicate_one]
  abel

theorem inOut_given {ops : ConvOps V} {c c' : Core (V × Multiset ℕ)} {f : Held (V × Multiset ℕ)} {b b' : Buf} (hf : c.fade = some f)
    (e : c.inOutStep (logged ops) f b = some (c', b')) :
    blocksGiven (heldBy c') = Multiset.replicate (if c.sOut.isSmoothing then c.active.toList.length else 1) b.n + blocksGiven (heldBy c) := by
  unfold Core.inOutStep at e
  by_cases h : c.sOut.isSmoothing = true
  · rw [if_pos h] at e ⊢
    obtain ⟨a, e2, e⟩ := Option.bind_eq_some_iff.mp e
    cases e
    have h1 := runSlot_given (h' := a.1) (b' := a.2) e2
    simp only [heldBy, given_append, h1]
    abel
  · rw [if_neg h] at e ⊢
    obtain ⟨g, e3, e⟩ := Option.bind_eq_some_iff.mp e
    cases e
    have h2 := runHeld_given (h' := g.1) (b' := g.2) e3
    simp only [heldBy, given_append, hf, Option.toList_some, given_cons, given_nil, h2, Multiset.replicate_one]
    abel

/-- **C90.** One call of `process` runs exactly the convolvers that can be heard, each once, on a block of the size of the host's (the engine may be in any state `s`
when it has taken in the responses that arrived): nothing is run for a response that waits behind a fade, and at most two convolvers run. What the call
hands to the background thread is included on the left. -/
theorem C90_process_runs {ops : ConvOps V} {c c' : Core (V × Multiset ℕ)} {e : Core.Effects (V × Multiset ℕ)} {batch : List (Held (V × Multiset ℕ))} {blk : Buf}
    (h : c.call (logged ops) batch (.process blk) = some (c', e)) :
    ∃ s, s = c.service (logged ops) batch ∧
      blocksGiven (heldBy c' ++ leaving e) = Multiset.replicate (convolversHeard s) blk.n + blocksGiven (heldBy s) ∧ convolversHeard s ≤ 2 := by
  refine ⟨_, rfl, ?_⟩
  have h : (c.service (logged ops) batch).processBody (logged ops) blk = some (c', e) := h
  generalize c.service (logged ops) batch = s at *
  unfold Core.processBody at h
  cases hf : s.fade with
  | none =>
    rw [hf] at h
    obtain ⟨r, e1, e2⟩ := Option.map_eq_some_iff.mp h
    cases e2
    have h1 := runSlot_given (h' := r.1) (b' := r.2) e1
    constructor
    · have : convolversHeard s = s.active.toList.length := by unfold convolversHeard; rw [hf]; cases s.active <;> rfl
      rw [this]
      simp only [heldBy, leaving, given_append, given_nil, h1, hf, List.flatMap_nil, Option.toList_none]
      abel
    · unfold convolversHeard; rw [hf]; cases s.active <;> simp
  | some f =>
    rw [hf] at h
    obtain ⟨r, e1, e2⟩ := Option.map_eq_some_iff.mp h
    cases e2
    have hh : convolversHeard s = if s.strategy = .crossfade then s.active.toList.length + 1 else if s.sOut.isSmoothing then s.active.toList.length else 1 := by
      unfold convolversHeard; rw [hf]; cases s.active <;> rfl
    have hl : s.active.toList.length ≤ 1 := by cases s.active <;> simp
    constructor
    · have := endFade_given (ops := ops) r.1
      simp only [given_append, leaving, List.append_nil, given_nil]
      rw [this, hh]
      unfold Core.fadeStep at e1
      cases hs : s.strategy with
      | crossfade => rw [hs] at e1; rw [if_pos rfl]; exact crossfade_given (b' := r.2) hf e1
      | inOut => rw [hs] at e1; rw [if_neg (by simp)]; exact inOut_given (b' := r.2) hf e1
    · rw [hh]; split_ifs <;> omega

/-- **C90.** `reset`, `prepare` and `Clear` run no convolver. -/
theorem C90_others_run_nothing {ops : ConvOps V} {c c' : Core (V × Multiset ℕ)} {e : Core.Effects (V × Multiset ℕ)} {batch : List (Held (V × Multiset ℕ))} {k : Call}
    (hk : ∀ blk, k ≠ .process blk) (h : c.call (logged ops) batch k = some (c', e)) :
    ∃ s, s = (c.callHead k).service (logged ops) batch ∧ blocksGiven (heldBy c' ++ leaving e) = blocksGiven (heldBy s) := by
  refine ⟨_, rfl, ?_⟩
  have h : ((c.callHead k).service (logged ops) batch).callBody (logged ops) k = some (c', e) := h
  generalize (c.callHead k).service (logged ops) batch = s at *
  have hr : blocksGiven (heldBy (s.resetBody (logged ops)).1 ++ leaving (s.resetBody (logged ops)).2) = blocksGiven (heldBy s) := by
    unfold Core.resetBody
    cases ha : s.active <;> cases hf : s.fade <;> cases hp : s.pending <;>
      simp [heldBy, leaving, given_append, given_cons, given_nil, ha, hf, hp, logged] <;> abel
  cases k with
  | process blk => exact absurd rfl (hk blk)
  | reset => cases h; exact hr
  | prepare p g => cases h; exact hr
  | clear =>
    cases h
    rw [← hr]
    simp only [Core.clearBody, heldBy, leaving, given_append, given_nil, Option.toList_none, List.nil_append]
    simp only [Core.resetBody]
    cases ha : s.active <;> cases hf : s.fade <;> cases hp : s.pending <;>
      simp [given_append, given_cons, given_nil, logged] <;> abel

/-- **C90.** Taking in the responses that arrived runs nothing and changes no convolver: whatever the engine holds afterwards it held before, or has just been
given. -/
theorem C90_arrivals_run_nothing {ops : ConvOps V} (batch : List (Held (V × Multiset ℕ))) (c : Core (V × Multiset ℕ)) :
    ∀ h ∈ heldBy (c.service (logged ops) batch), h ∈ heldBy c ∨ h ∈ batch := by
  unfold Core.service
  induction batch generalizing c with
  | nil => exact fun h hh => Or.inl hh
  | cons g gs ih =>
    intro h hh
    rcases ih _ h hh with h1 | h1
    · have : h ∈ heldBy c ∨ h = g := by
        unfold Core.handle at h1
        cases ha : c.active <;> cases hf : c.fade <;> cases hp : c.pending <;>
          simp [heldBy, ha, hf, hp, Core.beginFade, Core.setFadeTime] at h1 ⊢ <;> tauto
      rcases this with h2 | h2
      · exact Or.inl h2
      · exact Or.inr (by rw [h2]; exact List.mem_cons_self)
    · exact Or.inr (List.mem_cons_of_mem _ h1)

/-! ## The notebooks are only written -/

theorem plain_handle {A : Type} {note : V × A → Buf → A} {ops : ConvOps V} (c : Core (V × A)) (g : Held (V × A)) :
    plainCore (c.handle (noted ops note) g).1 = ((plainCore c).handle ops (plainHeld g)).1 := by
  unfold Core.handle
  cases ha : c.active <;> cases hf : c.fade <;> cases hp : c.pending <;>
    simp [plainCore, ha, hf, hp, Core.beginFade, Core.setFadeTime, Core.chooseStrategy, Core.fadeLength, plainHeld, noted]

theorem plain_service {A : Type} {note : V × A → Buf → A} {ops : ConvOps V} (batch : List (Held (V × A))) (c : Core (V × A)) :
    plainCore (c.service (noted ops note) batch) = (plainCore c).service ops (batch.map plainHeld) := by
  unfold Core.service
  induction batch generalizing c with
  | nil => rfl
  | cons g gs ih => rw [List.foldl_cons, ih, List.map_cons, List.foldl_cons, plain_handle]

theorem plain_runHeld {A : Type} {note : V × A → Buf → A} {ops : ConvOps V} (h : Held (V × A)) (b : Buf) :
    (Core.runHeld (noted ops note) h b).map (fun r => (plainHeld r.1, r.2)) = Core.runHeld ops (plainHeld h) b := by
  unfold Core.runHeld noted
  simp only [Option.map_map, plainHeld]
  rfl

theorem plain_runSlot {A : Type} {note : V × A → Buf → A} {ops : ConvOps V} (h : Option (Held (V × A))) (b : Buf) :
    (Core.runSlot (noted ops note) h b).map (fun r => (r.1.map plainHeld, r.2)) = Core.runSlot ops (h.map plainHeld) b := by
  cases h with
  | none => rfl
  | some h =>
    show ((Core.runHeld (noted ops note) h b).map _).map _ = (Core.runHeld ops (plainHeld h) b).map _
    rw [← plain_runHeld, Option.map_map, Option.map_map]
    rfl

theorem plain_crossfade {A : Type} {note : V × A → Buf → A} {ops : ConvOps V} (c : Core (V × A)) (f : Held (V × A)) (b : Buf) :
    (c.crossfadeStep (noted ops note) f b).map (fun r => (plainCore r.1, r.2)) = (plainCore c).crossfadeStep ops (plainHeld f) b := by
  unfold Core.crossfadeStep
  simp only [Option.bind_eq_bind]
  show Option.map _ ((c.fadeBuf.sub 0 b.n).bind _) = (c.fadeBuf.sub 0 b.n).bind _
  cases c.fadeBuf.sub 0 b.n with
  | none => rfl
  | some fb =>
    simp only [Option.bind_some]
    show _ = (Core.runSlot ops (c.active.map plainHeld) b).bind _
    rw [← plain_runSlot, ← plain_runHeld]
    cases Core.runSlot (noted ops note) c.active b with
    | none => rfl
    | some a =>
      simp only [Option.bind_some, Option.map_some]
      cases Core.runHeld (noted ops note) f (fb.copyFrom b) with
      | none => rfl
      | some g =>
        simp only [Option.bind_some, Option.map_some]
        show Option.map _ (((a.2.multiplyBy ops.gains c.sOut).1.mix ops.gains (g.2.multiplyBy ops.gains c.sIn).1).bind _) =
          ((a.2.multiplyBy ops.gains c.sOut).1.mix ops.gains (g.2.multiplyBy ops.gains c.sIn).1).bind _
        cases (a.2.multiplyBy ops.gains c.sOut).1.mix ops.gains (g.2.multiplyBy ops.gains c.sIn).1 <;> rfl

theorem plain_inOut {A : Type} {note : V × A → Buf → A} {ops : ConvOps V} (c : Core (V × A)) (f : Held (V × A)) (b : Buf) :
    (c.inOutStep (noted ops note) f b).map (fun r => (plainCore r.1, r.2)) = (plainCore c).inOutStep ops (plainHeld f) b := by
  unfold Core.inOutStep
  show _ = if c.sOut.isSmoothing then _ else _
  by_cases h : c.sOut.isSmoothing = true
  · rw [if_pos h, if_pos h]
    simp only [Option.bind_eq_bind]
    show _ = (Core.runSlot ops (c.active.map plainHeld) b).bind _
    rw [← plain_runSlot]
    cases Core.runSlot (noted ops note) c.active b <;> rfl
  · rw [if_neg h, if_neg h]
    simp only [Option.bind_eq_bind]
    rw [← plain_runHeld]
    cases Core.runHeld (noted ops note) f b <;> rfl

theorem plain_endFade {A : Type} {note : V × A → Buf → A} {ops : ConvOps V} (c : Core (V × A)) :
    plainCore (c.endFade (noted ops note)).1 = ((plainCore c).endFade ops).1 ∧
      (c.endFade (noted ops note)).2.map (Option.map plainHeld) = ((plainCore c).endFade ops).2 := by
  unfold Core.endFade
  show _ = (if c.sIn.isSmoothing then _ else _ : Core V × _).1 ∧ _ = (if c.sIn.isSmoothing then _ else _ : Core V × _).2
  by_cases h : c.sIn.isSmoothing = true
  · rw [if_pos h, if_pos h]; exact ⟨rfl, rfl⟩
  · rw [if_neg h, if_neg h]
    cases hp : c.pending <;>
      simp [plainCore, hp, Core.beginFade, Core.setFadeTime, Core.chooseStrategy, Core.fadeLength, plainHeld, noted, Core.resetFade]

theorem plain_processBody {A : Type} {note : V × A → Buf → A} {ops : ConvOps V} (c : Core (V × A)) (b : Buf) :
    (c.processBody (noted ops note) b).map (fun r => (plainCore r.1, plainEffects r.2)) = (plainCore c).processBody ops b := by
  unfold Core.processBody
  show _ = match c.fade.map plainHeld with
    | some f => _
    | none => _
  cases hf : c.fade with
  | none =>
    simp only [Option.map_none]
    show _ = (Core.runSlot ops (c.active.map plainHeld) b).map _
    rw [← plain_runSlot, Option.map_map, Option.map_map]
    cases Core.runSlot (noted ops note) c.active b with
    | none => rfl
    | some a => simp [plainCore, plainEffects, hf]
  | some f =>
    simp only [Option.map_some]
    have : (c.fadeStep (noted ops note) f b).map (fun r => (plainCore r.1, r.2)) = (plainCore c).fadeStep ops (plainHeld f) b := by
      unfold Core.fadeStep
      show _ = match c.strategy with
        | .crossfade => _
        | .inOut => _
      cases c.strategy with
      | crossfade => exact plain_crossfade c f b
      | inOut => exact plain_inOut c f b
    rw [← this, Option.map_map, Option.map_map]
    cases c.fadeStep (noted ops note) f b with
    | none => rfl
    | some r =>
      obtain ⟨h1, h2⟩ := plain_endFade (note := note) (ops := ops) r.1
      simp [plainEffects, h1, h2]

/-- Whatever `Process` writes into the notebooks. -/
theorem noted_are_only_written {A : Type} {note : V × A → Buf → A} {ops : ConvOps V} (c : Core (V × A)) (batch : List (Held (V × A))) (k : Call) :
    (c.call (noted ops note) batch k).map (fun r => (plainCore r.1, plainEffects r.2)) = (plainCore c).call ops (batch.map plainHeld) k := by
  unfold Core.call
  have hh : plainCore (c.callHead k) = (plainCore c).callHead k := by cases k <;> rfl
  rw [← hh, ← plain_service]
  generalize (c.callHead k).service (noted ops note) batch = s
  have hr : plainCore (s.resetBody (noted ops note)).1 = ((plainCore s).resetBody ops).1 ∧
      plainEffects (s.resetBody (noted ops note)).2 = ((plainCore s).resetBody ops).2 := by
    unfold Core.resetBody
    cases ha : s.active <;> cases hf : s.fade <;> cases hp : s.pending <;> simp [plainCore, plainEffects, plainHeld, ha, hf, hp, noted]
  cases k with
  | process blk => exact plain_processBody s blk
  | reset => exact congrArg some (Prod.ext hr.1 hr.2)
  | prepare p g => exact congrArg some (Prod.ext hr.1 hr.2)
  | clear =>
    refine congrArg some (Prod.ext ?_ ?_)
    · simp only [Core.clearBody, ← hr.1]; rfl
    · simp only [Core.clearBody, ← hr.1, ← hr.2]
      generalize s.resetBody (noted ops note) = q
      cases ha : q.1.active <;> cases hp : q.1.pending <;> simp [plainEffects, plainCore, ha, hp]

/-- **C90.** The notebooks change nothing: without them a call does what it does to ordinary convolvers. -/
theorem C90_notebooks_are_only_written {ops : ConvOps V} (c : Core (V × Multiset ℕ)) (batch : List (Held (V × Multiset ℕ))) (k : Call) :
    (c.call (logged ops) batch k).map (fun r => (plainCore r.1, plainEffects r.2)) = (plainCore c).call ops (batch.map plainHeld) k :=
  noted_are_only_written (note := fun v blk => blk.n ::ₘ v.2) c batch k

/-! ## Histories -/

theorem mem_given {h : Held (V × Multiset ℕ)} {hs : List (Held (V × Multiset ℕ))} (hm : h ∈ hs) : h.obj.2 ≤ blocksGiven hs :=
  Multiset.le_iff_exists_add.mpr (by
    induction hs with
    | nil => cases hm
    | cons g gs ih =>
      rcases List.mem_cons.mp hm with rfl | hm
      · exact ⟨_, given_cons _ _⟩
      · obtain ⟨m, e⟩ := ih hm
        exact ⟨g.obj.2 + m, by rw [given_cons, e]; abel⟩)

/-- no notebook has more than `M` in it -/
def Sparing (M : Multiset ℕ) (hs : List (Held (V × Multiset ℕ))) : Prop := ∀ h ∈ hs, h.obj.2 ≤ M

theorem Sparing.run {ops : ConvOps V} {M : Multiset ℕ} {h h' : Held (V × Multiset ℕ)} {b b' : Buf} (hM : h.obj.2 ≤ M)
    (e : Core.runHeld (logged ops) h b = some (h', b')) : h'.obj.2 ≤ {b.n} + M := by
  rw [runHeld_given e]; exact Multiset.add_le_add_iff_left.mpr hM

theorem Sparing.slot {ops : ConvOps V} {M : Multiset ℕ} {h h' : Option (Held (V × Multiset ℕ))} {b b' : Buf} (hM : Sparing M h.toList)
    (e : Core.runSlot (logged ops) h b = some (h', b')) : Sparing ({b.n} + M) h'.toList := by
  cases h with
  | none => cases e; exact fun h hh => by cases hh
  | some h =>
    obtain ⟨r, e1, e2⟩ := Option.map_eq_some_iff.mp (show (Core.runHeld (logged ops) h b).map _ = _ from e)
    cases e2
    intro g hg
    simp only [Option.toList_some, List.mem_singleton] at hg
    subst hg
    exact Sparing.run (b' := r.2) (hM h (by simp)) e1

theorem Sparing.more {M : Multiset ℕ} {n : ℕ} {hs : List (Held (V × Multiset ℕ))} (h : Sparing M hs) : Sparing ({n} + M) hs :=
  fun g hg => (h g hg).trans (Multiset.le_add_left _ _)

theorem Sparing.append {M : Multiset ℕ} {hs gs : List (Held (V × Multiset ℕ))} : Sparing M (hs ++ gs) ↔ Sparing M hs ∧ Sparing M gs :=
  List.forall_mem_append

theorem Sparing.endFade {ops : ConvOps V} {M : Multiset ℕ} {c : Core (V × Multiset ℕ)} (h : Sparing M (heldBy c)) :
    Sparing M (heldBy (c.endFade (logged ops)).1) := by
  have h' : ∀ g, g ∈ heldBy (c.endFade (logged ops)).1 → g ∈ heldBy c := by
    intro g
    unfold Core.endFade
    by_cases h : c.sIn.isSmoothing = true
    · rw [if_pos h]; exact id
    · rw [if_neg h]
      cases hp : c.pending <;> cases hf : c.fade <;>
        simp [heldBy, Core.resetFade, Core.beginFade, Core.setFadeTime, hp, hf] <;> tauto
  exact fun g hg => h g (h' g hg)

theorem Sparing.process {ops : ConvOps V} {M : Multiset ℕ} {c c' : Core (V × Multiset ℕ)} {e : Core.Effects (V × Multiset ℕ)} {b : Buf} (h : Sparing M (heldBy c))
    (he : c.processBody (logged ops) b = some (c', e)) : Sparing ({b.n} + M) (heldBy c') := by
  obtain ⟨h12, hp⟩ := Sparing.append.mp h
  obtain ⟨ha, hfa⟩ := Sparing.append.mp h12
  unfold Core.processBody at he
  cases hf : c.fade with
  | none =>
    rw [hf] at he
    obtain ⟨r, e1, e2⟩ := Option.map_eq_some_iff.mp he
    cases e2
    exact Sparing.append.mpr ⟨Sparing.append.mpr ⟨Sparing.slot (b' := r.2) ha e1, by simp [Sparing]⟩, hp.more⟩
  | some f =>
    rw [hf] at he
    obtain ⟨r, e1, e2⟩ := Option.map_eq_some_iff.mp he
    cases e2
    apply Sparing.endFade
    have hf0 : f.obj.2 ≤ M := hfa f (by rw [hf]; simp)
    unfold Core.fadeStep at e1
    cases hs : c.strategy with
    | crossfade =>
      rw [hs] at e1
      simp only [Core.crossfadeStep] at e1
      obtain ⟨fb, e0, e⟩ := Option.bind_eq_some_iff.mp e1
      obtain ⟨a, e2, e⟩ := Option.bind_eq_some_iff.mp e
      obtain ⟨g, e3, e⟩ := Option.bind_eq_some_iff.mp e
      obtain ⟨o, e4, e⟩ := Option.bind_eq_some_iff.mp e
      cases e
      have hn : (fb.copyFrom b).n = b.n := by
        unfold Buf.sub at e0
        split at e0
        · cases e0; rfl
        · cases e0
      have h2 := Sparing.run (b' := g.2) hf0 e3
      rw [hn] at h2
      exact Sparing.append.mpr ⟨Sparing.append.mpr ⟨Sparing.slot (b' := a.2) ha e2, by simpa [Sparing] using h2⟩, hp.more⟩
    | inOut =>
      rw [hs] at e1
      simp only [Core.inOutStep] at e1
      by_cases hc : c.sOut.isSmoothing = true
      · rw [if_pos hc] at e1
        obtain ⟨a, e2, e⟩ := Option.bind_eq_some_iff.mp e1
        cases e
        exact Sparing.append.mpr ⟨Sparing.append.mpr ⟨Sparing.slot (b' := a.2) ha e2, hfa.more⟩, hp.more⟩
      · rw [if_neg hc] at e1
        obtain ⟨g, e3, e⟩ := Option.bind_eq_some_iff.mp e1
        cases e
        have h2 := Sparing.run (b' := g.2) hf0 e3
        exact Sparing.append.mpr ⟨Sparing.append.mpr ⟨ha.more, by simpa [Sparing] using h2⟩, hp.more⟩

theorem Sparing.reset {ops : ConvOps V} {M : Multiset ℕ} {c : Core (V × Multiset ℕ)} (h : Sparing M (heldBy c)) : Sparing M (heldBy (c.resetBody (logged ops)).1) := by
  revert h
  unfold Core.resetBody
  cases ha : c.active <;> cases hf : c.fade <;> cases hp : c.pending <;> simp [heldBy, Sparing, ha, hf, hp, logged] <;> tauto

theorem Sparing.call {ops : ConvOps V} {M : Multiset ℕ} {c c' : Core (V × Multiset ℕ)} {e : Core.Effects (V × Multiset ℕ)} {batch : List (Held (V × Multiset ℕ))}
    {k : Call} (h : Sparing M (heldBy c)) (hb : ∀ g ∈ batch, g.obj.2 = 0) (he : c.call (logged ops) batch k = some (c', e)) :
    Sparing (sizesProcessed [(batch, k)] + M) (heldBy c') := by
  have hh : heldBy (c.callHead k) = heldBy c := by cases k <;> rfl
  have h1 : Sparing M (heldBy ((c.callHead k).service (logged ops) batch)) := by
    intro g hg
    rcases C90_arrivals_run_nothing batch _ g hg with h2 | h2
    · exact h g (by rw [← hh]; exact h2)
    · rw [hb g h2]; exact Multiset.zero_le _
  have he : ((c.callHead k).service (logged ops) batch).callBody (logged ops) k = some (c', e) := he
  generalize (c.callHead k).service (logged ops) batch = s at *
  cases k with
  | process blk =>
    simp only [sizesProcessed, List.map_cons, List.map_nil, List.sum_cons, List.sum_nil, add_zero]
    exact h1.process he
  | reset =>
    cases he
    simp only [sizesProcessed, List.map_cons, List.map_nil, List.sum_cons, List.sum_nil, add_zero, zero_add]
    exact h1.reset
  | prepare p g =>
    cases he
    simp only [sizesProcessed, List.map_cons, List.map_nil, List.sum_cons, List.sum_nil, add_zero, zero_add]
    exact h1.reset
  | clear =>
    cases he
    have := h1.reset (ops := ops)
    simp only [sizesProcessed, List.map_cons, List.map_nil, List.sum_cons, List.sum_nil, add_zero, zero_add]
    refine fun g hg => this g ?_
    simp only [heldBy, Core.clearBody, Option.toList_none, List.nil_append, List.append_nil] at hg
    exact List.mem_append_left _ (List.mem_append_right _ hg)

/-- **C90.** In any history of calls on a new engine no convolver is run more than once per call of `process`: the blocks it has been given are among those of the history. -/
theorem C90_once_per_block {ops : ConvOps V} {hist : List (List (Held (V × Multiset ℕ)) × Call)} (hnew : ∀ k ∈ hist, ∀ g ∈ k.1, g.obj.2 = 0)
    {c : Core (V × Multiset ℕ)} (h : ({} : Core (V × Multiset ℕ)).calls (logged ops) hist = some c) : ∀ g ∈ heldBy c, g.obj.2 ≤ sizesProcessed hist := by
  have key : ∀ (hist : List (List (Held (V × Multiset ℕ)) × Call)) (M : Multiset ℕ) (c0 : Core (V × Multiset ℕ)), (∀ k ∈ hist, ∀ g ∈ k.1, g.obj.2 = 0) →
      Sparing M (heldBy c0) → c0.calls (logged ops) hist = some c → Sparing (sizesProcessed hist + M) (heldBy c) := by
    intro hist
    induction hist with
    | nil => intro M c0 _ h0 hc; cases hc; simpa [sizesProcessed] using h0
    | cons k ks ih =>
      intro M c0 hk h0 hc
      obtain ⟨r, e1, e2⟩ := Option.bind_eq_some_iff.mp (show (c0.call (logged ops) k.1 k.2).bind _ = _ from hc)
      have := ih _ _ (fun k' hk' => hk k' (List.mem_cons_of_mem _ hk')) (h0.call (e := r.2) (hk k List.mem_cons_self) e1) e2
      have e : sizesProcessed (k :: ks) + M = sizesProcessed ks + (sizesProcessed [(k.1, k.2)] + M) := by
        simp only [sizesProcessed, List.map_cons, List.map_nil, List.sum_cons, List.sum_nil, add_zero]; abel
      rw [e]; exact this
  have := key hist 0 {} hnew (fun g hg => by cases hg) h
  rwa [add_zero] at this

/-! ## A case -/

/-- convolvers that leave the block as it is -/
noncomputable def throughOps : ConvOps Unit := ⟨fun v b => some (v, b), id, fun _ => 100, fun _ => .crossfade, .exact⟩

/-- An engine in the middle of a crossfade, with a third response waiting. -/
noncomputable def busyEngine : Core (Unit × Multiset ℕ) :=
  { active := some ⟨0, ((), {10})⟩, fade := some ⟨1, ((), 0)⟩, pending := some ⟨2, ((), 0)⟩, sIn := ⟨0, 1, 1/100, 100, 100⟩, sOut := ⟨1, 0, -1/100, 100, 100⟩
    fadeBuf := ⟨2, 64, fun _ _ => 0⟩, spec := some ⟨1000, 64, 2⟩, strategy := .crossfade, lower := 100, upper := 4000, maxCrossfade := 10000, inOut := 400 }

/-- A new engine that is prepared, gets a response and plays a block with it: that block is in the notebook. Then a crossfade, with another response arriving: the block goes to
both convolvers of the fade, and not to the ones waiting. -/
example : (∃ c, ({} : Core (Unit × Multiset ℕ)).calls (logged throughOps) [([], .prepare ⟨1, 64, 2⟩ fun _ _ => 0), ([⟨0, ((), 0)⟩], .process ⟨2, 10, fun _ _ => 1⟩)] = some c ∧
      blocksGiven (heldBy c) = {10}) ∧
    ∃ c' e, busyEngine.call (logged throughOps) [⟨3, ((), 0)⟩] (.process ⟨2, 20, fun _ _ => 1⟩) = some (c', e) ∧ blocksGiven (heldBy c' ++ leaving e) = {20, 20, 10} := by
  refine ⟨⟨_, rfl, rfl⟩, ?_⟩
  have e : ∃ r, busyEngine.call (logged throughOps) [⟨3, ((), 0)⟩] (.process ⟨2, 20, fun _ _ => 1⟩) = some r := ⟨_, rfl⟩
  obtain ⟨⟨c', e⟩, h⟩ := e
  obtain ⟨s, rfl, h1, _⟩ := C90_process_runs h
  refine ⟨c', e, h, ?_⟩
  rw [h1]
  rfl

end Zones.Props
