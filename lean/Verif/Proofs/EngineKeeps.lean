import Verif.Proofs.EngineHistory

/-! A property of the convolver with a given identity that processing and resetting it preserve holds of whatever the engine
holds. -/

open Zones.Model Zones.Spec

namespace Zones.Proofs

variable {V : Type}

/-- `P id` holds of every convolver the engine holds. -/
def Keeps (P : ℕ → V → Prop) (c : Core V) : Prop :=
  (∀ h, c.active = some h → P h.id h.obj) ∧ (∀ h, c.fade = some h → P h.id h.obj) ∧ (∀ h, c.pending = some h → P h.id h.obj)

/-- Preserved by `process` on blocks of `N` channels and by `reset`. -/
structure Lasting (ops : ConvOps V) (N : ℕ) (P : ℕ → V → Prop) : Prop where
  process : ∀ i v blk v' o, P i v → blk.ch = N → ops.process v blk = some (v', o) → P i v'
  reset : ∀ i v, P i v → P i (ops.reset v)

theorem Keeps.handle {ops : ConvOps V} {P : ℕ → V → Prop} {c : Core V} (h : Keeps P c) {g : Held V} (hg : P g.id g.obj) :
    Keeps P (c.handle ops g).1 := by
  obtain ⟨h1, h2, h3⟩ := h
  cases ha : c.active with
  | none =>
    rw [handle_none ha]
    exact ⟨fun x hx => by cases hx; exact hg, h2, h3⟩
  | some a =>
    cases hf : c.fade with
    | none =>
      rw [handle_begin ha hf]
      exact ⟨h1, fun x hx => by cases hx; exact hg, fun x hx => by cases hx⟩
    | some f =>
      rw [handle_fading ha hf]
      exact ⟨h1, h2, fun x hx => by cases hx; exact hg⟩

theorem Keeps.service {ops : ConvOps V} {P : ℕ → V → Prop} : ∀ (batch : List (Held V)) {c : Core V}, Keeps P c →
    (∀ g ∈ batch, P g.id g.obj) → Keeps P (c.service ops batch)
  | [], _, h, _ => h
  | g :: gs, _, h, hg => Keeps.service gs (h.handle (hg g (by simp))) fun x hx => hg x (by simp [hx])

theorem Keeps.endFade {ops : ConvOps V} {P : ℕ → V → Prop} {c : Core V} (h : Keeps P c) : Keeps P (c.endFade ops).1 := by
  obtain ⟨h1, h2, h3⟩ := h
  rcases endFade_slots (ops := ops) (c := c) with ⟨_, e⟩ | ⟨_, hp, e⟩ | ⟨p, _, hp, e⟩
  · rw [e]; exact ⟨h1, h2, h3⟩
  · rw [e]; exact ⟨h2, fun x hx => (by cases hx), h3⟩
  · rw [e]; exact ⟨h2, fun x hx => by cases hx; exact h3 _ hp, fun x hx => by cases hx⟩

theorem runHeld_keeps {ops : ConvOps V} {N : ℕ} {P : ℕ → V → Prop} (hL : Lasting ops N P) {h h' : Held V} {blk o : Buf} (hb : blk.ch = N)
    (hP : P h.id h.obj) (e : Core.runHeld ops h blk = some (h', o)) : P h'.id h'.obj := by
  unfold Core.runHeld at e
  cases hq : ops.process h.obj blk with
  | none => rw [hq] at e; cases e
  | some r =>
    rw [hq] at e
    cases e
    exact hL.process h.id h.obj blk r.1 r.2 hP hb hq

theorem runSlot_keeps {ops : ConvOps V} {N : ℕ} {P : ℕ → V → Prop} (hL : Lasting ops N P) {s s' : Option (Held V)} {blk o : Buf} (hb : blk.ch = N)
    (hP : ∀ h, s = some h → P h.id h.obj) (e : Core.runSlot ops s blk = some (s', o)) : ∀ h, s' = some h → P h.id h.obj := by
  cases s with
  | none => cases e; exact hP
  | some a =>
    unfold Core.runSlot at e
    cases hq : Core.runHeld ops a blk with
    | none => simp only [hq] at e; cases e
    | some r =>
      simp only [hq] at e
      cases e
      intro h hh
      cases hh
      exact runHeld_keeps hL hb (hP a rfl) hq

theorem Keeps.fadeStep {ops : ConvOps V} {N : ℕ} {P : ℕ → V → Prop} (hL : Lasting ops N P) {c c' : Core V} (h : Keeps P c) (hbuf : c.fadeBuf.ch = N)
    {f : Held V} (hf : c.fade = some f) {blk o : Buf} (hb : blk.ch = N) (e : c.fadeStep ops f blk = some (c', o)) : Keeps P c' := by
  obtain ⟨h1, h2, h3⟩ := h
  cases hs : c.strategy with
  | crossfade =>
    have e : c.crossfadeStep ops f blk = some (c', o) := by
      unfold Core.fadeStep at e
      rw [hs] at e
      exact e
    unfold Core.crossfadeStep at e
    simp only [Option.bind_eq_bind, Option.bind_eq_some_iff] at e
    obtain ⟨fb, efb, a, ea, f', ef, out, _, e⟩ := e
    cases e
    have hfb : (fb.copyFrom blk).ch = N := by
      unfold Buf.sub at efb
      split at efb
      · cases efb; exact hbuf
      · cases efb
    exact ⟨runSlot_keeps hL hb h1 ea, fun x hx => by cases hx; exact runHeld_keeps hL hfb (h2 f hf) ef, h3⟩
  | inOut =>
    have e : c.inOutStep ops f blk = some (c', o) := by
      unfold Core.fadeStep at e
      rw [hs] at e
      exact e
    unfold Core.inOutStep at e
    split at e
    · simp only [Option.bind_eq_bind, Option.bind_eq_some_iff] at e
      obtain ⟨a, ea, e⟩ := e
      cases e
      exact ⟨runSlot_keeps hL hb h1 ea, h2, h3⟩
    · simp only [Option.bind_eq_bind, Option.bind_eq_some_iff] at e
      obtain ⟨f', ef, e⟩ := e
      cases e
      exact ⟨h1, fun x hx => by cases hx; exact runHeld_keeps hL hb (h2 f hf) ef, h3⟩

theorem Keeps.process {ops : ConvOps V} {N : ℕ} {P : ℕ → V → Prop} (hL : Lasting ops N P) {c c' : Core V} (h : Keeps P c)
    (hbuf : c.fade ≠ none → c.fadeBuf.ch = N)
    {blk : Buf} (hb : blk.ch = N) {e : Core.Effects V} (ec : c.processBody ops blk = some (c', e)) : Keeps P c' := by
  cases hf : c.fade with
  | none =>
    rw [processBody_none hf] at ec
    cases hr : Core.runSlot ops c.active blk with
    | none => rw [hr] at ec; cases ec
    | some r =>
      rw [hr] at ec
      cases ec
      exact ⟨runSlot_keeps hL hb h.1 hr, h.2⟩
  | some f =>
    rw [processBody_some hf] at ec
    cases hr : c.fadeStep ops f blk with
    | none => rw [hr] at ec; cases ec
    | some r =>
      rw [hr] at ec
      cases ec
      exact (h.fadeStep hL (hbuf (by rw [hf]; simp)) hf hb hr).endFade

theorem Keeps.resetBody {ops : ConvOps V} {N : ℕ} {P : ℕ → V → Prop} (hL : Lasting ops N P) {c : Core V} (h : Keeps P c) :
    Keeps P (c.resetBody ops).1 := by
  obtain ⟨h1, h2, h3⟩ := h
  cases hp : c.pending with
  | some p =>
    rw [resetBody_pending hp]
    exact ⟨fun x hx => by cases hx; exact hL.reset _ _ (h3 p hp), h2, fun x hx => by cases hx⟩
  | none =>
    cases hf : c.fade with
    | some f =>
      rw [resetBody_fade hp hf]
      exact ⟨fun x hx => by cases hx; exact hL.reset _ _ (h2 f hf), fun x hx => (by cases hx), h3⟩
    | none =>
      rw [resetBody_plain hp hf]
      refine ⟨fun x hx => ?_, h2, h3⟩
      cases ha : c.active with
      | none =>
        simp only [ha] at hx
        cases hx
      | some a =>
        simp only [ha, Option.map_some, Option.some.injEq] at hx
        subst hx
        exact hL.reset _ _ (h1 a ha)

theorem Keeps.clearBody {ops : ConvOps V} {N : ℕ} {P : ℕ → V → Prop} (hL : Lasting ops N P) {c : Core V} (h : Keeps P c) :
    Keeps P (c.clearBody ops).1 :=
  ⟨fun x hx => (by cases hx), (h.resetBody hL).2.1, fun x hx => (by cases hx)⟩

/-- Delivered responses have the property. -/
def Delivers (P : ℕ → V → Prop) (hist : List (List (Held V) × Call)) : Prop := ∀ b ∈ hist, ∀ g ∈ b.1, P g.id g.obj

theorem calls_keeps {N : ℕ} {Good : V → Prop} {ops : ConvOps V} (hA : Accepts ops N Good) {P : ℕ → V → Prop} (hL : Lasting ops N P) :
    ∀ (hist : List (List (Held V) × Call)) (M : Option ℕ) (c c' : Core V), Known N Good M c → WellFormed N Good M hist → Keeps P c →
      Delivers P hist → c.calls ops hist = some c' → Keeps P c'
  | [], M, c, c', _, _, h, _, e => by cases e; exact h
  | (batch, k) :: rest, M, c, c', hk, hw, h, hd, e => by
    have hb : ∀ g ∈ batch, P g.id g.obj := fun g hg => hd (batch, k) (by simp) g hg
    obtain ⟨r, M', hc, hk', hw', _⟩ := call_known hA hk hw
    unfold Core.calls at e
    simp only [hc, Option.bind_some] at e
    obtain ⟨hw1, hw2, hw3⟩ := hw
    have hhead : Keeps P (c.callHead k) := by
      cases k <;> exact h
    have hs : Keeps P ((c.callHead k).service ops batch) := hhead.service batch hb
    have key : Keeps P r.1 := by
      cases k with
      | process blk =>
        refine hs.process hL ?_ hw3.1 hc
        intro hf
        cases M with
        | none =>
          have hb0 := hw2 rfl (fun _ _ hc => by cases hc)
          subst hb0
          exact absurd hk.1.2.1 hf
        | some m => exact (hk.2.1.service (ops := ops) hw1).bufCh
      | reset => cases hc; exact hs.resetBody hL
      | clear => cases hc; exact hs.clearBody hL
      | prepare p g => cases hc; exact hs.resetBody hL
    exact calls_keeps hA hL rest M' r.1 c' hk' hw' key (fun b hb => hd b (by simp [hb])) e

end Zones.Proofs
