import Verif.Proofs.EngineKeeps

/-! A property of convolvers that depends on how many samples the engine has processed since some moment. Convolvers the engine does not
run while a fade goes on are new, or will not be run again. -/

open Zones.Model Zones.Spec

namespace Zones.Proofs

variable {V : Type}

/-- A property of blocks that depends on their samples only. -/
def OfSamples (Q : Buf → Prop) : Prop :=
  ∀ b b' : Buf, b'.ch = b.ch → b'.n = b.n → (∀ ch < b.ch, ∀ i < b.n, b'.data ch i = b.data ch i) → Q b → Q b'

/-- `P n` turns into `P (n + t k)` when a block of `k` samples of the class `Q` is processed (if `t` is 0, for `n = 0` only); it
holds for every `n` after a reset. -/
structure Ages (ops : ConvOps V) (N t : ℕ) (Q : Buf → Prop) (P : ℕ → ℕ → V → Prop) : Prop where
  samples : OfSamples Q
  process : ∀ n, (t = 0 → n = 0) → ∀ i v blk v' o, P n i v → blk.ch = N → Q blk → ops.process v blk = some (v', o) → P (n + t * blk.n) i v'
  reset : ∀ n i v, P n i v → ∀ m, P m i (ops.reset v)

/-- What is known of the convolvers held, `n` samples after the beginning. -/
structure Aged (P : ℕ → ℕ → V → Prop) (n : ℕ) (c : Core V) : Prop where
  pending : ∀ p, c.pending = some p → ∀ m, P m p.id p.obj
  fade : ∀ f, c.fade = some f → P n f.id f.obj
  active : (c.fade = none ∨ c.strategy = .crossfade ∨ c.sOut.isSmoothing = true) → ∀ a, c.active = some a → P n a.id a.obj
  wait : ∀ f, c.fade = some f → c.strategy = .inOut → c.sOut.isSmoothing = true → ∀ m, P m f.id f.obj

variable {P : ℕ → ℕ → V → Prop} {ops : ConvOps V} {N t : ℕ}

theorem Aged.beginFade {n : ℕ} {c : Core V} (ha : ∀ a, c.active = some a → P n a.id a.obj) (hp : c.pending = none) {g : Held V}
    (hg : ∀ m, P m g.id g.obj) : Aged P n (c.beginFade ops g) := by
  refine ⟨fun p h => ?_, fun f h => ?_, fun _ a h => ha a h, fun f h _ _ => ?_⟩
  · rw [show (c.beginFade ops g).pending = c.pending from rfl, hp] at h; cases h
  · cases h; exact hg n
  · cases h; exact hg

theorem Aged.handle {n : ℕ} {c : Core V} (h : Aged P n c) {g : Held V} (hg : ∀ m, P m g.id g.obj) : Aged P n (c.handle ops g).1 := by
  cases ha : c.active with
  | none =>
    rw [handle_none ha]
    exact ⟨h.pending, h.fade, fun _ a e => by cases e; exact hg n, h.wait⟩
  | some a =>
    cases hf : c.fade with
    | none =>
      rw [handle_begin ha hf]
      exact Aged.beginFade (c := { c with pending := none }) (h.active (Or.inl hf)) rfl hg
    | some f =>
      rw [handle_fading ha hf]
      exact ⟨fun p e => by cases e; exact hg, h.fade, h.active, h.wait⟩

theorem Aged.service {n : ℕ} : ∀ (batch : List (Held V)) {c : Core V}, Aged P n c → (∀ g ∈ batch, ∀ m, P m g.id g.obj) → Aged P n (c.service ops batch)
  | [], _, h, _ => h
  | g :: gs, _, h, hg => Aged.service gs (h.handle (hg g (by simp))) fun x hx => hg x (by simp [hx])

theorem Aged.resetFade {n : ℕ} {c : Core V} (h : Aged P n c) : Aged P n c.resetFade := by
  refine ⟨h.pending, h.fade, fun hc => h.active ?_, fun f _ _ hs => (by cases hs)⟩
  rcases hc with hc | hc | hc
  · exact Or.inl hc
  · exact Or.inr (Or.inl hc)
  · cases hc

theorem Aged.head {n : ℕ} {c : Core V} (h : Aged P n c) (k : Call) : Aged P n (c.callHead k) := by
  cases k with
  | process blk => exact h
  | reset => exact h.resetFade
  | clear => exact h.resetFade
  | prepare p g => exact Aged.resetFade (c := c.prepareHead p g) ⟨h.pending, h.fade, h.active, h.wait⟩

theorem Aged.endFade {n : ℕ} {c : Core V} (h : Aged P n c) : Aged P n (c.endFade ops).1 := by
  rcases endFade_slots (ops := ops) (c := c) with ⟨_, e⟩ | ⟨_, hp, e⟩ | ⟨p, _, hp, e⟩
  · rw [e]; exact h
  · rw [e]
    exact ⟨h.pending, fun f e => (by cases e), fun _ a e => h.fade a e, fun f e => (by cases e)⟩
  · rw [e]
    exact Aged.beginFade (c := ({ c with active := c.fade, fade := none, pending := none } : Core V).resetFade) (fun a e => h.fade a e) rfl (h.pending p hp)

theorem Aged.resetBody {n : ℕ} {Q : Buf → Prop} (hA : Ages ops N t Q P) {c : Core V} (h : Aged P n c) : Aged P n (c.resetBody ops).1 := by
  cases hp : c.pending with
  | some p =>
    rw [resetBody_pending hp]
    exact ⟨fun x hx => (by cases hx), h.fade, fun _ a e => by cases e; exact hA.reset n _ _ (h.pending p hp n) n, h.wait⟩
  | none =>
    cases hf : c.fade with
    | some f =>
      rw [resetBody_fade hp hf]
      refine ⟨fun x hx => ?_, fun x hx => (by cases hx), fun _ a e => by cases e; exact hA.reset n _ _ (h.fade f hf) n, fun x hx => (by cases hx)⟩
      simp only [hp] at hx
      cases hx
    | none =>
      rw [resetBody_plain hp hf]
      refine ⟨h.pending, h.fade, fun _ a e => ?_, h.wait⟩
      cases ha : c.active with
      | none =>
        simp only [ha] at e
        cases e
      | some a' =>
        simp only [ha, Option.map_some, Option.some.injEq] at e
        subst e
        exact hA.reset n _ _ (h.active (Or.inl hf) a' ha) n

theorem Aged.clearBody {n : ℕ} {Q : Buf → Prop} (hA : Ages ops N t Q P) {c : Core V} (h : Aged P n c) : Aged P n (c.clearBody ops).1 := by
  have h1 := h.resetBody hA
  exact ⟨fun x hx => (by cases hx), h1.fade, fun _ a e => (by cases e), h1.wait⟩

theorem runHeld_ages {Q : Buf → Prop} (hA : Ages ops N t Q P) {n : ℕ} (ht : t = 0 → n = 0) {h h' : Held V} {blk o : Buf} (hb : blk.ch = N) (hq : Q blk)
    (hP : P n h.id h.obj) (e : Core.runHeld ops h blk = some (h', o)) : P (n + t * blk.n) h'.id h'.obj := by
  unfold Core.runHeld at e
  cases hr : ops.process h.obj blk with
  | none => rw [hr] at e; cases e
  | some r =>
    rw [hr] at e
    cases e
    exact hA.process n ht h.id h.obj blk r.1 r.2 hP hb hq hr

theorem runSlot_ages {Q : Buf → Prop} (hA : Ages ops N t Q P) {n : ℕ} (ht : t = 0 → n = 0) {s s' : Option (Held V)} {blk o : Buf} (hb : blk.ch = N) (hq : Q blk)
    (hP : ∀ h, s = some h → P n h.id h.obj) (e : Core.runSlot ops s blk = some (s', o)) : ∀ h, s' = some h → P (n + t * blk.n) h.id h.obj := by
  cases s with
  | none => cases e; intro h hh; cases hh
  | some a =>
    unfold Core.runSlot at e
    cases hr : Core.runHeld ops a blk with
    | none => simp only [hr] at e; cases e
    | some r =>
      simp only [hr] at e
      cases e
      intro h hh
      cases hh
      exact runHeld_ages hA ht hb hq (hP a rfl) hr

/-- The copy of the block made for the crossfade. -/
theorem copy_samples {fb blk : Buf} (hc : fb.ch = blk.ch) (hn : fb.n = blk.n) {Q : Buf → Prop} (hQ : OfSamples Q) (h : Q blk) : Q (fb.copyFrom blk) := by
  refine hQ blk _ hc hn (fun ch hch i hi => ?_) h
  show (if ch < min fb.ch blk.ch ∧ i < min fb.n blk.n then blk.data ch i else fb.data ch i) = _
  rw [if_pos (by rw [hc, hn]; omega)]

theorem sub_shape {b fb : Buf} {k n : ℕ} (e : b.sub k n = some fb) : fb.ch = b.ch ∧ fb.n = n := by
  unfold Buf.sub at e
  split at e
  · cases e; exact ⟨rfl, rfl⟩
  · cases e

theorem Aged.fadeStep {Q : Buf → Prop} (hA : Ages ops N t Q P) {n : ℕ} (ht : t = 0 → n = 0) {c c' : Core V} (h : Aged P n c) (hbuf : c.fadeBuf.ch = N)
    {f : Held V} (hf : c.fade = some f) {blk o : Buf} (hb : blk.ch = N) (hq : Q blk) (e : c.fadeStep ops f blk = some (c', o)) : Aged P (n + t * blk.n) c' := by
  cases hs : c.strategy with
  | crossfade =>
    have e : c.crossfadeStep ops f blk = some (c', o) := by
      unfold Core.fadeStep at e
      rw [hs] at e
      exact e
    unfold Core.crossfadeStep at e
    simp only [Option.bind_eq_bind, Option.bind_eq_some_iff] at e
    obtain ⟨fb, efb, a, ea, f', ef, out, eo, e⟩ := e
    cases e
    obtain ⟨h1, h2⟩ := sub_shape efb
    have k1 := runSlot_ages hA ht hb hq (h.active (Or.inr (Or.inl hs))) ea
    have k2 := runHeld_ages hA ht (show (fb.copyFrom blk).ch = N from h1.trans hbuf) (copy_samples (by rw [h1, hbuf, hb]) h2 hA.samples hq) (h.fade f hf) ef
    rw [show (fb.copyFrom blk).n = blk.n from h2] at k2
    exact ⟨h.pending, fun x hx => by cases hx; exact k2, fun _ a e => k1 a e, fun x _ hc => (by rw [show _ = c.strategy from rfl, hs] at hc; cases hc)⟩
  | inOut =>
    have e : c.inOutStep ops f blk = some (c', o) := by
      unfold Core.fadeStep at e
      rw [hs] at e
      exact e
    unfold Core.inOutStep at e
    split at e
    · next hsm =>
      simp only [Option.bind_eq_bind, Option.bind_eq_some_iff] at e
      obtain ⟨a, ea, e⟩ := e
      cases e
      have k1 := runSlot_ages hA ht hb hq (h.active (Or.inr (Or.inr hsm))) ea
      exact ⟨h.pending, fun x hx => h.wait x hx hs hsm _, fun _ a e => k1 a e, fun x hx _ _ => h.wait x hx hs hsm⟩
    · next hsm =>
      simp only [Option.bind_eq_bind, Option.bind_eq_some_iff] at e
      obtain ⟨f', ef, e⟩ := e
      cases e
      have k2 := runHeld_ages hA ht hb hq (h.fade f hf) ef
      refine ⟨h.pending, fun x hx => by cases hx; exact k2, fun hc => ?_, fun x _ _ hc => absurd hc hsm⟩
      rcases hc with hc | hc | hc
      · cases hc
      · rw [show _ = c.strategy from rfl, hs] at hc; cases hc
      · exact absurd hc hsm

theorem Aged.process {Q : Buf → Prop} (hA : Ages ops N t Q P) {n : ℕ} (ht : t = 0 → n = 0) {c c' : Core V} (h : Aged P n c) (hbuf : c.fade ≠ none → c.fadeBuf.ch = N)
    {blk : Buf} (hb : blk.ch = N) (hq : Q blk) {e : Core.Effects V} (ec : c.processBody ops blk = some (c', e)) : Aged P (n + t * blk.n) c' := by
  cases hf : c.fade with
  | none =>
    rw [processBody_none hf] at ec
    cases hr : Core.runSlot ops c.active blk with
    | none => rw [hr] at ec; cases ec
    | some r =>
      rw [hr] at ec
      cases ec
      have k := runSlot_ages hA ht hb hq (h.active (Or.inl hf)) hr
      exact ⟨h.pending, fun f e => (by rw [show _ = c.fade from rfl, hf] at e; cases e), fun _ a e => k a e, fun f e => (by rw [show _ = c.fade from rfl, hf] at e; cases e)⟩
  | some f =>
    rw [processBody_some hf] at ec
    cases hr : c.fadeStep ops f blk with
    | none => rw [hr] at ec; cases ec
    | some r =>
      rw [hr] at ec
      cases ec
      exact (h.fadeStep hA ht (hbuf (by rw [hf]; simp)) hf hb hq hr).endFade

/-- The number of samples a call processes. -/
def callLength : Call → ℕ
  | .process blk => blk.n
  | _ => 0

theorem call_aged {Good : V → Prop} {Q : Buf → Prop} (hA : Ages ops N t Q P) {batch : List (Held V)} {k : Call} {rest : List (List (Held V) × Call)} {M : Option ℕ}
    {c : Core V} (hk : Known N Good M c) (hw : WellFormed N Good M ((batch, k) :: rest)) {n : ℕ} (ht : t = 0 → n = 0) (h : Aged P n c) (hb : ∀ g ∈ batch, ∀ m, P m g.id g.obj)
    (hq : ∀ blk, k = .process blk → Q blk) {r : Core V × Core.Effects V} (hc : c.call ops batch k = some r) : Aged P (n + t * callLength k) r.1 := by
  obtain ⟨hw1, hw2, hw3⟩ := hw
  have hs : Aged P n ((c.callHead k).service ops batch) := (h.head k).service batch hb
  cases k with
  | process blk =>
    refine hs.process hA ht ?_ hw3.1 (hq blk rfl) hc
    intro hf
    cases M with
    | none =>
      have hb0 := hw2 rfl (fun _ _ hc => by cases hc)
      subst hb0
      exact absurd hk.1.2.1 hf
    | some m => exact (hk.2.1.service (ops := ops) hw1).bufCh
  | reset => cases hc; exact hs.resetBody hA
  | clear => cases hc; exact hs.clearBody hA
  | prepare p g => cases hc; exact hs.resetBody hA

end Zones.Proofs
