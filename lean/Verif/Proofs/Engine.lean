import Verif.Proofs.Smooth
import Verif.Spec.Engine

/-! Invariants of the engine's slots and smoothers. -/

open Zones.Model Zones.Spec

namespace Zones.Proofs

variable {V : Type}

/-- The engine has been prepared for `N` channels and blocks of `M` samples at a positive sample rate, and holds only
`Good` convolvers. -/
structure Ready (N M : ℕ) (Good : V → Prop) (c : Core V) : Prop where
  active : ∀ h, c.active = some h → Good h.obj
  fade : ∀ h, c.fade = some h → Good h.obj
  pending : ∀ h, c.pending = some h → Good h.obj
  bufCh : c.fadeBuf.ch = N
  bufN : c.fadeBuf.n = M
  lower : 1 ≤ c.lower
  le : c.lower ≤ c.upper
  inOut : 1 ≤ c.inOut

/-- Smoothers at rest: the next fade starts from the old convolver. -/
def Rest (c : Core V) : Prop :=
  c.sIn.current = 0 ∧ c.sIn.target = 0 ∧ c.sIn.countdown = 0 ∧ c.sOut.current = 1 ∧ c.sOut.target = 1 ∧ c.sOut.countdown = 0

/-- A fade to `f` of length `n` is in progress: `j` samples faded out, `j'` samples faded in. -/
structure FadingAt (ops : ConvOps V) (c : Core V) (f : Held V) (n j j' : ℕ) : Prop where
  slot : c.fade = some f
  active : c.active ≠ none
  strategy : c.strategy = c.chooseStrategy ops f.obj
  length : (n : ℤ) = c.fadeLength ops f.obj
  pos : 0 < n
  sOut : c.sOut = ramp ops.gains 1 0 n j
  sIn : c.sIn = ramp ops.gains 0 1 n j'
  hj : j ≤ n
  hj' : j' < n
  cross : c.strategy = .crossfade → j' = j
  inout : c.strategy = .inOut → j < n → j' = 0

/-- Either nothing is fading and the smoothers are at rest, or one fade is in progress. -/
def Playing (ops : ConvOps V) (c : Core V) : Prop :=
  (c.fade = none ∧ c.pending = none ∧ Rest c) ∨ ∃ f n j j', FadingAt ops c f n j j'

/-- The newest convolver the engine knows. -/
def newest (c : Core V) : Option ℕ := ((c.pending <|> c.fade <|> c.active).map Held.id)

theorem resetFade_rest (c : Core V) : Rest c.resetFade := ⟨rfl, rfl, rfl, rfl, rfl, rfl⟩

theorem clamp_bounds {v lo hi : ℤ} (h : lo ≤ hi) : lo ≤ clampInt v lo hi ∧ clampInt v lo hi ≤ hi := by
  unfold clampInt
  split_ifs <;> omega

theorem fadeLength_pos {N M : ℕ} {Good : V → Prop} {ops : ConvOps V} {c : Core V} (h : Ready N M Good c) (v : V) :
    1 ≤ c.fadeLength ops v := by
  unfold Core.fadeLength
  split
  · exact le_trans h.lower (clamp_bounds h.le).1
  · exact h.inOut

theorem smooth_begin {g : GainArith} {s : Smooth} {a b : ℝ} (hab : b ≠ a) (ht : s.target = a) {n : ℕ} (hn : 0 < n) :
    (s.reset (n : ℤ)).setTarget g b = ramp g a b n 0 := by
  have hns : ¬ ((n : ℤ) ≤ 0) := by omega
  simp only [Smooth.reset, Smooth.setCurrentAndTarget, Smooth.setTarget, ramp, hns, if_false, hn, if_true, ht, hab,
    Int.toNat_natCast, rampAt, Nat.sub_zero]

theorem beginFade_at {N M : ℕ} {Good : V → Prop} {ops : ConvOps V} {c : Core V} (h : Ready N M Good c) (hr : Rest c)
    (ha : c.active ≠ none) (f : Held V) :
    FadingAt ops (c.beginFade ops f) f (c.fadeLength ops f.obj).toNat 0 0 ∧ (c.beginFade ops f).active = c.active ∧
      (c.beginFade ops f).pending = c.pending := by
  have hpos := fadeLength_pos (ops := ops) h f.obj
  have hn : ((c.fadeLength ops f.obj).toNat : ℤ) = c.fadeLength ops f.obj := Int.toNat_of_nonneg (by omega)
  refine ⟨⟨rfl, ha, rfl, ?_, by omega, ?_, ?_, by omega, by omega, fun _ => rfl, fun _ _ => rfl⟩, rfl, rfl⟩
  · rw [hn]; rfl
  · show (c.sOut.reset (c.fadeLength ops f.obj)).setTarget ops.gains 0 = _
    rw [← hn]
    exact smooth_begin (by norm_num) hr.2.2.2.2.1 (by omega)
  · show (c.sIn.reset (c.fadeLength ops f.obj)).setTarget ops.gains 1 = _
    rw [← hn]
    exact smooth_begin (by norm_num) hr.2.1 (by omega)

theorem Ready.beginFade {N M : ℕ} {Good : V → Prop} {ops : ConvOps V} {c : Core V} (h : Ready N M Good c) {f : Held V}
    (hf : Good f.obj) : Ready N M Good (c.beginFade ops f) :=
  ⟨h.active, fun g hg => by cases hg; exact hf, h.pending, h.bufCh, h.bufN, h.lower, h.le, h.inOut⟩

theorem handle_none {ops : ConvOps V} {c : Core V} (ha : c.active = none) (g : Held V) :
    c.handle ops g = ({ c with active := some g }, []) := by
  unfold Core.handle
  rw [ha]

theorem handle_fading {ops : ConvOps V} {c : Core V} {a f : Held V} (ha : c.active = some a) (hf : c.fade = some f) (g : Held V) :
    c.handle ops g = ({ c with pending := some g }, c.pending.toList.map some) := by
  unfold Core.handle
  rw [ha, hf]
  cases c.pending <;> rfl

theorem handle_begin {ops : ConvOps V} {c : Core V} {a : Held V} (ha : c.active = some a) (hf : c.fade = none) (g : Held V) :
    c.handle ops g = ({ c with pending := none }.beginFade ops g, c.pending.toList.map some) := by
  unfold Core.handle
  rw [ha, hf]
  cases c.pending <;> rfl

theorem Ready.handle {N M : ℕ} {Good : V → Prop} {ops : ConvOps V} {c : Core V} (h : Ready N M Good c) {g : Held V}
    (hg : Good g.obj) : Ready N M Good (c.handle ops g).1 := by
  cases ha : c.active with
  | none =>
    rw [handle_none ha]
    exact ⟨fun x hx => by cases hx; exact hg, h.fade, h.pending, h.bufCh, h.bufN, h.lower, h.le, h.inOut⟩
  | some a =>
    cases hf : c.fade with
    | some f =>
      rw [handle_fading ha hf]
      exact ⟨h.active, h.fade, fun x hx => by cases hx; exact hg, h.bufCh, h.bufN, h.lower, h.le, h.inOut⟩
    | none =>
      rw [handle_begin ha hf]
      exact Ready.beginFade (c := { c with pending := none })
        ⟨h.active, h.fade, fun x hx => (by cases hx), h.bufCh, h.bufN, h.lower, h.le, h.inOut⟩ hg

theorem Ready.service {N M : ℕ} {Good : V → Prop} {ops : ConvOps V} {c : Core V} (h : Ready N M Good c) {batch : List (Held V)}
    (hg : ∀ g ∈ batch, Good g.obj) : Ready N M Good (c.service ops batch) := by
  unfold Core.service
  induction batch generalizing c with
  | nil => exact h
  | cons g batch ih =>
    rw [List.foldl_cons]
    exact ih (h.handle (hg g (by simp))) (fun g' h' => hg g' (by simp [h']))

theorem Ready.resetFade {N M : ℕ} {Good : V → Prop} {c : Core V} (h : Ready N M Good c) : Ready N M Good c.resetFade :=
  ⟨h.active, h.fade, h.pending, h.bufCh, h.bufN, h.lower, h.le, h.inOut⟩

theorem runHeld_ok {ops : ConvOps V} {N : ℕ} {Good : V → Prop} (hA : Accepts ops N Good) {h : Held V} (hg : Good h.obj) {blk : Buf}
    (hb : blk.ch = N) :
    ∃ h' out, Core.runHeld ops h blk = some (h', out) ∧ ops.process h.obj blk = some (h'.obj, out) ∧ h'.id = h.id ∧
      out.ch = N ∧ out.n = blk.n ∧ Good h'.obj ∧ ops.numSamples h'.obj = ops.numSamples h.obj ∧
      ops.strategy h'.obj = ops.strategy h.obj := by
  obtain ⟨v', out, e, hc, hn, hg', hs, ht⟩ := hA.process h.obj blk hg hb
  exact ⟨⟨h.id, v'⟩, out, by unfold Core.runHeld; rw [e]; rfl, e, rfl, hc, hn, hg', hs, ht⟩

theorem runSlot_ok {ops : ConvOps V} {N : ℕ} {Good : V → Prop} (hA : Accepts ops N Good) {s : Option (Held V)}
    (hg : ∀ h, s = some h → Good h.obj) {blk : Buf} (hb : blk.ch = N) :
    ∃ s' out, Core.runSlot ops s blk = some (s', out) ∧ s'.map Held.id = s.map Held.id ∧
      out.ch = N ∧ out.n = blk.n ∧ (∀ h, s' = some h → Good h.obj) := by
  cases s with
  | none => exact ⟨none, blk, rfl, rfl, hb, rfl, fun h hh => by cases hh⟩
  | some h =>
    obtain ⟨h', out, e, _, hid, hc, hn, hg', _, _⟩ := runHeld_ok hA (hg h rfl) hb
    refine ⟨some h', out, by unfold Core.runSlot; simp only [e, Option.map_some], by simp [hid], hc, hn, fun x hx => by cases hx; exact hg'⟩

theorem multiplyBy_shape {g : GainArith} (b : Buf) (s : Smooth) : (b.multiplyBy g s).1.ch = b.ch ∧ (b.multiplyBy g s).1.n = b.n := by
  unfold Buf.multiplyBy
  split <;> exact ⟨rfl, rfl⟩

/-- What `fadeStep` does to the slots. -/
theorem fadeStep_ok {ops : ConvOps V} {N M : ℕ} {Good : V → Prop} (hA : Accepts ops N Good) {c : Core V} (h : Ready N M Good c)
    {f : Held V} (hf : c.fade = some f) {blk : Buf} (hb : blk.ch = N) (hfit : c.strategy = .crossfade → blk.n ≤ M ∧ 0 < M) :
    ∃ c' out f', c.fadeStep ops f blk = some (c', out) ∧ out.ch = N ∧ out.n = blk.n ∧ Ready N M Good c' ∧
      c'.fade = some f' ∧ f'.id = f.id ∧ ops.numSamples f'.obj = ops.numSamples f.obj ∧ ops.strategy f'.obj = ops.strategy f.obj ∧
      c'.active.map Held.id = c.active.map Held.id ∧ c'.pending = c.pending ∧ c'.strategy = c.strategy ∧
      c'.lower = c.lower ∧ c'.upper = c.upper ∧ c'.maxCrossfade = c.maxCrossfade ∧ c'.inOut = c.inOut ∧ c'.spec = c.spec ∧
      (c.strategy = .crossfade → c'.sOut = (blk.multiplyBy ops.gains c.sOut).2 ∧ c'.sIn = (blk.multiplyBy ops.gains c.sIn).2) ∧
      (c.strategy = .inOut → c.sOut.isSmoothing = true → c'.sOut = (blk.multiplyBy ops.gains c.sOut).2 ∧ c'.sIn = c.sIn) ∧
      (c.strategy = .inOut → c.sOut.isSmoothing = false → c'.sOut = c.sOut ∧ c'.sIn = (blk.multiplyBy ops.gains c.sIn).2) := by
  have hmul : ∀ (b b' : Buf) (s : Smooth), b.n = b'.n → (b.multiplyBy ops.gains s).2 = (b'.multiplyBy ops.gains s).2 := by
    intro b b' s hn
    unfold Buf.multiplyBy
    split <;> simp [hn]
  unfold Core.fadeStep
  cases hs : c.strategy with
  | crossfade =>
    obtain ⟨hfit, hM⟩ := hfit hs
    simp only
    have esub : c.fadeBuf.sub 0 blk.n = some ⟨N, blk.n, fun ch i => c.fadeBuf.data ch (0 + i)⟩ := by
      unfold Buf.sub
      rw [if_pos ⟨by rw [h.bufN]; omega, by rw [h.bufN]; omega⟩, h.bufCh]
    obtain ⟨a', oa, ea, hida, hca, hna, hga⟩ := runSlot_ok hA h.active hb
    obtain ⟨f', of, ef, _, hidf, hcf, hnf, hgf, hsf, htf⟩ := runHeld_ok hA (h.fade f hf)
      (blk := (Buf.mk N blk.n fun ch i => c.fadeBuf.data ch (0 + i)).copyFrom blk) rfl
    obtain ⟨hc1, hn1⟩ := multiplyBy_shape (g := ops.gains) oa c.sOut
    obtain ⟨hc2, hn2⟩ := multiplyBy_shape (g := ops.gains) of c.sIn
    have hnf' : of.n = blk.n := hnf
    have eadd : ∃ o, (oa.multiplyBy ops.gains c.sOut).1.mix ops.gains (of.multiplyBy ops.gains c.sIn).1 = some o ∧ o.ch = N ∧ o.n = blk.n := by
      unfold Buf.mix
      rw [if_pos (by rw [hc1, hc2, hca, hcf])]
      exact ⟨_, rfl, by rw [← hca, ← hc1], by rw [← hna, ← hn1]⟩
    obtain ⟨o, eo, hoc, hon⟩ := eadd
    have e : c.crossfadeStep ops f blk = some ({ c with
        active := a'
        fade := some f'
        sOut := (oa.multiplyBy ops.gains c.sOut).2
        sIn := (of.multiplyBy ops.gains c.sIn).2
        fadeBuf := c.fadeBuf.put 0 (of.multiplyBy ops.gains c.sIn).1 }, o) := by
      unfold Core.crossfadeStep
      simp only [esub, ea, ef, eo, Option.bind_eq_bind, Option.bind_some]
      rfl
    refine ⟨_, o, f', e, hoc, hon, ?_, rfl, hidf, hsf, htf, hida, rfl, hs, rfl, rfl, rfl, rfl, rfl,
      fun _ => ⟨hmul _ _ _ hna, hmul _ _ _ hnf'⟩, fun h => (by cases h), fun h => (by cases h)⟩
    · exact ⟨hga, fun x hx => by cases hx; exact hgf, h.pending, h.bufCh, h.bufN, h.lower, h.le, h.inOut⟩
  | inOut =>
    simp only
    cases hsm : c.sOut.isSmoothing with
    | true =>
      obtain ⟨a', oa, ea, hida, hca, hna, hga⟩ := runSlot_ok hA h.active hb
      obtain ⟨hc1, hn1⟩ := multiplyBy_shape (g := ops.gains) oa c.sOut
      have e : c.inOutStep ops f blk = some ({ c with
          active := a'
          sOut := (oa.multiplyBy ops.gains c.sOut).2 }, (oa.multiplyBy ops.gains c.sOut).1) := by
        unfold Core.inOutStep
        rw [if_pos hsm]
        simp only [ea, Option.bind_eq_bind, Option.bind_some]
        rfl
      refine ⟨_, (oa.multiplyBy ops.gains c.sOut).1, f, e, by rw [hc1, hca], by rw [hn1, hna], ?_, hf, rfl, rfl, rfl, hida, rfl, hs, rfl, rfl, rfl, rfl, rfl,
        fun h => by (cases h), fun _ _ => ⟨hmul _ _ _ hna, rfl⟩, fun _ h => by cases h⟩
      · exact ⟨hga, h.fade, h.pending, h.bufCh, h.bufN, h.lower, h.le, h.inOut⟩
    | false =>
      obtain ⟨f', of, ef, _, hidf, hcf, hnf, hgf, hsf, htf⟩ := runHeld_ok hA (h.fade f hf) hb
      obtain ⟨hc2, hn2⟩ := multiplyBy_shape (g := ops.gains) of c.sIn
      have e : c.inOutStep ops f blk = some ({ c with
          fade := some f'
          sIn := (of.multiplyBy ops.gains c.sIn).2 }, (of.multiplyBy ops.gains c.sIn).1) := by
        unfold Core.inOutStep
        rw [if_neg (by rw [hsm]; simp)]
        simp only [ef, Option.bind_eq_bind, Option.bind_some]
        rfl
      refine ⟨_, (of.multiplyBy ops.gains c.sIn).1, f', e, by rw [hc2, hcf], by rw [hn2, hnf], ?_, rfl, hidf, hsf, htf, rfl, rfl, hs, rfl, rfl, rfl, rfl, rfl,
        fun h => by (cases h), fun _ h => (by cases h), fun _ _ => ⟨rfl, hmul _ _ _ hnf⟩⟩
      · exact ⟨h.active, fun x hx => by cases hx; exact hgf, h.pending, h.bufCh, h.bufN, h.lower, h.le, h.inOut⟩

theorem endFade_running {ops : ConvOps V} {c : Core V} (h : c.sIn.isSmoothing = true) : c.endFade ops = (c, []) := by
  unfold Core.endFade
  rw [if_pos h]

theorem endFade_last {ops : ConvOps V} {c : Core V} (h : c.sIn.isSmoothing = false) (hp : c.pending = none) :
    c.endFade ops = ({ c with
      active := c.fade
      fade := none }.resetFade, [c.active]) := by
  unfold Core.endFade
  rw [if_neg (by rw [h]; simp)]
  simp only [hp]

theorem endFade_next {ops : ConvOps V} {c : Core V} (h : c.sIn.isSmoothing = false) {p : Held V} (hp : c.pending = some p) :
    c.endFade ops = ({ c with
      active := c.fade
      fade := none
      pending := none }.resetFade.beginFade ops p, [c.active]) := by
  unfold Core.endFade
  rw [if_neg (by rw [h]; simp)]
  simp only [hp]
  rfl

theorem Ready.endFade {N M : ℕ} {Good : V → Prop} {ops : ConvOps V} {c : Core V} (h : Ready N M Good c) :
    Ready N M Good (c.endFade ops).1 := by
  cases hs : c.sIn.isSmoothing with
  | true => rw [endFade_running hs]; exact h
  | false =>
    cases hp : c.pending with
    | none =>
      rw [endFade_last hs hp]
      exact ⟨h.fade, fun x hx => (by cases hx), h.pending, h.bufCh, h.bufN, h.lower, h.le, h.inOut⟩
    | some p =>
      rw [endFade_next hs hp]
      refine Ready.beginFade ?_ (h.pending p hp)
      exact ⟨h.fade, fun x hx => (by cases hx), fun x hx => (by cases hx), h.bufCh, h.bufN, h.lower, h.le, h.inOut⟩

theorem processBody_none {ops : ConvOps V} {c : Core V} (hf : c.fade = none) (blk : Buf) :
    c.processBody ops blk = (Core.runSlot ops c.active blk).map fun r => ({ c with active := r.1 }, { out := some r.2 }) := by
  unfold Core.processBody
  rw [hf]

theorem processBody_some {ops : ConvOps V} {c : Core V} {f : Held V} (hf : c.fade = some f) (blk : Buf) :
    c.processBody ops blk = (c.fadeStep ops f blk).map fun r =>
      ((r.1.endFade ops).1, { out := some r.2, pushed := (r.1.endFade ops).2 }) := by
  unfold Core.processBody
  rw [hf]

/-- `process` is defined in every prepared state for every block that fits, and keeps the state well-formed. -/
theorem Ready.process {ops : ConvOps V} {N M : ℕ} {Good : V → Prop} (hA : Accepts ops N Good) {c : Core V} (h : Ready N M Good c)
    {blk : Buf} (hb : blk.ch = N) (hfit : c.fade ≠ none → c.strategy = .crossfade → blk.n ≤ M ∧ 0 < M) :
    ∃ c' e out, c.processBody ops blk = some (c', e) ∧ e.out = some out ∧ out.ch = N ∧ out.n = blk.n ∧ Ready N M Good c' := by
  cases hf : c.fade with
  | none =>
    obtain ⟨a', oa, ea, hida, hca, hna, hga⟩ := runSlot_ok hA h.active hb
    rw [processBody_none hf, ea, Option.map_some]
    refine ⟨_, _, oa, rfl, rfl, hca, hna, ?_⟩
    exact ⟨hga, h.fade, h.pending, h.bufCh, h.bufN, h.lower, h.le, h.inOut⟩
  | some f =>
    obtain ⟨c', out, f', e, hc, hn, hr, _⟩ := fadeStep_ok hA h hf hb (hfit (by rw [hf]; simp))
    rw [processBody_some hf, e, Option.map_some]
    exact ⟨_, _, out, rfl, rfl, hc, hn, hr.endFade⟩

theorem resetBody_pending {ops : ConvOps V} {c : Core V} {p : Held V} (hp : c.pending = some p) :
    c.resetBody ops = ({ c with
      fadeBuf := c.fadeBuf.clear
      active := some ⟨p.id, ops.reset p.obj⟩
      pending := none }, { destroyed := c.active.toList }) := by
  unfold Core.resetBody
  simp only [hp]
  rfl

theorem resetBody_fade {ops : ConvOps V} {c : Core V} {f : Held V} (hp : c.pending = none) (hf : c.fade = some f) :
    c.resetBody ops = ({ c with
      fadeBuf := c.fadeBuf.clear
      active := some ⟨f.id, ops.reset f.obj⟩
      fade := none }, { destroyed := c.active.toList }) := by
  unfold Core.resetBody
  simp only [hp, hf]
  rfl

theorem resetBody_plain {ops : ConvOps V} {c : Core V} (hp : c.pending = none) (hf : c.fade = none) :
    c.resetBody ops = ({ c with
      fadeBuf := c.fadeBuf.clear
      active := c.active.map fun h => ⟨h.id, ops.reset h.obj⟩ }, { }) := by
  unfold Core.resetBody
  simp only [hp, hf]

theorem Ready.resetBody {ops : ConvOps V} {N M : ℕ} {Good : V → Prop} (hA : Accepts ops N Good) {c : Core V} (h : Ready N M Good c) :
    Ready N M Good (c.resetBody ops).1 := by
  cases hp : c.pending with
  | some p =>
    rw [resetBody_pending hp]
    exact ⟨fun x hx => by cases hx; exact (hA.reset _ (h.pending p hp)).1, h.fade, fun x hx => (by cases hx), h.bufCh, h.bufN, h.lower, h.le, h.inOut⟩
  | none =>
    cases hf : c.fade with
    | some f =>
      rw [resetBody_fade hp hf]
      exact ⟨fun x hx => by cases hx; exact (hA.reset _ (h.fade f hf)).1, fun x hx => (by cases hx), h.pending, h.bufCh, h.bufN, h.lower, h.le, h.inOut⟩
    | none =>
      rw [resetBody_plain hp hf]
      refine ⟨fun x hx => ?_, h.fade, h.pending, h.bufCh, h.bufN, h.lower, h.le, h.inOut⟩
      cases ha : c.active with
      | none => simp [ha] at hx
      | some y =>
        simp only [ha, Option.map_some, Option.some.injEq] at hx
        rw [← hx]
        exact (hA.reset _ (h.active y ha)).1

theorem Ready.clearBody {ops : ConvOps V} {N M : ℕ} {Good : V → Prop} (hA : Accepts ops N Good) {c : Core V} (h : Ready N M Good c) :
    Ready N M Good (c.clearBody ops).1 := by
  have := h.resetBody hA
  exact ⟨fun x hx => (by cases hx), this.fade, fun x hx => (by cases hx), this.bufCh, this.bufN, this.lower, this.le, this.inOut⟩

/-! ## Playing -/

theorem newest_handle {ops : ConvOps V} {c : Core V} (hp : Playing ops c) {N M : ℕ} {Good : V → Prop} (hr : Ready N M Good c) (g : Held V) :
    newest (c.handle ops g).1 = some g.id ∧ Playing ops (c.handle ops g).1 ∧
      (∀ f n j j', FadingAt ops c f n j j' → (c.handle ops g).1 = { c with pending := some g } ∧
        FadingAt ops (c.handle ops g).1 f n j j') := by
  rcases hp with ⟨hf, hpe, hrest⟩ | ⟨f, n, j, j', h⟩
  · cases ha : c.active with
    | none =>
      rw [handle_none ha]
      refine ⟨by simp [newest, hf, hpe], Or.inl ⟨hf, hpe, hrest⟩, fun f n j j' h => ?_⟩
      exact absurd h.slot (by rw [hf]; simp)
    | some a =>
      rw [handle_begin ha hf]
      have hr' : Ready N M Good { c with pending := none } :=
        ⟨hr.active, hr.fade, fun x hx => (by cases hx), hr.bufCh, hr.bufN, hr.lower, hr.le, hr.inOut⟩
      obtain ⟨b1, b2, b3⟩ := beginFade_at (ops := ops) hr' (c := { c with pending := none }) hrest (by show c.active ≠ none; rw [ha]; simp) g
      refine ⟨?_, Or.inr ⟨g, _, 0, 0, b1⟩, fun f n j j' h => ?_⟩
      · unfold newest
        rw [b3, b1.slot]; rfl
      · exact absurd h.slot (by rw [hf]; simp)
  · obtain ⟨a, ha⟩ := Option.ne_none_iff_exists'.mp h.active
    rw [handle_fading ha h.slot]
    have key : ∀ f n j j', FadingAt ops c f n j j' → FadingAt ops { c with pending := some g } f n j j' := by
      intro f n j j' h
      exact ⟨h.slot, h.active, h.strategy, h.length, h.pos, h.sOut, h.sIn, h.hj, h.hj', h.cross, h.inout⟩
    exact ⟨rfl, Or.inr ⟨f, n, j, j', key _ _ _ _ h⟩, fun f' n j j' h' => ⟨rfl, key _ _ _ _ h'⟩⟩

/-- Positions after `b` samples. -/
def nextOut (st : FadeStrategy) (n j b : ℕ) : ℕ :=
  match st with
  | .crossfade => min n (j + b)
  | .inOut => if j < n then min n (j + b) else j

def nextIn (st : FadeStrategy) (n j j' b : ℕ) : ℕ :=
  match st with
  | .crossfade => min n (j' + b)
  | .inOut => if j < n then j' else min n (j' + b)

theorem mult_snd {g : GainArith} {a b : ℝ} {n j : ℕ} (hj : j ≤ n) (blk : Buf) {s : Smooth} (hs : s = ramp g a b n j) :
    (blk.multiplyBy g s).2 = ramp g a b n (min n (j + blk.n)) := by
  rw [hs, multiplyBy_ramp hj]

/-- The smoothers after `fadeStep`. -/
theorem fadeStep_ramps {ops : ConvOps V} {N M : ℕ} {Good : V → Prop} (hA : Accepts ops N Good) {c : Core V} (h : Ready N M Good c)
    {f : Held V} {n j j' : ℕ} (hf : FadingAt ops c f n j j') {blk : Buf} (hb : blk.ch = N)
    (hfit : c.strategy = .crossfade → blk.n ≤ M ∧ 0 < M) :
    ∃ c' out f', c.fadeStep ops f blk = some (c', out) ∧ out.ch = N ∧ out.n = blk.n ∧ Ready N M Good c' ∧
      c'.fade = some f' ∧ f'.id = f.id ∧ ops.numSamples f'.obj = ops.numSamples f.obj ∧ ops.strategy f'.obj = ops.strategy f.obj ∧
      c'.active.map Held.id = c.active.map Held.id ∧ c'.pending = c.pending ∧ c'.strategy = c.strategy ∧
      c'.lower = c.lower ∧ c'.upper = c.upper ∧ c'.maxCrossfade = c.maxCrossfade ∧ c'.inOut = c.inOut ∧ c'.spec = c.spec ∧
      c'.sOut = ramp ops.gains 1 0 n (nextOut c.strategy n j blk.n) ∧ c'.sIn = ramp ops.gains 0 1 n (nextIn c.strategy n j j' blk.n) := by
  obtain ⟨c', out, f', e, h1, h2, h3, h4, h5, h6, h7, h8, h9, h10, h11, h12, h13, h14, h15, k1, k2, k3⟩ := fadeStep_ok hA h hf.slot hb hfit
  refine ⟨c', out, f', e, h1, h2, h3, h4, h5, h6, h7, h8, h9, h10, h11, h12, h13, h14, h15, ?_⟩
  have hlt := hf.hj'
  have hle := hf.hj
  have ho : c.sOut.isSmoothing = decide (j < n) := by rw [hf.sOut, ramp_smoothing]
  cases hs : c.strategy with
  | crossfade =>
    obtain ⟨e1, e2⟩ := k1 hs
    exact ⟨by rw [e1]; exact mult_snd hle _ hf.sOut, by rw [e2]; exact mult_snd hlt.le _ hf.sIn⟩
  | inOut =>
    by_cases hj : j < n
    · obtain ⟨e1, e2⟩ := k2 hs (by rw [ho]; simp [hj])
      refine ⟨?_, ?_⟩
      · rw [e1]
        simp only [nextOut, if_pos hj]
        exact mult_snd hle _ hf.sOut
      · rw [e2]
        simp only [nextIn, if_pos hj]
        exact hf.sIn
    · obtain ⟨e1, e2⟩ := k3 hs (by rw [ho]; simp [hj])
      refine ⟨?_, ?_⟩
      · rw [e1]
        simp only [nextOut, if_neg hj]
        exact hf.sOut
      · rw [e2]
        simp only [nextIn, if_neg hj]
        exact mult_snd hlt.le _ hf.sIn

/-- What a `process` call does to the slots during a fade. -/
theorem process_fading {ops : ConvOps V} {N M : ℕ} {Good : V → Prop} (hA : Accepts ops N Good) {c : Core V} (h : Ready N M Good c)
    {f : Held V} {n j j' : ℕ} (hf : FadingAt ops c f n j j') {blk : Buf} (hb : blk.ch = N)
    (hfit : c.strategy = .crossfade → blk.n ≤ M ∧ 0 < M) :
    ∃ c' e out f', c.processBody ops blk = some (c', e) ∧ e.out = some out ∧ out.ch = N ∧ out.n = blk.n ∧ e.destroyed = [] ∧
      Ready N M Good c' ∧ f'.id = f.id ∧
      c'.lower = c.lower ∧ c'.upper = c.upper ∧ c'.maxCrossfade = c.maxCrossfade ∧ c'.inOut = c.inOut ∧ c'.spec = c.spec ∧
      ((nextIn c.strategy n j j' blk.n < n ∧ c'.strategy = c.strategy ∧
          FadingAt ops c' f' n (nextOut c.strategy n j blk.n) (nextIn c.strategy n j j' blk.n) ∧
          c'.pending = c.pending ∧ c'.active.map Held.id = c.active.map Held.id ∧ e.pushed = []) ∨
        (nextIn c.strategy n j j' blk.n = n ∧ c'.active = some f' ∧ c'.pending = none ∧
          (∃ a, e.pushed = [a] ∧ a.map Held.id = c.active.map Held.id) ∧
          ((c.pending = none ∧ c'.fade = none ∧ Rest c') ∨
            ∃ p, c.pending = some p ∧ FadingAt ops c' p (c.fadeLength ops p.obj).toNat 0 0))) := by
  obtain ⟨c1, out, f', e, h1, h2, h3, h4, h5, h6, h7, h8, h9, h10, h11, h12, h13, h14, h15, r1, r2⟩ := fadeStep_ramps hA h hf hb hfit
  have hlt := hf.hj'
  have hle := hf.hj
  have hpos := hf.pos
  have hch : ∀ v, c1.chooseStrategy ops v = c.chooseStrategy ops v := by
    intro v; unfold Core.chooseStrategy; rw [h13]
  have hln : ∀ v, c1.fadeLength ops v = c.fadeLength ops v := by
    intro v; unfold Core.fadeLength; rw [hch, h11, h12, h14]
  have hn1 : nextIn c.strategy n j j' blk.n ≤ n := by unfold nextIn; split <;> [omega; (split <;> omega)]
  have hn2 : nextOut c.strategy n j blk.n ≤ n := by unfold nextOut; split <;> [omega; (split <;> omega)]
  have hsm : c1.sIn.isSmoothing = decide (nextIn c.strategy n j j' blk.n < n) := by rw [r2, ramp_smoothing]
  by_cases hend : nextIn c.strategy n j j' blk.n < n
  · have eb : c.processBody ops blk = some (c1, { out := some out }) := by
      rw [processBody_some hf.slot, e, Option.map_some, endFade_running (by rw [hsm]; simp [hend])]
    refine ⟨c1, _, out, f', eb, rfl, h1, h2, rfl, h3, h5, h11, h12, h13, h14, h15, Or.inl ⟨hend, h10, ?_, h9, h8, rfl⟩⟩
    refine ⟨h4, ?_, ?_, ?_, hpos, r1, r2, hn2, hend, ?_, ?_⟩
    · intro hnone
      rw [hnone] at h8
      have := hf.active
      cases hc : c.active with
      | none => exact this hc
      | some a => rw [hc] at h8; cases h8
    · rw [h10, hch, hf.strategy]
      unfold Core.chooseStrategy
      rw [h6, h7]
    · rw [hln, hf.length]
      unfold Core.fadeLength Core.chooseStrategy
      rw [h6, h7]
    · intro hs
      rw [h10] at hs
      rw [hs]
      simp only [nextIn, nextOut, hf.cross hs]
    · intro hs hlt
      rw [h10] at hs
      rw [hs] at hlt ⊢
      simp only [nextIn, nextOut] at hlt ⊢
      by_cases hj : j < n
      · rw [if_pos hj]; exact hf.inout hs hj
      · rw [if_neg hj] at hlt; exact absurd hlt hj
  · have hin : nextIn c.strategy n j j' blk.n = n := by omega
    have hsf : c1.sIn.isSmoothing = false := by rw [hsm]; simp [hend]
    cases hp : c.pending with
    | none =>
      have hp1 : c1.pending = none := by rw [h9, hp]
      have eb : c.processBody ops blk = some (({ c1 with
          active := c1.fade
          fade := none } : Core V).resetFade, { out := some out, pushed := [c1.active] }) := by
        rw [processBody_some hf.slot, e, Option.map_some, endFade_last hsf hp1]
      refine ⟨_, _, out, f', eb, rfl, h1, h2, rfl, ?_, h5, h11, h12, h13, h14, h15,
        Or.inr ⟨hin, h4, hp1, ⟨_, rfl, h8⟩, Or.inl ⟨rfl, rfl, resetFade_rest _⟩⟩⟩
      have := h3.endFade (ops := ops)
      rw [endFade_last hsf hp1] at this
      exact this
    | some p =>
      have hp1 : c1.pending = some p := by rw [h9, hp]
      have eb : c.processBody ops blk = some (({ c1 with
          active := c1.fade
          fade := none
          pending := none } : Core V).resetFade.beginFade ops p, { out := some out, pushed := [c1.active] }) := by
        rw [processBody_some hf.slot, e, Option.map_some, endFade_next hsf hp1]
      have hr1 : Ready N M Good (({ c1 with
          active := c1.fade
          fade := none
          pending := none } : Core V).resetFade) :=
        ⟨h3.fade, fun x hx => (by cases hx), fun x hx => (by cases hx), h3.bufCh, h3.bufN, h3.lower, h3.le, h3.inOut⟩
      obtain ⟨b1, b2, b3⟩ := beginFade_at (ops := ops) hr1 (resetFade_rest _) (by show c1.fade ≠ none; rw [h4]; simp) p
      refine ⟨_, _, out, f', eb, rfl, h1, h2, rfl, ?_, h5, h11, h12, h13, h14, h15,
        Or.inr ⟨hin, h4, rfl, ⟨_, rfl, h8⟩, Or.inr ⟨p, rfl, ?_⟩⟩⟩
      · have := h3.endFade (ops := ops)
        rw [endFade_next hsf hp1] at this
        exact this
      · have : (({ c1 with
          active := c1.fade
          fade := none
          pending := none } : Core V).resetFade).fadeLength ops p.obj = c.fadeLength ops p.obj := hln _
        rw [← this]
        exact b1

/-- What a `process` call does when nothing is fading. -/
theorem process_idle {ops : ConvOps V} {N M : ℕ} {Good : V → Prop} (hA : Accepts ops N Good) {c : Core V} (h : Ready N M Good c)
    (hf : c.fade = none) {blk : Buf} (hb : blk.ch = N) :
    ∃ a' out, c.processBody ops blk = some ({ c with active := a' }, { out := some out }) ∧ out.ch = N ∧ out.n = blk.n ∧
      Core.runSlot ops c.active blk = some (a', out) ∧ a'.map Held.id = c.active.map Held.id ∧ (∀ x, a' = some x → Good x.obj) := by
  obtain ⟨a', oa, ea, hida, hca, hna, hga⟩ := runSlot_ok hA h.active hb
  exact ⟨a', oa, by rw [processBody_none hf, ea, Option.map_some], hca, hna, ea, hida, hga⟩

theorem newest_eq_of {c : Core V} {f : Held V} (hf : c.fade = some f) (hp : c.pending = none) : newest c = some f.id := by
  unfold newest; rw [hp, hf]; rfl

/-- `process` keeps the invariant and the newest convolver. -/
theorem Playing.process {ops : ConvOps V} {N M : ℕ} {Good : V → Prop} (hA : Accepts ops N Good) {c : Core V} (h : Ready N M Good c)
    (hp : Playing ops c) {blk : Buf} (hb : blk.ch = N) (hfit : blk.n ≤ M) (hM : 0 < M) :
    ∃ c' e out, c.processBody ops blk = some (c', e) ∧ e.out = some out ∧ out.ch = N ∧ out.n = blk.n ∧ Ready N M Good c' ∧ Playing ops c' ∧
      newest c' = newest c := by
  rcases hp with ⟨hf, hpe, hrest⟩ | ⟨f, n, j, j', hf⟩
  · obtain ⟨a', out, e, hc, hn, _, hid, hg⟩ := process_idle hA h hf hb
    refine ⟨_, _, out, e, rfl, hc, hn, ⟨hg, h.fade, h.pending, h.bufCh, h.bufN, h.lower, h.le, h.inOut⟩,
      Or.inl ⟨hf, hpe, hrest⟩, ?_⟩
    unfold newest
    simp only [hpe, hf]
    exact hid
  · obtain ⟨c', e, out, f', eb, ho, hc, hn, _, hr, hid, _, _, _, _, _, hcase⟩ := process_fading hA h hf hb (fun _ => ⟨hfit, hM⟩)
    refine ⟨c', e, out, eb, ho, hc, hn, hr, ?_, ?_⟩
    · rcases hcase with ⟨_, _, k, _⟩ | ⟨_, _, kp, _, ⟨k1, k2, k3⟩ | ⟨p, _, k⟩⟩
      · exact Or.inr ⟨_, _, _, _, k⟩
      · exact Or.inl ⟨k2, kp, k3⟩
      · exact Or.inr ⟨_, _, _, _, k⟩
    · rcases hcase with ⟨_, _, k, kp, _, _⟩ | ⟨_, ka, kp, _, ⟨k1, k2, k3⟩ | ⟨p, k1, k⟩⟩
      · unfold newest
        rw [kp, k.slot, hf.slot]
        cases c.pending <;> simp [hid]
      · unfold newest
        rw [kp, k2, ka, k1, hf.slot]
        simp [hid]
      · rw [newest_eq_of k.slot kp]
        unfold newest
        rw [k1]; rfl

theorem Playing.service {ops : ConvOps V} {N M : ℕ} {Good : V → Prop} {c : Core V} (h : Ready N M Good c) (hp : Playing ops c)
    {batch : List (Held V)} (hg : ∀ g ∈ batch, Good g.obj) :
    Playing ops (c.service ops batch) ∧ newest (c.service ops batch) = (batch.getLast?.map Held.id <|> newest c) := by
  unfold Core.service
  induction batch generalizing c with
  | nil => exact ⟨hp, by simp⟩
  | cons g batch ih =>
    rw [List.foldl_cons]
    obtain ⟨k1, k2, _⟩ := newest_handle hp h g
    obtain ⟨i1, i2⟩ := ih (h.handle (hg g (by simp))) k2 (fun g' h' => hg g' (by simp [h']))
    refine ⟨i1, ?_⟩
    rw [i2, k1]
    cases batch with
    | nil => rfl
    | cons b bs =>
      rw [List.getLast?_cons_cons]
      cases h : (b :: bs).getLast? with
      | none => simp at h
      | some x => rfl

/-- Samples needed until the fade in progress (and the one waiting) are over, for blocks of at most `M` samples. -/
noncomputable def remaining (ops : ConvOps V) (M : ℕ) (c : Core V) : ℕ :=
  match c.fade with
  | none => 0
  | some _ =>
    (match c.strategy with
      | .crossfade => c.sIn.countdown + M
      | .inOut => (if 0 < c.sOut.countdown then c.sOut.countdown + M else 0) + c.sIn.countdown + M) +
    match c.pending with
    | none => 0
    | some p => 2 * ((c.fadeLength ops p.obj).toNat + M)

theorem remaining_fading {ops : ConvOps V} {M : ℕ} {c : Core V} {f : Held V} {n j j' : ℕ} (hf : FadingAt ops c f n j j') :
    remaining ops M c = (match c.strategy with
      | .crossfade => n - j' + M
      | .inOut => (if j < n then n - j + M else 0) + (n - j') + M) +
    match c.pending with
    | none => 0
    | some p => 2 * ((c.fadeLength ops p.obj).toNat + M) := by
  unfold remaining
  have e1 : ∀ a b : ℝ, ∀ i, (ramp ops.gains a b n i).countdown = n - i := fun _ _ _ => rfl
  have e2 : (if 0 < n - j then n - j + M else 0) = (if j < n then n - j + M else 0) := by
    by_cases h : j < n
    · rw [if_pos h, if_pos (by omega)]
    · rw [if_neg h, if_neg (by omega)]
  rw [hf.slot, hf.sOut, hf.sIn]
  simp only [e1, e2]

/-- Every block brings the end of the fade nearer. -/
theorem remaining_process {ops : ConvOps V} {N M : ℕ} {Good : V → Prop} (hA : Accepts ops N Good) {c : Core V} (h : Ready N M Good c)
    (hp : Playing ops c) {blk : Buf} (hb : blk.ch = N) (hfit : blk.n ≤ M) (hM : 0 < M) (hfade : c.fade ≠ none) {c' : Core V} {e : Core.Effects V}
    (eb : c.processBody ops blk = some (c', e)) : remaining ops M c' + blk.n ≤ remaining ops M c := by
  rcases hp with ⟨hf, _⟩ | ⟨f, n, j, j', hf⟩
  · exact absurd hf hfade
  · obtain ⟨c'', e', out, f', eb', ho, hc, hn, _, hr, hid, l1, l2, l3, l4, _, hcase⟩ := process_fading hA h hf hb (fun _ => ⟨hfit, hM⟩)
    rw [eb] at eb'
    cases eb'
    have hlt := hf.hj'
    have hle := hf.hj
    have hpos := hf.pos
    have hln : ∀ v, c'.fadeLength ops v = c.fadeLength ops v := by
      intro v; unfold Core.fadeLength Core.chooseStrategy; rw [l1, l2, l3, l4]
    rw [remaining_fading hf]
    rcases hcase with ⟨hend, hst, k, kp, _⟩ | ⟨hend, ka, kp, _, hnext⟩
    · rw [remaining_fading k, kp, hst]
      simp only [hln]
      generalize (match c.pending with
        | none => 0
        | some p => 2 * ((c.fadeLength ops p.obj).toNat + M)) = P
      cases hs : c.strategy with
      | crossfade =>
        rw [hs] at hend
        simp only [nextIn, nextOut] at hend ⊢
        omega
      | inOut =>
        rw [hs] at hend
        simp only [nextIn, nextOut] at hend ⊢
        by_cases hj : j < n
        · simp only [if_pos hj] at hend ⊢
          by_cases hj2 : min n (j + blk.n) < n
          · rw [if_pos hj2]; omega
          · rw [if_neg hj2]; omega
        · simp only [if_neg hj] at hend ⊢
          omega
    · have key : blk.n ≤ (match c.strategy with
          | .crossfade => n - j' + M
          | .inOut => (if j < n then n - j + M else 0) + (n - j') + M) := by
        cases c.strategy <;> simp only <;> omega
      rcases hnext with ⟨k1, k2, k3⟩ | ⟨p, k1, k⟩
      · rw [k1]
        unfold remaining
        rw [k2]
        simp only
        omega
      · rw [remaining_fading k, kp, k1]
        simp only
        cases c'.strategy <;> simp only <;> (try split) <;> omega

theorem remaining_pos {ops : ConvOps V} {M : ℕ} {c : Core V} (hM : 0 < M) (hf : c.fade ≠ none) : 0 < remaining ops M c := by
  unfold remaining
  obtain ⟨f, hf⟩ := Option.ne_none_iff_exists'.mp hf
  rw [hf]
  cases c.strategy <;> simp only <;> omega

theorem fadeLength_le {N M : ℕ} {Good : V → Prop} {ops : ConvOps V} {c : Core V} (h : Ready N M Good c) (hl : c.inOut ≤ c.upper) (v : V) :
    c.fadeLength ops v ≤ c.upper := by
  unfold Core.fadeLength
  split
  · exact (clamp_bounds h.le).2
  · exact hl

theorem remaining_le {ops : ConvOps V} {N M : ℕ} {Good : V → Prop} {c : Core V} (h : Ready N M Good c) (hl : c.inOut ≤ c.upper)
    (hp : Playing ops c) : remaining ops M c ≤ 4 * (c.upper.toNat + M) := by
  rcases hp with ⟨hf, _⟩ | ⟨f, n, j, j', hf⟩
  · unfold remaining; rw [hf]; simp
  · rw [remaining_fading hf]
    have h1 : n ≤ c.upper.toNat := by
      have := fadeLength_le (ops := ops) h hl f.obj
      rw [← hf.length] at this
      omega
    have h2 : (match c.pending with
        | none => 0
        | some p => 2 * ((c.fadeLength ops p.obj).toNat + M)) ≤ 2 * (c.upper.toNat + M) := by
      cases c.pending with
      | none => simp
      | some p =>
        simp only
        have := fadeLength_le (ops := ops) h hl p.obj
        omega
    have h3 : (match c.strategy with
        | .crossfade => n - j' + M
        | .inOut => (if j < n then n - j + M else 0) + (n - j') + M) ≤ 2 * (c.upper.toNat + M) := by
      cases c.strategy <;> simp only <;> (try split) <;> omega
    omega

end Zones.Proofs
