import Verif.Proofs.EngineHistory

/-! The samples produced during a fade. -/

open Zones.Model Zones.Spec

namespace Zones.Proofs

variable {V : Type}

theorem fadeGain_one {n t : ℕ} (hn : 0 < n) (h : n ≤ t + 1) : fadeGain n t = 1 := by
  unfold fadeGain
  have hn' : (0 : ℝ) < n := by exact_mod_cast hn
  rw [min_eq_left]
  rw [le_div_iff₀ hn', one_mul]
  exact_mod_cast h

/-- With arithmetic `g`, fades obey the rule `K`. -/
structure Implements (g : GainArith) (K : FadeRule) : Prop where
  mix : ∀ n t old new, 0 < n → K.mix n t old new (g.add (g.mul old (gainAt g 1 0 n t)) (g.mul new (gainAt g 0 1 n t)))
  fadeOut : ∀ n t old, 0 < n → K.fadeOut n t old (g.mul old (gainAt g 1 0 n t))
  fadeIn : ∀ n t new, 0 < n → K.fadeIn n t new (g.mul new (gainAt g 0 1 n t))
  over : ∀ n t old new, 0 < n → n ≤ t + 1 → K.mix n t old new new

theorem gainAt_exact {a b : ℝ} {n t : ℕ} (hn : 0 < n) :
    gainAt .exact a b n t = a + (b - a) * fadeGain n t := by
  have hn' : (0 : ℝ) < n := by exact_mod_cast hn
  have hr : ∀ j, rampAt .exact a b n j = a + (b - a) * (j / n) := by
    intro j
    induction j with
    | zero => simp [rampAt]
    | succ j ih =>
      rw [rampAt, ih]
      show a + (b - a) * (j / n) + (b - a) / n = _
      push_cast
      field_simp
      ring
  unfold gainAt
  split
  · rename_i h
    rw [hr]
    unfold fadeGain
    rw [min_eq_right]
    · push_cast; rfl
    · rw [div_le_one hn']
      exact_mod_cast h.le
  · rw [fadeGain_one hn (by omega)]
    ring

/-- In exact arithmetic, fades are linear. -/
theorem implements_exact : Implements .exact linearFades := by
  refine ⟨fun n t old new hn => ?_, fun n t old hn => ?_, fun n t new hn => ?_, fun n t old new hn h => ?_⟩
  · show old * gainAt .exact 1 0 n t + new * gainAt .exact 0 1 n t = _
    rw [gainAt_exact hn, gainAt_exact hn]
    ring
  · show old * gainAt .exact 1 0 n t = _
    rw [gainAt_exact hn]
    ring
  · show new * gainAt .exact 0 1 n t = _
    rw [gainAt_exact hn]
    ring
  · show new = _
    rw [fadeGain_one hn h]
    ring

theorem out_scaled {g : GainArith} {n j : ℕ} (hj : j ≤ n) {b : Buf} {ch i : ℕ} (hc : ch < b.ch) (hi : i < b.n) :
    (b.multiplyBy g (ramp g 1 0 n j)).1.data ch i = g.mul (b.data ch i) (gainAt g 1 0 n (j + i)) := by
  rw [multiplyBy_ramp hj]
  unfold Buf.scale
  dsimp only
  rw [if_pos ⟨hc, hi⟩]

theorem in_scaled {g : GainArith} {n j : ℕ} (hj : j ≤ n) {b : Buf} {ch i : ℕ} (hc : ch < b.ch) (hi : i < b.n) :
    (b.multiplyBy g (ramp g 0 1 n j)).1.data ch i = g.mul (b.data ch i) (gainAt g 0 1 n (j + i)) := by
  rw [multiplyBy_ramp hj]
  unfold Buf.scale
  dsimp only
  rw [if_pos ⟨hc, hi⟩]

/-- Deliveries during a fade only change what waits behind it. -/
theorem service_fading {ops : ConvOps V} {N M : ℕ} {Good : V → Prop} {c : Core V} (h : Ready N M Good c) {f : Held V} {n j j' : ℕ}
    (hf : FadingAt ops c f n j j') {batch : List (Held V)} (hg : ∀ g ∈ batch, Good g.obj) :
    Ready N M Good (c.service ops batch) ∧ FadingAt ops (c.service ops batch) f n j j' ∧ (c.service ops batch).active = c.active ∧
      (c.service ops batch).strategy = c.strategy ∧ (c.service ops batch).pending = (batch.getLast? <|> c.pending) := by
  unfold Core.service
  induction batch generalizing c with
  | nil => exact ⟨h, hf, rfl, rfl, rfl⟩
  | cons g batch ih =>
    rw [List.foldl_cons]
    obtain ⟨_, _, k⟩ := newest_handle (Or.inr ⟨f, n, j, j', hf⟩) h g
    obtain ⟨k1, k2⟩ := k f n j j' hf
    obtain ⟨i1, i2, i3, i4, i5⟩ := ih (h.handle (hg g (by simp))) k2 (fun g' h' => hg g' (by simp [h']))
    refine ⟨i1, i2, by rw [i3, k1], by rw [i4, k1], ?_⟩
    rw [i5, k1]
    cases batch with
    | nil => rfl
    | cons b bs =>
      rw [List.getLast?_cons_cons]
      cases h : (b :: bs).getLast? with
      | none => simp at h
      | some x => rfl

theorem fadeStep_cross {ops : ConvOps V} {c : Core V} (hs : c.strategy = .crossfade) (f : Held V) (blk : Buf) :
    c.fadeStep ops f blk = c.crossfadeStep ops f blk := by
  unfold Core.fadeStep; rw [hs]

theorem fadeStep_inOut {ops : ConvOps V} {c : Core V} (hs : c.strategy = .inOut) (f : Held V) (blk : Buf) :
    c.fadeStep ops f blk = c.inOutStep ops f blk := by
  unfold Core.fadeStep; rw [hs]

theorem endFade_active {ops : ConvOps V} {c : Core V} (h : c.sIn.isSmoothing = false) : (c.endFade ops).1.active = c.fade := by
  cases hp : c.pending with
  | none => rw [endFade_last h hp]; rfl
  | some p => rw [endFade_next h hp]; rfl

/-- One block of a crossfade. -/
theorem crossfade_block {ops : ConvOps V} {K : FadeRule} (hK : Implements ops.gains K) {N M : ℕ} {Good : V → Prop} (hA : Accepts ops N Good) (hM : 0 < M) {c : Core V} (h : Ready N M Good c)
    {f a : Held V} {n j : ℕ} (hf : FadingAt ops c f n j j) (hs : c.strategy = .crossfade) (ha : c.active = some a)
    {blk : Buf} (hb : blk.ch = N) (hfit : blk.n ≤ M) :
    ∃ c' e out a1 old fb f1 new, c.processBody ops blk = some (c', e) ∧ e.out = some out ∧ out.ch = N ∧ out.n = blk.n ∧ Ready N M Good c' ∧
      SameSettings c c' ∧
      ops.process a.obj blk = some (a1, old) ∧ old.n = blk.n ∧ Good a1 ∧
      (blk.ch = N ∧ fb.ch = N ∧ blk.n = fb.n ∧ ∀ ch < N, ∀ i < blk.n, blk.data ch i = fb.data ch i) ∧
      ops.process f.obj fb = some (f1, new) ∧ new.n = blk.n ∧ Good f1 ∧
      (∀ ch < N, ∀ i < blk.n, K.mix n (j + i) (old.data ch i) (new.data ch i) (out.data ch i)) ∧
      ((j + blk.n < n ∧ FadingAt ops c' ⟨f.id, f1⟩ n (j + blk.n) (j + blk.n) ∧ c'.strategy = .crossfade ∧
          c'.active = some ⟨a.id, a1⟩ ∧ c'.pending = c.pending) ∨
       (n ≤ j + blk.n ∧ c'.active = some ⟨f.id, f1⟩ ∧ c'.pending = none ∧
          ((c.pending = none ∧ c'.fade = none ∧ Rest c') ∨
            ∃ p, c.pending = some p ∧ FadingAt ops c' p (c.fadeLength ops p.obj).toNat 0 0))) := by
  obtain ⟨a1', old, ea, ea', hida, hca, hna, hga, _, _⟩ := runHeld_ok hA (h.active a ha) hb
  have esub : c.fadeBuf.sub 0 blk.n = some ⟨N, blk.n, fun ch i => c.fadeBuf.data ch (0 + i)⟩ := by
    unfold Buf.sub
    rw [if_pos ⟨by rw [h.bufN]; omega, by rw [h.bufN]; omega⟩, h.bufCh]
  set fb : Buf := (Buf.mk N blk.n fun ch i => c.fadeBuf.data ch (0 + i)).copyFrom blk with hfb
  have hfbc : fb.ch = N := rfl
  have hfbn : fb.n = blk.n := rfl
  obtain ⟨f1', new, ef, ef', hidf, hcf, hnf, hgf, hsf, htf⟩ := runHeld_ok hA (h.fade f hf.slot) (blk := fb) hfbc
  obtain ⟨hc1, hn1⟩ := multiplyBy_shape (g := ops.gains) old c.sOut
  obtain ⟨hc2, hn2⟩ := multiplyBy_shape (g := ops.gains) new c.sIn
  have eadd : ∃ o, (old.multiplyBy ops.gains c.sOut).1.mix ops.gains (new.multiplyBy ops.gains c.sIn).1 = some o ∧ o.ch = N ∧ o.n = blk.n ∧
      ∀ ch < N, ∀ i < blk.n, o.data ch i = ops.gains.add ((old.multiplyBy ops.gains c.sOut).1.data ch i) ((new.multiplyBy ops.gains c.sIn).1.data ch i) := by
    unfold Buf.mix
    rw [if_pos (by rw [hc1, hc2, hca, hcf])]
    refine ⟨_, rfl, by rw [← hca, ← hc1], by rw [← hna, ← hn1], fun ch hch i hi => ?_⟩
    dsimp only
    rw [if_pos ⟨by rw [hc1, hca]; exact hch, by rw [hn1, hn2, hna, hnf, hfbn]; omega⟩]
  obtain ⟨o, eo, hoc, hon, hod⟩ := eadd
  have hst : c.fadeStep ops f blk = some ({ c with
      active := some a1'
      fade := some f1'
      sOut := (old.multiplyBy ops.gains c.sOut).2
      sIn := (new.multiplyBy ops.gains c.sIn).2
      fadeBuf := c.fadeBuf.put 0 (new.multiplyBy ops.gains c.sIn).1 }, o) := by
    rw [fadeStep_cross hs]
    have ea2 : Core.runSlot ops c.active blk = some (some a1', old) := by
      rw [ha]; unfold Core.runSlot; simp only [ea, Option.map_some]
    unfold Core.crossfadeStep
    simp only [esub, ea2, Option.bind_eq_bind, Option.bind_some]
    rw [← hfb]
    simp only [ef, eo, Option.bind_some]
    rfl
  obtain ⟨c', e, out, f', eb, ho, hc, hn, _, hr, hid, l1, l2, l3, l4, l5, hcase⟩ := process_fading hA h hf hb (fun _ => ⟨hfit, hM⟩)
  have eb' := eb
  rw [processBody_some hf.slot, hst, Option.map_some] at eb'
  simp only [Option.some.injEq, Prod.mk.injEq] at eb'
  obtain ⟨ec, ee⟩ := eb'
  have eout : out = o := by rw [← ee] at ho; cases ho; rfl
  subst eout
  have hlt := hf.hj'
  have hpos := hf.pos
  have ha1 : (⟨a.id, a1'.obj⟩ : Held V) = a1' := by rw [← hida]
  have hf1 : (⟨f.id, f1'.obj⟩ : Held V) = f1' := by rw [← hidf]
  have hsIn : (new.multiplyBy ops.gains c.sIn).2 = ramp ops.gains 0 1 n (min n (j + blk.n)) := by
    rw [hf.sIn, multiplyBy_ramp hlt.le, hnf, hfbn]
  have hnext : nextIn c.strategy n j j blk.n = min n (j + blk.n) := by rw [hs]; rfl
  refine ⟨c', e, out, a1'.obj, old, fb, f1'.obj, new, eb, ho, hc, hn, hr, ⟨l1, l2, l3, l4, l5⟩, ea', hna, hga, ⟨hb, hfbc, rfl, ?_⟩, ef', hnf, hgf, ?_, ?_⟩
  · intro ch hch i hi
    rw [hfb]
    unfold Buf.copyFrom
    dsimp only
    rw [if_pos ⟨by rw [hb]; omega, by omega⟩]
  · intro ch hch i hi
    rw [hod ch hch i hi, hf.sOut, hf.sIn, out_scaled hlt.le (by omega) (by omega), in_scaled hlt.le (by omega) (by omega)]
    exact hK.mix _ _ _ _ hpos
  · rcases hcase with ⟨q1, q2, q3, q4, q5, _⟩ | ⟨q1, q2, q3, q4, q5⟩
    · left
      rw [hnext] at q1
      rw [endFade_running (by show ((new.multiplyBy ops.gains c.sIn).2).isSmoothing = true; rw [hsIn, ramp_smoothing]; simp; omega)] at ec
      have ec' : c'.fade = some f1' ∧ c'.active = some a1' := by rw [← ec]; exact ⟨rfl, rfl⟩
      have e1 : f' = f1' := by
        have := q3.slot
        rw [ec'.1] at this
        cases this; rfl
      rw [hf1]
      rw [hnext, show nextOut c.strategy n j blk.n = min n (j + blk.n) by rw [hs]; rfl, e1] at q3
      rw [show min n (j + blk.n) = j + blk.n by omega] at q3
      exact ⟨by omega, q3, by rw [q2, hs], by rw [ec'.2, ha1], q4⟩
    · right
      rw [hnext] at q1
      have hsf : ((new.multiplyBy ops.gains c.sIn).2).isSmoothing = false := by rw [hsIn, ramp_smoothing]; simp; omega
      have ec' : c'.active = some f1' := by
        rw [← ec]
        exact endFade_active hsf
      rw [hf1]
      exact ⟨by omega, ec', q3, q5⟩

/-- One block of the fade-out half of an in/out fade: the new response is not touched. -/
theorem fadeOut_block {ops : ConvOps V} {K : FadeRule} (hK : Implements ops.gains K) {N M : ℕ} {Good : V → Prop} (hA : Accepts ops N Good) {c : Core V} (h : Ready N M Good c)
    {f a : Held V} {n j : ℕ} (hf : FadingAt ops c f n j 0) (hs : c.strategy = .inOut) (ha : c.active = some a) (hj : j < n)
    {blk : Buf} (hb : blk.ch = N) :
    ∃ c' e out a1 old, c.processBody ops blk = some (c', e) ∧ e.out = some out ∧ out.ch = N ∧ out.n = blk.n ∧ Ready N M Good c' ∧
      SameSettings c c' ∧ ops.process a.obj blk = some (a1, old) ∧ old.n = blk.n ∧ Good a1 ∧
      (∀ ch < N, ∀ i < blk.n, K.fadeOut n (j + i) (old.data ch i) (out.data ch i)) ∧
      FadingAt ops c' f n (min n (j + blk.n)) 0 ∧ c'.strategy = .inOut ∧ c'.active = some ⟨a.id, a1⟩ ∧ c'.pending = c.pending := by
  obtain ⟨a1', old, ea, ea', hida, hca, hna, hga, _, _⟩ := runHeld_ok hA (h.active a ha) hb
  obtain ⟨hc1, hn1⟩ := multiplyBy_shape (g := ops.gains) old c.sOut
  have hsm : c.sOut.isSmoothing = true := by rw [hf.sOut, ramp_smoothing]; simp [hj]
  have hst : c.fadeStep ops f blk = some ({ c with
      active := some a1'
      sOut := (old.multiplyBy ops.gains c.sOut).2 }, (old.multiplyBy ops.gains c.sOut).1) := by
    rw [fadeStep_inOut hs]
    have ea2 : Core.runSlot ops c.active blk = some (some a1', old) := by
      rw [ha]; unfold Core.runSlot; simp only [ea, Option.map_some]
    unfold Core.inOutStep
    rw [if_pos hsm]
    simp only [ea2, Option.bind_eq_bind, Option.bind_some]
    rfl
  obtain ⟨c', e, out, f', eb, ho, hc, hn, _, hr, hid, l1, l2, l3, l4, l5, hcase⟩ := process_fading hA h hf hb
    (fun hx => by rw [hs] at hx; cases hx)
  have eb' := eb
  rw [processBody_some hf.slot, hst, Option.map_some] at eb'
  simp only [Option.some.injEq, Prod.mk.injEq] at eb'
  obtain ⟨ec, ee⟩ := eb'
  have eout : out = (old.multiplyBy ops.gains c.sOut).1 := by rw [← ee] at ho; cases ho; rfl
  have hlt := hf.hj'
  have hpos := hf.pos
  have ha1 : (⟨a.id, a1'.obj⟩ : Held V) = a1' := by rw [← hida]
  have hnext : nextIn c.strategy n j 0 blk.n = 0 := by rw [hs]; simp only [nextIn, if_pos hj]
  have hnextO : nextOut c.strategy n j blk.n = min n (j + blk.n) := by rw [hs]; simp only [nextOut, if_pos hj]
  refine ⟨c', e, out, a1'.obj, old, eb, ho, hc, hn, hr, ⟨l1, l2, l3, l4, l5⟩, ea', hna, hga, ?_, ?_⟩
  · intro ch hch i hi
    rw [eout, hf.sOut, out_scaled hj.le (by omega) (by omega)]
    exact hK.fadeOut _ _ _ hpos
  · rcases hcase with ⟨q1, q2, q3, q4, q5, _⟩ | ⟨q1, _⟩
    · rw [endFade_running (by show c.sIn.isSmoothing = true; rw [hf.sIn, ramp_smoothing]; simp; omega)] at ec
      have ec' : c'.fade = c.fade ∧ c'.active = some a1' := by rw [← ec]; exact ⟨rfl, rfl⟩
      have e1 : f' = f := by
        have := q3.slot
        rw [ec'.1, hf.slot] at this
        cases this; rfl
      rw [hnext, hnextO, e1] at q3
      exact ⟨q3, by rw [q2, hs], by rw [ec'.2, ha1], q4⟩
    · rw [hnext] at q1
      omega

/-- One block of the fade-in half of an in/out fade: the old response is not touched. -/
theorem fadeIn_block {ops : ConvOps V} {K : FadeRule} (hK : Implements ops.gains K) {N M : ℕ} {Good : V → Prop} (hA : Accepts ops N Good) {c : Core V} (h : Ready N M Good c)
    {f : Held V} {n j : ℕ} (hf : FadingAt ops c f n n j) (hs : c.strategy = .inOut) {blk : Buf} (hb : blk.ch = N) :
    ∃ c' e out f1 new, c.processBody ops blk = some (c', e) ∧ e.out = some out ∧ out.ch = N ∧ out.n = blk.n ∧ Ready N M Good c' ∧
      SameSettings c c' ∧ ops.process f.obj blk = some (f1, new) ∧ new.n = blk.n ∧ Good f1 ∧
      (∀ ch < N, ∀ i < blk.n, K.fadeIn n (j + i) (new.data ch i) (out.data ch i)) ∧
      ((j + blk.n < n ∧ FadingAt ops c' ⟨f.id, f1⟩ n n (j + blk.n) ∧ c'.strategy = .inOut ∧ c'.active = c.active ∧ c'.pending = c.pending) ∨
       (n ≤ j + blk.n ∧ c'.active = some ⟨f.id, f1⟩ ∧ c'.pending = none ∧
          ((c.pending = none ∧ c'.fade = none ∧ Rest c') ∨
            ∃ p, c.pending = some p ∧ FadingAt ops c' p (c.fadeLength ops p.obj).toNat 0 0))) := by
  obtain ⟨f1', new, ef, ef', hidf, hcf, hnf, hgf, hsf, htf⟩ := runHeld_ok hA (h.fade f hf.slot) hb
  obtain ⟨hc2, hn2⟩ := multiplyBy_shape (g := ops.gains) new c.sIn
  have hsm : c.sOut.isSmoothing = false := by rw [hf.sOut, ramp_smoothing]; simp
  have hst : c.fadeStep ops f blk = some ({ c with
      fade := some f1'
      sIn := (new.multiplyBy ops.gains c.sIn).2 }, (new.multiplyBy ops.gains c.sIn).1) := by
    rw [fadeStep_inOut hs]
    unfold Core.inOutStep
    rw [if_neg (by rw [hsm]; simp)]
    simp only [ef, Option.bind_eq_bind, Option.bind_some]
    rfl
  obtain ⟨c', e, out, f', eb, ho, hc, hn, _, hr, hid, l1, l2, l3, l4, l5, hcase⟩ := process_fading hA h hf hb
    (fun hx => by rw [hs] at hx; cases hx)
  have eb' := eb
  rw [processBody_some hf.slot, hst, Option.map_some] at eb'
  simp only [Option.some.injEq, Prod.mk.injEq] at eb'
  obtain ⟨ec, ee⟩ := eb'
  have eout : out = (new.multiplyBy ops.gains c.sIn).1 := by rw [← ee] at ho; cases ho; rfl
  have hlt := hf.hj'
  have hpos := hf.pos
  have hf1 : (⟨f.id, f1'.obj⟩ : Held V) = f1' := by rw [← hidf]
  have hsIn : (new.multiplyBy ops.gains c.sIn).2 = ramp ops.gains 0 1 n (min n (j + blk.n)) := by
    rw [hf.sIn, multiplyBy_ramp hlt.le, hnf]
  have hnn : ¬ n < n := lt_irrefl n
  have hnext : nextIn c.strategy n n j blk.n = min n (j + blk.n) := by rw [hs]; simp only [nextIn, if_neg hnn]
  have hnextO : nextOut c.strategy n n blk.n = n := by rw [hs]; simp only [nextOut, if_neg hnn]
  refine ⟨c', e, out, f1'.obj, new, eb, ho, hc, hn, hr, ⟨l1, l2, l3, l4, l5⟩, ef', hnf, hgf, ?_, ?_⟩
  · intro ch hch i hi
    rw [eout, hf.sIn, in_scaled hlt.le (by omega) (by omega)]
    exact hK.fadeIn _ _ _ hpos
  · rcases hcase with ⟨q1, q2, q3, q4, q5, _⟩ | ⟨q1, q2, q3, q4, q5⟩
    · left
      rw [hnext] at q1
      rw [endFade_running (by show ((new.multiplyBy ops.gains c.sIn).2).isSmoothing = true; rw [hsIn, ramp_smoothing]; simp; omega)] at ec
      have ec' : c'.fade = some f1' ∧ c'.active = c.active := by rw [← ec]; exact ⟨rfl, rfl⟩
      have e1 : f' = f1' := by
        have := q3.slot
        rw [ec'.1] at this
        cases this; rfl
      rw [hf1]
      rw [hnext, hnextO, e1, show min n (j + blk.n) = j + blk.n by omega] at q3
      exact ⟨by omega, q3, by rw [q2, hs], ec'.2, q4⟩
    · right
      rw [hnext] at q1
      have hsf : ((new.multiplyBy ops.gains c.sIn).2).isSmoothing = false := by rw [hsIn, ramp_smoothing]; simp; omega
      have ec' : c'.active = some f1' := by
        rw [← ec]
        exact endFade_active hsf
      rw [hf1]
      exact ⟨by omega, ec', q3, q5⟩

/-! ## Streams -/

theorem play_cons {ops : ConvOps V} {c : Core V} {batch : List (Held V)} {blk : Buf} {bs : List (List (Held V) × Buf)} {c1 c2 : Core V}
    {e : Core.Effects V} {out : Buf} {outs : List Buf} (h1 : (c.service ops batch).processBody ops blk = some (c1, e)) (h2 : e.out = some out)
    (h3 : c1.play ops bs = some (c2, outs)) : c.play ops ((batch, blk) :: bs) = some (c2, out :: outs) := by
  rw [Core.play]
  show ((c.service ops batch).processBody ops blk).bind _ = _
  rw [h1, Option.bind_some]
  simp only [h3, Option.map_some, h2]
  rfl

theorem feed_cons {σ : Type} {process : σ → Buf → Option (σ × Buf)} {s s1 s2 : σ} {b o : Buf} {bs outs : List Buf}
    (h1 : process s b = some (s1, o)) (h2 : feed process s1 bs = some (s2, outs)) : feed process s (b :: bs) = some (s2, o :: outs) := by
  rw [feed, h1, Option.bind_some]
  simp only [h2, Option.map_some]

/-- Convolvers accept any sequence of blocks. -/
theorem accepts_feed {ops : ConvOps V} {N : ℕ} {Good : V → Prop} (hA : Accepts ops N Good) :
    ∀ (blocks : List Buf) (v : V), Good v → (∀ b ∈ blocks, b.ch = N) →
      ∃ v' outs, feed ops.process v blocks = some (v', outs) ∧ SameShape blocks outs ∧ Good v'
  | [], v, hg, _ => ⟨v, [], rfl, .nil, hg⟩
  | b :: bs, v, hg, hb => by
    obtain ⟨v1, o, e, hc, hn, hg1, _, _⟩ := hA.process v b hg (hb b (by simp))
    obtain ⟨v2, outs, e2, sh, hg2⟩ := accepts_feed hA bs v1 hg1 (fun b' h => hb b' (by simp [h]))
    exact ⟨v2, o :: outs, feed_cons e e2, .cons ⟨by rw [hb b (by simp), hc], hn.symm⟩ sh, hg2⟩

/-- When nothing is fading and nothing arrives, the engine is the active convolver. -/
theorem idle_play {ops : ConvOps V} {N M : ℕ} {Good : V → Prop} (hA : Accepts ops N Good) :
    ∀ (blocks : List Buf) (c : Core V) (a : Held V), Ready N M Good c → c.fade = none → c.active = some a → (∀ b ∈ blocks, b.ch = N) →
      ∃ c' a' outs, c.play ops (blocks.map fun b => ([], b)) = some (c', outs) ∧ feed ops.process a.obj blocks = some (a', outs) ∧
        SameShape blocks outs ∧ Ready N M Good c' ∧ c' = { c with active := some ⟨a.id, a'⟩ }
  | [], c, a, h, _, ha, _ => by
    refine ⟨c, a.obj, [], rfl, rfl, .nil, h, ?_⟩
    rw [show (⟨a.id, a.obj⟩ : Held V) = a from rfl, ← ha]
  | b :: bs, c, a, h, hf, ha, hb => by
    have hbc := hb b (by simp)
    obtain ⟨a1, out, e, hc, hn, er, hid, hg⟩ := process_idle hA h hf hbc
    obtain ⟨x, o, ex, ex', hidx, _, _, hgx, _, _⟩ := runHeld_ok hA (h.active a ha) hbc
    have : a1 = some x ∧ out = o := by
      rw [ha] at er
      unfold Core.runSlot at er
      simp only [ex, Option.map_some, Option.some.injEq, Prod.mk.injEq] at er
      exact ⟨er.1.symm, er.2.symm⟩
    obtain ⟨rfl, rfl⟩ := this
    have hr1 : Ready N M Good { c with active := some x } :=
      ⟨hg, h.fade, h.pending, h.bufCh, h.bufN, h.lower, h.le, h.inOut⟩
    obtain ⟨c2, a2, outs, e2, f2, sh, r2, s2⟩ := idle_play hA bs { c with active := some x } x hr1 hf rfl (fun b' h => hb b' (by simp [h]))
    refine ⟨c2, a2, out :: outs, ?_, feed_cons ex' f2, .cons ⟨by rw [hbc, hc], hn.symm⟩ sh, r2, ?_⟩
    · exact play_cons (batch := []) e rfl e2
    · rw [s2]
      show ({ c with active := some ⟨x.id, a2⟩ } : Core V) = _
      rw [hidx]

theorem SameSamples.refl {N : ℕ} : ∀ {xs : List Buf}, (∀ b ∈ xs, b.ch = N) → SameSamples N xs xs
  | [], _ => .nil
  | b :: bs, h => .cons ⟨h b (by simp), h b (by simp), rfl, fun _ _ _ _ => rfl⟩ (SameSamples.refl fun b' hb' => h b' (by simp [hb']))

theorem SameSamples.totalLen {N : ℕ} {xs ys : List Buf} (h : SameSamples N xs ys) : totalLen ys = totalLen xs := by
  induction h with
  | nil => rfl
  | cons h _ ih => simp only [Spec.totalLen, ih, h.2.2.1]

theorem SameSamples.stream {N : ℕ} {xs ys : List Buf} (h : SameSamples N xs ys) :
    ∀ ch < N, ∀ t < Spec.totalLen xs, Spec.stream ys ch t = Spec.stream xs ch t := by
  induction h with
  | nil => intro ch _ t ht; exact absurd ht (by simp [Spec.totalLen])
  | @cons x y xs ys hxy _ ih =>
    intro ch hc t ht
    simp only [Spec.totalLen] at ht
    simp only [Spec.stream, ← hxy.2.2.1]
    by_cases hlt : t < x.n
    · rw [if_pos hlt, if_pos hlt, hxy.2.2.2 ch hc t hlt]
    · rw [if_neg hlt, if_neg hlt]
      exact ih ch hc _ (by omega)

/-- The last response delivered by a sequence of calls. -/
def lastOf (bs : List (List (Held V) × Buf)) : Option (Held V) := (bs.flatMap Prod.fst).getLast?

theorem lastOf_cons (b : List (Held V) × Buf) (bs : List (List (Held V) × Buf)) (p : Option (Held V)) :
    (lastOf (b :: bs) <|> p) = (lastOf bs <|> b.1.getLast? <|> p) := by
  unfold lastOf
  rw [List.flatMap_cons, List.getLast?_append]
  cases (bs.flatMap Prod.fst).getLast? <;> cases b.1.getLast? <;> rfl

/-- A crossfade up to its end, with deliveries. -/
theorem crossfade_play {ops : ConvOps V} {K : FadeRule} (hK : Implements ops.gains K) {N M : ℕ} {Good : V → Prop} (hA : Accepts ops N Good) (hM : 0 < M) {n : ℕ} :
    ∀ (bs : List (List (Held V) × Buf)) (c : Core V) (f a : Held V) (j : ℕ), Ready N M Good c → FadingAt ops c f n j j →
      c.strategy = .crossfade → c.active = some a → (∀ b ∈ bs, b.2.ch = N ∧ b.2.n ≤ M ∧ ∀ g ∈ b.1, Good g.obj) →
      (bs ≠ [] → j + totalLen (bs.map Prod.snd).dropLast < n) →
      ∃ c' outs a' olds blks' f' news, c.play ops bs = some (c', outs) ∧ SameShape (bs.map Prod.snd) outs ∧
        feed ops.process a.obj (bs.map Prod.snd) = some (a', olds) ∧ SameSamples N (bs.map Prod.snd) blks' ∧
        feed ops.process f.obj blks' = some (f', news) ∧
        (∀ ch < N, ∀ t < totalLen (bs.map Prod.snd),
          K.mix n (j + t) (stream olds ch t) (stream news ch t) (stream outs ch t)) ∧
        Ready N M Good c' ∧ SameSettings c c' ∧
        ((j + totalLen (bs.map Prod.snd) < n ∧ FadingAt ops c' ⟨f.id, f'⟩ n (j + totalLen (bs.map Prod.snd)) (j + totalLen (bs.map Prod.snd)) ∧
            c'.strategy = .crossfade ∧ c'.active = some ⟨a.id, a'⟩ ∧ c'.pending = (lastOf bs <|> c.pending)) ∨
         (n ≤ j + totalLen (bs.map Prod.snd) ∧ c'.active = some ⟨f.id, f'⟩ ∧ c'.pending = none ∧
            (((lastOf bs <|> c.pending) = none ∧ c'.fade = none ∧ Rest c') ∨
              ∃ p, (lastOf bs <|> c.pending) = some p ∧ FadingAt ops c' p (c.fadeLength ops p.obj).toNat 0 0)))
  | [], c, f, a, j, h, hf, hs, ha, _, _ => by
    refine ⟨c, [], a.obj, [], [], f.obj, [], rfl, .nil, rfl, .nil, rfl, fun _ _ t ht => absurd ht (by simp [totalLen]), h, .refl c, Or.inl ?_⟩
    exact ⟨hf.hj', hf, hs, ha, rfl⟩
  | (batch, blk) :: bs, c, f, a, j, h, hf, hs, ha, hb, hl => by
    obtain ⟨hbc, hbn, hg⟩ := hb (batch, blk) (by simp)
    obtain ⟨r1, f1, a1, s1, p1⟩ := service_fading h hf hg
    have ss1 := settings_service (ops := ops) c batch
    obtain ⟨c2, e, out, av, old, fb, fv, new, ep, eo, oc, on, r2, ss2, ea, on', ga, hfb, ef, nn, gf, hout, hcase⟩ :=
      crossfade_block hK hA hM r1 f1 (by rw [s1, hs]) (by rw [a1, ha]) hbc hbn
    have hbn' : blk.n = fb.n := hfb.2.2.1
    rcases hcase with ⟨q1, q2, q3, q4, q5⟩ | ⟨q1, q2, q3, q4⟩
    · obtain ⟨c', outs, a', olds, blks', f', news, e2, sh, fa, hsm, ff, hd, r3, ss3, hfin⟩ :=
        crossfade_play hK hA hM bs c2 ⟨f.id, fv⟩ ⟨a.id, av⟩ (j + blk.n) r2 q2 q3 q4 (fun b hb' => hb b (by simp [hb'])) (by
          intro hne
          have := hl (by simp)
          obtain ⟨b', bs', rfl⟩ : ∃ b' bs', bs = b' :: bs' := by cases bs with
            | nil => exact absurd rfl hne
            | cons b' bs' => exact ⟨b', bs', rfl⟩
          simp only [List.map_cons, List.dropLast_cons_cons, totalLen] at this ⊢
          omega)
      refine ⟨c', out :: outs, a', old :: olds, fb :: blks', f', new :: news, play_cons ep eo e2, .cons ⟨by rw [hbc, oc], on.symm⟩ sh,
        feed_cons ea fa, .cons hfb hsm, feed_cons ef ff, ?_, r3, (ss1.trans ss2).trans ss3, ?_⟩
      · intro ch hc t ht
        simp only [List.map_cons, totalLen] at ht
        simp only [stream, on, on', nn]
        by_cases hlt : t < blk.n
        · rw [if_pos hlt, if_pos hlt, if_pos hlt]; exact hout ch hc t hlt
        · rw [if_neg hlt, if_neg hlt, if_neg hlt, show j + t = j + blk.n + (t - blk.n) by omega]; exact hd ch hc (t - blk.n) (by omega)
      · rw [show totalLen (List.map Prod.snd ((batch, blk) :: bs)) = blk.n + totalLen (bs.map Prod.snd) from rfl, ← add_assoc, lastOf_cons]
        rw [q5, p1, ] at hfin
        have hfl : ∀ v, c2.fadeLength ops v = c.fadeLength ops v := (ss1.trans ss2).fadeLength
        simp only [hfl] at hfin
        exact hfin
    · have hnil : bs = [] := by
        by_contra hne
        have := hl (by simp)
        obtain ⟨b', bs', rfl⟩ : ∃ b' bs', bs = b' :: bs' := by cases bs with
          | nil => exact absurd rfl hne
          | cons b' bs' => exact ⟨b', bs', rfl⟩
        simp only [List.map_cons, List.dropLast_cons_cons, totalLen] at this
        omega
      subst hnil
      refine ⟨c2, [out], av, [old], [fb], fv, [new], play_cons ep eo rfl, .cons ⟨by rw [hbc, oc], on.symm⟩ .nil,
        feed_cons ea rfl, .cons hfb .nil, feed_cons ef rfl, ?_, r2, ss1.trans ss2, Or.inr ?_⟩
      · intro ch hc t ht
        simp only [List.map_cons, List.map_nil, totalLen, add_zero] at ht
        simp only [stream, on, on', nn, ht, if_true]
        exact hout ch hc t ht
      · rw [lastOf_cons]
        rw [p1] at q4
        have hfl : ∀ v, (c.service ops batch).fadeLength ops v = c.fadeLength ops v := ss1.fadeLength
        simp only [hfl] at q4
        exact ⟨by simp only [List.map_cons, List.map_nil, totalLen]; omega, q2, q3, q4⟩

/-- The fade-out half of an in/out fade, with deliveries. -/
theorem fadeOut_play {ops : ConvOps V} {K : FadeRule} (hK : Implements ops.gains K) {N M : ℕ} {Good : V → Prop} (hA : Accepts ops N Good) {n : ℕ} :
    ∀ (bs : List (List (Held V) × Buf)) (c : Core V) (f a : Held V) (j : ℕ), Ready N M Good c → FadingAt ops c f n j 0 →
      c.strategy = .inOut → c.active = some a → (∀ b ∈ bs, b.2.ch = N ∧ ∀ g ∈ b.1, Good g.obj) →
      (bs ≠ [] → j + totalLen (bs.map Prod.snd).dropLast < n) →
      ∃ c' outs a' olds, c.play ops bs = some (c', outs) ∧ SameShape (bs.map Prod.snd) outs ∧
        feed ops.process a.obj (bs.map Prod.snd) = some (a', olds) ∧
        (∀ ch < N, ∀ t < totalLen (bs.map Prod.snd), K.fadeOut n (j + t) (stream olds ch t) (stream outs ch t)) ∧
        Ready N M Good c' ∧ SameSettings c c' ∧ FadingAt ops c' f n (min n (j + totalLen (bs.map Prod.snd))) 0 ∧ c'.strategy = .inOut ∧
        c'.active = some ⟨a.id, a'⟩ ∧ c'.pending = (lastOf bs <|> c.pending)
  | [], c, f, a, j, h, hf, hs, ha, _, _ => by
    refine ⟨c, [], a.obj, [], rfl, .nil, rfl, fun _ _ t ht => absurd ht (by simp [totalLen]), h, .refl c, ?_, hs, ha, rfl⟩
    have := hf.hj
    simp only [List.map_nil, totalLen, add_zero]
    rw [Nat.min_eq_right this]
    exact hf
  | (batch, blk) :: bs, c, f, a, j, h, hf, hs, ha, hb, hl => by
    obtain ⟨hbc, hg⟩ := hb (batch, blk) (by simp)
    obtain ⟨r1, f1, a1, s1, p1⟩ := service_fading h hf hg
    have ss1 := settings_service (ops := ops) c batch
    have hj : j < n := by have := hl (by simp); omega
    obtain ⟨c2, e, out, av, old, ep, eo, oc, on, r2, ss2, ea, on', ga, hout, q2, q3, q4, q5⟩ :=
      fadeOut_block hK hA r1 f1 (by rw [s1, hs]) (by rw [a1, ha]) hj hbc
    obtain ⟨c', outs, a', olds, e2, sh, fa, hd, r3, ss3, k1, k2, k3, k4⟩ :=
      fadeOut_play hK hA bs c2 f ⟨a.id, av⟩ (min n (j + blk.n)) r2 q2 q3 q4 (fun b hb' => hb b (by simp [hb'])) (by
        intro hne
        have := hl (by simp)
        obtain ⟨b', bs', rfl⟩ : ∃ b' bs', bs = b' :: bs' := by cases bs with
          | nil => exact absurd rfl hne
          | cons b' bs' => exact ⟨b', bs', rfl⟩
        simp only [List.map_cons, List.dropLast_cons_cons, totalLen] at this ⊢
        omega)
    have hcase : bs = [] ∨ j + blk.n < n := by
      by_cases hne : bs = []
      · exact Or.inl hne
      · right
        have := hl (by simp)
        obtain ⟨b', bs', rfl⟩ : ∃ b' bs', bs = b' :: bs' := by cases bs with
          | nil => exact absurd rfl hne
          | cons b' bs' => exact ⟨b', bs', rfl⟩
        simp only [List.map_cons, List.dropLast_cons_cons, totalLen] at this ⊢
        omega
    refine ⟨c', out :: outs, a', old :: olds, play_cons ep eo e2, .cons ⟨by rw [hbc, oc], on.symm⟩ sh,
      feed_cons ea fa, ?_, r3, (ss1.trans ss2).trans ss3, ?_, k2, k3, ?_⟩
    · intro ch hc t ht
      simp only [List.map_cons, totalLen] at ht
      simp only [stream, on, on']
      by_cases hlt : t < blk.n
      · rw [if_pos hlt, if_pos hlt]; exact hout ch hc t hlt
      · rw [if_neg hlt, if_neg hlt]
        rcases hcase with rfl | hcase
        · simp only [List.map_nil, totalLen] at ht; omega
        · rw [show j + t = min n (j + blk.n) + (t - blk.n) by omega]
          exact hd ch hc (t - blk.n) (by omega)
    · rw [show totalLen (List.map Prod.snd ((batch, blk) :: bs)) = blk.n + totalLen (bs.map Prod.snd) from rfl]
      rw [show min n (min n (j + blk.n) + totalLen (bs.map Prod.snd)) = min n (j + (blk.n + totalLen (bs.map Prod.snd))) by omega] at k1
      exact k1
    · rw [k4, q5, p1, lastOf_cons]

/-- The fade-in half of an in/out fade, with deliveries. -/
theorem fadeIn_play {ops : ConvOps V} {K : FadeRule} (hK : Implements ops.gains K) {N M : ℕ} {Good : V → Prop} (hA : Accepts ops N Good) {n : ℕ} :
    ∀ (bs : List (List (Held V) × Buf)) (c : Core V) (f : Held V) (j : ℕ), Ready N M Good c → FadingAt ops c f n n j →
      c.strategy = .inOut → (∀ b ∈ bs, b.2.ch = N ∧ ∀ g ∈ b.1, Good g.obj) →
      (bs ≠ [] → j + totalLen (bs.map Prod.snd).dropLast < n) →
      ∃ c' outs f' news, c.play ops bs = some (c', outs) ∧ SameShape (bs.map Prod.snd) outs ∧
        feed ops.process f.obj (bs.map Prod.snd) = some (f', news) ∧
        (∀ ch < N, ∀ t < totalLen (bs.map Prod.snd), K.fadeIn n (j + t) (stream news ch t) (stream outs ch t)) ∧
        Ready N M Good c' ∧ SameSettings c c' ∧
        ((j + totalLen (bs.map Prod.snd) < n ∧ FadingAt ops c' ⟨f.id, f'⟩ n n (j + totalLen (bs.map Prod.snd)) ∧
            c'.strategy = .inOut ∧ c'.active = c.active ∧ c'.pending = (lastOf bs <|> c.pending)) ∨
         (n ≤ j + totalLen (bs.map Prod.snd) ∧ c'.active = some ⟨f.id, f'⟩ ∧ c'.pending = none ∧
            (((lastOf bs <|> c.pending) = none ∧ c'.fade = none ∧ Rest c') ∨
              ∃ p, (lastOf bs <|> c.pending) = some p ∧ FadingAt ops c' p (c.fadeLength ops p.obj).toNat 0 0)))
  | [], c, f, j, h, hf, hs, _, _ => by
    refine ⟨c, [], f.obj, [], rfl, .nil, rfl, fun _ _ t ht => absurd ht (by simp [totalLen]), h, .refl c, Or.inl ?_⟩
    exact ⟨hf.hj', hf, hs, rfl, rfl⟩
  | (batch, blk) :: bs, c, f, j, h, hf, hs, hb, hl => by
    obtain ⟨hbc, hg⟩ := hb (batch, blk) (by simp)
    obtain ⟨r1, f1, a1, s1, p1⟩ := service_fading h hf hg
    have ss1 := settings_service (ops := ops) c batch
    obtain ⟨c2, e, out, fv, new, ep, eo, oc, on, r2, ss2, ef, nn, gf, hout, hcase⟩ :=
      fadeIn_block hK hA r1 f1 (by rw [s1, hs]) hbc
    rcases hcase with ⟨q1, q2, q3, q4, q5⟩ | ⟨q1, q2, q3, q4⟩
    · obtain ⟨c', outs, f', news, e2, sh, ff, hd, r3, ss3, hfin⟩ :=
        fadeIn_play hK hA bs c2 ⟨f.id, fv⟩ (j + blk.n) r2 q2 q3 (fun b hb' => hb b (by simp [hb'])) (by
          intro hne
          have := hl (by simp)
          obtain ⟨b', bs', rfl⟩ : ∃ b' bs', bs = b' :: bs' := by cases bs with
            | nil => exact absurd rfl hne
            | cons b' bs' => exact ⟨b', bs', rfl⟩
          simp only [List.map_cons, List.dropLast_cons_cons, totalLen] at this ⊢
          omega)
      refine ⟨c', out :: outs, f', new :: news, play_cons ep eo e2, .cons ⟨by rw [hbc, oc], on.symm⟩ sh,
        feed_cons ef ff, ?_, r3, (ss1.trans ss2).trans ss3, ?_⟩
      · intro ch hc t ht
        simp only [List.map_cons, totalLen] at ht
        simp only [stream, on, nn]
        by_cases hlt : t < blk.n
        · rw [if_pos hlt, if_pos hlt]; exact hout ch hc t hlt
        · rw [if_neg hlt, if_neg hlt, show j + t = j + blk.n + (t - blk.n) by omega]; exact hd ch hc (t - blk.n) (by omega)
      · rw [show totalLen (List.map Prod.snd ((batch, blk) :: bs)) = blk.n + totalLen (bs.map Prod.snd) from rfl, ← add_assoc, lastOf_cons]
        rw [q5, p1, q4, a1] at hfin
        have hfl : ∀ v, c2.fadeLength ops v = c.fadeLength ops v := (ss1.trans ss2).fadeLength
        simp only [hfl] at hfin
        exact hfin
    · have hnil : bs = [] := by
        by_contra hne
        have := hl (by simp)
        obtain ⟨b', bs', rfl⟩ : ∃ b' bs', bs = b' :: bs' := by cases bs with
          | nil => exact absurd rfl hne
          | cons b' bs' => exact ⟨b', bs', rfl⟩
        simp only [List.map_cons, List.dropLast_cons_cons, totalLen] at this
        dsimp only at q1
        omega
      subst hnil
      refine ⟨c2, [out], fv, [new], play_cons ep eo rfl, .cons ⟨by rw [hbc, oc], on.symm⟩ .nil,
        feed_cons ef rfl, ?_, r2, ss1.trans ss2, Or.inr ?_⟩
      · intro ch hc t ht
        simp only [List.map_cons, List.map_nil, totalLen, add_zero] at ht
        simp only [stream, on, nn, ht, if_true]
        exact hout ch hc t ht
      · rw [lastOf_cons]
        rw [p1] at q4
        have hfl : ∀ v, (c.service ops batch).fadeLength ops v = c.fadeLength ops v := ss1.fadeLength
        simp only [hfl] at q4
        exact ⟨by simp only [List.map_cons, List.map_nil, totalLen]; omega, q2, q3, q4⟩

/-- A crossfade to its end and beyond, when nothing else arrives. -/
theorem crossfade_full {ops : ConvOps V} {K : FadeRule} (hK : Implements ops.gains K) {N M : ℕ} {Good : V → Prop} (hA : Accepts ops N Good) (hM : 0 < M) {n : ℕ} :
    ∀ (blocks : List Buf) (c : Core V) (f a : Held V) (j : ℕ), Ready N M Good c → FadingAt ops c f n j j →
      c.strategy = .crossfade → c.active = some a → c.pending = none → (∀ b ∈ blocks, b.ch = N ∧ b.n ≤ M) →
      ∃ c' outs a' olds blks' f' news, c.play ops (blocks.map fun b => ([], b)) = some (c', outs) ∧ SameShape blocks outs ∧
        feed ops.process a.obj blocks = some (a', olds) ∧ SameSamples N blocks blks' ∧
        feed ops.process f.obj blks' = some (f', news) ∧
        (∀ ch < N, ∀ t < totalLen blocks,
          K.mix n (j + t) (stream olds ch t) (stream news ch t) (stream outs ch t)) ∧
        Ready N M Good c' ∧ (n ≤ j + totalLen blocks → c'.active = some ⟨f.id, f'⟩ ∧ c'.fade = none ∧ c'.pending = none ∧ Rest c')
  | [], c, f, a, j, h, hf, hs, ha, _, _ => by
    refine ⟨c, [], a.obj, [], [], f.obj, [], rfl, .nil, rfl, .nil, rfl, fun _ _ t ht => absurd ht (by simp [totalLen]), h, ?_⟩
    intro hn
    have := hf.hj'
    simp only [totalLen] at hn
    omega
  | blk :: bs, c, f, a, j, h, hf, hs, ha, hp, hb => by
    obtain ⟨hbc, hbn⟩ := hb blk (by simp)
    have hpos := hf.pos
    obtain ⟨c2, e, out, av, old, fb, fv, new, ep, eo, oc, on, r2, ss2, ea, on', ga, hfb, ef, nn, gf, hout, hcase⟩ :=
      crossfade_block hK hA hM h hf hs ha hbc hbn
    rcases hcase with ⟨q1, q2, q3, q4, q5⟩ | ⟨q1, q2, q3, q4⟩
    · obtain ⟨c', outs, a', olds, blks', f', news, e2, sh, fa, hsm, ff, hd, r3, hfin⟩ :=
        crossfade_full hK hA hM bs c2 ⟨f.id, fv⟩ ⟨a.id, av⟩ (j + blk.n) r2 q2 q3 q4 (by rw [q5, hp]) (fun b hb' => hb b (by simp [hb']))
      refine ⟨c', out :: outs, a', old :: olds, fb :: blks', f', new :: news, play_cons (batch := []) ep eo e2,
        .cons ⟨by rw [hbc, oc], on.symm⟩ sh, feed_cons ea fa, .cons hfb hsm, feed_cons ef ff, ?_, r3, ?_⟩
      · intro ch hc t ht
        simp only [totalLen] at ht
        simp only [stream, on, on', nn]
        by_cases hlt : t < blk.n
        · rw [if_pos hlt, if_pos hlt, if_pos hlt]; exact hout ch hc t hlt
        · rw [if_neg hlt, if_neg hlt, if_neg hlt, show j + t = j + blk.n + (t - blk.n) by omega]; exact hd ch hc (t - blk.n) (by omega)
      · intro hn
        simp only [totalLen] at hn
        exact hfin (by omega)
    · rcases q4 with ⟨_, q5, q6⟩ | ⟨p, hp', _⟩
      · have hbc' : ∀ b ∈ bs, b.ch = N := fun b hb' => (hb b (by simp [hb'])).1
        obtain ⟨c', f', outs, e2, ff, sh, r3, ec⟩ := idle_play hA bs c2 ⟨f.id, fv⟩ r2 q5 q2 hbc'
        obtain ⟨a', olds, fa, sha, _⟩ := accepts_feed hA bs av ga hbc'
        refine ⟨c', out :: outs, a', old :: olds, fb :: bs, f', new :: outs, play_cons (batch := []) ep eo e2,
          .cons ⟨by rw [hbc, oc], on.symm⟩ sh, feed_cons ea fa, .cons hfb (SameSamples.refl hbc'), feed_cons ef ff, ?_, r3, ?_⟩
        · intro ch hc t ht
          simp only [totalLen] at ht
          simp only [stream, on, on', nn]
          by_cases hlt : t < blk.n
          · rw [if_pos hlt, if_pos hlt, if_pos hlt]; exact hout ch hc t hlt
          · rw [if_neg hlt, if_neg hlt, if_neg hlt]
            exact hK.over _ _ _ _ hpos (by omega)
        · intro _
          rw [ec]
          exact ⟨rfl, q5, q3, q6⟩
      · rw [hp] at hp'
        cases hp'

end Zones.Proofs
