import Verif.Proofs.EngineFadeSpec
import Verif.Proofs.EngineKeeps

/-! Blocks processed with a fade slot in use but smoothers that are not smoothing. -/

open Zones.Model Zones.Spec

namespace Zones.Proofs

variable {V : Type}

theorem still_scaled {g : GainArith} {s : Smooth} (h : s.countdown = 0) {b : Buf} {ch i : ℕ} (hc : ch < b.ch) (hi : i < b.n) :
    (b.multiplyBy g s).1.data ch i = g.mul (b.data ch i) s.target := by
  unfold Buf.multiplyBy Smooth.isSmoothing
  rw [if_neg (by simp [h])]
  show (b.scale g fun _ => s.target).data ch i = _
  unfold Buf.scale
  dsimp only
  rw [if_pos ⟨hc, hi⟩]

theorem still_block {ops : ConvOps V} {N M : ℕ} {Good : V → Prop} (hA : Accepts ops N Good) (hM : 0 < M) {c : Core V} (h : Ready N M Good c)
    {f : Held V} (hf : c.fade = some f) (hi : c.sIn.countdown = 0) (ho : c.sOut.countdown = 0) (hp : c.pending = none)
    {blk : Buf} (hb : blk.ch = N) (hfit : blk.n ≤ M) :
    ∃ c' e out f', c.processBody ops blk = some (c', e) ∧ e.out = some out ∧ out.ch = N ∧ out.n = blk.n ∧ Ready N M Good c' ∧ SameSettings c c' ∧
      c'.active = some f' ∧ f'.id = f.id ∧ c'.fade = none ∧ c'.pending = none ∧ Rest c' ∧
      (c.strategy = .crossfade → ∃ a' old fb new, Core.runSlot ops c.active blk = some (a', old) ∧ SameSamples N [blk] [fb] ∧
        ops.process f.obj fb = some (f'.obj, new) ∧
        ∀ ch < N, ∀ i < blk.n, out.data ch i = ops.gains.add (ops.gains.mul (old.data ch i) c.sOut.target) (ops.gains.mul (new.data ch i) c.sIn.target)) ∧
      (c.strategy = .inOut → ∃ new, ops.process f.obj blk = some (f'.obj, new) ∧
        ∀ ch < N, ∀ i < blk.n, out.data ch i = ops.gains.mul (new.data ch i) c.sIn.target) := by
  have hend : ∀ c1 : Core V, c1.sIn.countdown = 0 → c1.pending = none →
      c1.endFade ops = ({ c1 with active := c1.fade, fade := none }.resetFade, [c1.active]) := by
    intro c1 h1 h2
    exact endFade_last (by unfold Smooth.isSmoothing; simp [h1]) h2
  have hmul : ∀ b : Buf, (b.multiplyBy ops.gains c.sIn).2 = c.sIn := by
    intro b
    unfold Buf.multiplyBy Smooth.isSmoothing
    rw [if_neg (by simp [hi])]
  cases hs : c.strategy with
  | crossfade =>
    obtain ⟨a1', old, ea, hida, hca, hna, hga⟩ := runSlot_ok hA h.active hb
    have esub : c.fadeBuf.sub 0 blk.n = some ⟨N, blk.n, fun ch i => c.fadeBuf.data ch (0 + i)⟩ := by
      unfold Buf.sub
      rw [if_pos ⟨by rw [h.bufN]; omega, by rw [h.bufN]; omega⟩, h.bufCh]
    set fb : Buf := (Buf.mk N blk.n fun ch i => c.fadeBuf.data ch (0 + i)).copyFrom blk with hfb
    have hfbc : fb.ch = N := rfl
    have hfbn : fb.n = blk.n := rfl
    obtain ⟨f1', new, ef, ef', hidf, hcf, hnf, hgf, hsf, htf⟩ := runHeld_ok hA (h.fade f hf) (blk := fb) hfbc
    obtain ⟨hc1, hn1⟩ := multiplyBy_shape (g := ops.gains) old c.sOut
    obtain ⟨hc2, hn2⟩ := multiplyBy_shape (g := ops.gains) new c.sIn
    have eadd : ∃ o, (old.multiplyBy ops.gains c.sOut).1.mix ops.gains (new.multiplyBy ops.gains c.sIn).1 = some o ∧ o.ch = N ∧ o.n = blk.n ∧
        ∀ ch < N, ∀ i < blk.n, o.data ch i = ops.gains.add ((old.multiplyBy ops.gains c.sOut).1.data ch i) ((new.multiplyBy ops.gains c.sIn).1.data ch i) := by
      unfold Buf.mix
      rw [if_pos (by rw [hc1, hc2, hca, hcf])]
      refine ⟨_, rfl, by rw [← hca, ← hc1], by rw [← hna, ← hn1], fun ch hch i hi => ?_⟩
      dsimp only
      rw [if_pos ⟨by rw [hc1, hca]; exact hch, by rw [hn1, hn2, hna, hnf, hfbn]; omega⟩]
    obtain ⟨o, eo, hoc, hon, hod⟩ := eadd
    have hst : c.fadeStep ops f blk = some ({ c with
        active := a1'
        fade := some f1'
        sOut := (old.multiplyBy ops.gains c.sOut).2
        sIn := (new.multiplyBy ops.gains c.sIn).2
        fadeBuf := c.fadeBuf.put 0 (new.multiplyBy ops.gains c.sIn).1 }, o) := by
      rw [fadeStep_cross hs]
      unfold Core.crossfadeStep
      simp only [esub, ea, Option.bind_eq_bind, Option.bind_some]
      rw [← hfb]
      simp only [ef, eo, Option.bind_some]
      rfl
    have ep := processBody_some (ops := ops) hf blk
    rw [hst, Option.map_some] at ep
    dsimp only at ep
    rw [hend _ ?_ ?_] at ep
    rotate_left
    · show ((new.multiplyBy ops.gains c.sIn).2).countdown = 0
      rw [hmul]
      exact hi
    · exact hp
    refine ⟨_, _, o, f1', ep, rfl, hoc, hon, ?_, ⟨rfl, rfl, rfl, rfl, rfl⟩, rfl, hidf, rfl, hp, resetFade_rest _, fun _ => ?_, fun h => (by cases h)⟩
    · exact ⟨fun x hx => by cases hx; exact hgf, fun x hx => (by cases hx), h.pending, h.bufCh, h.bufN, h.lower, h.le, h.inOut⟩
    · refine ⟨a1', old, fb, new, ea, .cons ⟨hb, hfbc, rfl, ?_⟩ .nil, ef', ?_⟩
      · intro ch hch i hi
        rw [hfb]
        unfold Buf.copyFrom
        dsimp only
        rw [if_pos ⟨by rw [hb]; omega, by omega⟩]
      · intro ch hch i hi'
        rw [hod ch hch i hi', still_scaled ho (by omega) (by omega), still_scaled hi (by omega) (by omega)]
  | inOut =>
    obtain ⟨f1', new, ef, ef', hidf, hcf, hnf, hgf, hsf, htf⟩ := runHeld_ok hA (h.fade f hf) hb
    obtain ⟨hc2, hn2⟩ := multiplyBy_shape (g := ops.gains) new c.sIn
    have hst : c.fadeStep ops f blk = some ({ c with
        fade := some f1'
        sIn := (new.multiplyBy ops.gains c.sIn).2 }, (new.multiplyBy ops.gains c.sIn).1) := by
      rw [fadeStep_inOut hs]
      unfold Core.inOutStep
      rw [if_neg (by unfold Smooth.isSmoothing; simp [ho])]
      simp only [ef, Option.bind_eq_bind, Option.bind_some]
      rfl
    have ep := processBody_some (ops := ops) hf blk
    rw [hst, Option.map_some] at ep
    dsimp only at ep
    rw [hend _ ?_ ?_] at ep
    rotate_left
    · show ((new.multiplyBy ops.gains c.sIn).2).countdown = 0
      rw [hmul]
      exact hi
    · exact hp
    refine ⟨_, _, _, f1', ep, rfl, by rw [hc2, hcf], by rw [hn2, hnf], ?_, ⟨rfl, rfl, rfl, rfl, rfl⟩, rfl, hidf, rfl, hp, resetFade_rest _,
      fun h => (by cases h), fun _ => ⟨new, ef', ?_⟩⟩
    · exact ⟨fun x hx => by cases hx; exact hgf, fun x hx => (by cases hx), h.pending, h.bufCh, h.bufN, h.lower, h.le, h.inOut⟩
    · intro ch hch i hi'
      rw [still_scaled hi (by omega) (by omega)]

end Zones.Proofs
