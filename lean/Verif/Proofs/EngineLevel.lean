import Verif.Proofs.EngineAge
import Verif.Spec.Levels

/-! How loud the engine's output can be, after any history. -/

open Zones.Model Zones.Spec

namespace Zones.Proofs

variable {V : Type}

/-- A pair of gains (old, new) of one moment of a fade over an admissible number of samples. -/
inductive GainPair (g : GainArith) (Len : ℕ → Prop) : ℝ → ℝ → Prop
  | start : GainPair g Len 1 0
  | done : GainPair g Len 0 1
  | mid (n t : ℕ) (hn : 0 < n) (hl : Len n) : GainPair g Len (gainAt g 1 0 n t) (gainAt g 0 1 n t)

/-- `Λ` bounds what the fades can add to the level. -/
structure GainLimits (g : GainArith) (Len : ℕ → Prop) (Λ : ℝ) : Prop where
  one_le : 1 ≤ Λ
  mix : ∀ x y, GainPair g Len x y → ∀ a f m, |a| ≤ m → |f| ≤ m → |g.add (g.mul a x) (g.mul f y)| ≤ Λ * m
  fadeOut : ∀ x y, GainPair g Len x y → ∀ a m, |a| ≤ m → |g.mul a x| ≤ Λ * m
  fadeIn : ∀ x y, GainPair g Len x y → ∀ f m, |f| ≤ m → |g.mul f y| ≤ Λ * m

/-- Smoothers moving together. -/
inductive Lock (g : GainArith) (Len : ℕ → Prop) : Smooth → Smooth → Prop
  | start (so si : Smooth) (h1 : so.target = 1) (h2 : so.countdown = 0) (h3 : si.target = 0) (h4 : si.countdown = 0) : Lock g Len so si
  | done (so si : Smooth) (h1 : so.target = 0) (h2 : so.countdown = 0) (h3 : si.target = 1) (h4 : si.countdown = 0) : Lock g Len so si
  | mid (n j : ℕ) (hn : 0 < n) (hl : Len n) (hj : j ≤ n) : Lock g Len (ramp g 1 0 n j) (ramp g 0 1 n j)

/-- Smoothers of an in/out fade. -/
inductive Off (g : GainArith) (Len : ℕ → Prop) : Smooth → Smooth → Prop
  | mid (n j j' : ℕ) (hn : 0 < n) (hl : Len n) (hj : j ≤ n) (hj' : j' ≤ n) : Off g Len (ramp g 1 0 n j) (ramp g 0 1 n j')

theorem multiplyBy_still {g : GainArith} {s : Smooth} (h : s.countdown = 0) (b : Buf) :
    b.multiplyBy g s = (b.scale g fun _ => s.target, s) := by
  unfold Buf.multiplyBy Smooth.isSmoothing
  rw [h]
  rfl

theorem Lock.multiply {g : GainArith} {Len : ℕ → Prop} {so si : Smooth} (h : Lock g Len so si) {a f : Buf} (hn : f.n = a.n) :
    ∃ x y : ℕ → ℝ, (∀ i, GainPair g Len (x i) (y i)) ∧ (a.multiplyBy g so).1 = a.scale g x ∧ (f.multiplyBy g si).1 = f.scale g y ∧
      Lock g Len (a.multiplyBy g so).2 (f.multiplyBy g si).2 := by
  cases h with
  | start _ _ h1 h2 h3 h4 =>
    rw [multiplyBy_still h2, multiplyBy_still h4]
    refine ⟨_, _, fun _ => ?_, rfl, rfl, .start _ _ h1 h2 h3 h4⟩
    rw [h1, h3]; exact .start
  | done _ _ h1 h2 h3 h4 =>
    rw [multiplyBy_still h2, multiplyBy_still h4]
    refine ⟨_, _, fun _ => ?_, rfl, rfl, .done _ _ h1 h2 h3 h4⟩
    rw [h1, h3]; exact .done
  | mid n j hn0 hl hj =>
    rw [multiplyBy_ramp hj, multiplyBy_ramp hj, hn]
    exact ⟨_, _, fun i => .mid n (j + i) hn0 hl, rfl, rfl, .mid n _ hn0 hl (Nat.min_le_left _ _)⟩

theorem Off.multiplyOut {g : GainArith} {Len : ℕ → Prop} {so si : Smooth} (h : Off g Len so si) (a : Buf) :
    ∃ x y : ℕ → ℝ, (∀ i, GainPair g Len (x i) (y i)) ∧ (a.multiplyBy g so).1 = a.scale g x ∧ Off g Len (a.multiplyBy g so).2 si := by
  cases h with
  | mid n j j' hn0 hl hj hj' =>
    rw [multiplyBy_ramp hj]
    exact ⟨_, _, fun i => .mid n (j + i) hn0 hl, rfl, .mid n _ _ hn0 hl (Nat.min_le_left _ _) hj'⟩

theorem Off.multiplyIn {g : GainArith} {Len : ℕ → Prop} {so si : Smooth} (h : Off g Len so si) (f : Buf) :
    ∃ x y : ℕ → ℝ, (∀ i, GainPair g Len (x i) (y i)) ∧ (f.multiplyBy g si).1 = f.scale g y ∧ Off g Len so (f.multiplyBy g si).2 := by
  cases h with
  | mid n j j' hn0 hl hj hj' =>
    rw [multiplyBy_ramp hj']
    exact ⟨_, _, fun i => .mid n (j' + i) hn0 hl, rfl, .mid n _ _ hn0 hl hj (Nat.min_le_left _ _)⟩

/-- The smoothers in any state of the engine. -/
def Smoothers (ops : ConvOps V) (Len : ℕ → Prop) (c : Core V) : Prop :=
  Lock ops.gains Len c.sOut c.sIn ∨ (c.strategy = .inOut ∧ c.fade ≠ none ∧ Off ops.gains Len c.sOut c.sIn)

theorem lock_resetFade {g : GainArith} {Len : ℕ → Prop} (c : Core V) : Lock g Len c.resetFade.sOut c.resetFade.sIn :=
  .start _ _ rfl rfl rfl rfl

theorem lock_begin {g : GainArith} {Len : ℕ → Prop} {so si : Smooth} (h : Lock g Len so si) {n : ℕ} (hn : 0 < n) (hl : Len n) :
    Lock g Len ((so.reset (n : ℤ)).setTarget g 0) ((si.reset (n : ℤ)).setTarget g 1) := by
  have key : (so.target = 1 ∧ si.target = 0) ∨ (so.target = 0 ∧ si.target = 1) := by
    cases h with
    | start _ _ h1 _ h3 _ => exact Or.inl ⟨h1, h3⟩
    | done _ _ h1 _ h3 _ => exact Or.inr ⟨h1, h3⟩
    | mid n j _ _ _ => exact Or.inr ⟨rfl, rfl⟩
  rcases key with ⟨h1, h2⟩ | ⟨h1, h2⟩
  · rw [smooth_begin (by norm_num) h1 hn, smooth_begin (by norm_num) h2 hn]
    exact .mid n 0 hn hl (Nat.zero_le _)
  · have e1 : (so.reset (n : ℤ)).setTarget g 0 = so.reset (n : ℤ) := by
      unfold Smooth.setTarget
      rw [if_pos]
      exact h1.symm
    have e2 : (si.reset (n : ℤ)).setTarget g 1 = si.reset (n : ℤ) := by
      unfold Smooth.setTarget
      rw [if_pos]
      exact h2.symm
    rw [e1, e2]
    exact .done _ _ h1 rfl h2 rfl

/-- Fades begun in this state have admissible lengths. -/
def Short (Len : ℕ → Prop) (c : Core V) : Prop := ∀ n, n ≤ c.upper.toNat → Len n

theorem Smoothers.beginFade {ops : ConvOps V} {Len : ℕ → Prop} {N M : ℕ} {Good : V → Prop} {c : Core V} (hr : Ready N M Good c) (hio : c.inOut ≤ c.upper)
    (hS : Short Len c) (h : Lock ops.gains Len c.sOut c.sIn) (f : Held V) : Smoothers ops Len (c.beginFade ops f) := by
  left
  have hpos := fadeLength_pos (ops := ops) hr f.obj
  have hle := fadeLength_le (ops := ops) hr hio f.obj
  have hn : ((c.fadeLength ops f.obj).toNat : ℤ) = c.fadeLength ops f.obj := Int.toNat_of_nonneg (by omega)
  have := lock_begin h (n := (c.fadeLength ops f.obj).toNat) (by omega) (hS _ (by omega))
  rw [hn] at this
  exact this

theorem Smoothers.handle {ops : ConvOps V} {Len : ℕ → Prop} {N M : ℕ} {Good : V → Prop} {c : Core V} (hr : Ready N M Good c) (hio : c.inOut ≤ c.upper)
    (hS : Short Len c) (h : Smoothers ops Len c) (g : Held V) : Smoothers ops Len (c.handle ops g).1 := by
  cases ha : c.active with
  | none => rw [handle_none ha]; exact h
  | some a =>
    cases hf : c.fade with
    | some f => rw [handle_fading ha hf]; exact h
    | none =>
      rw [handle_begin ha hf]
      rcases h with h | ⟨_, h, _⟩
      · refine Smoothers.beginFade (c := { c with pending := none }) (N := N) (M := M) (Good := Good) ?_ hio hS h g
        exact ⟨hr.active, hr.fade, fun x hx => (by cases hx), hr.bufCh, hr.bufN, hr.lower, hr.le, hr.inOut⟩
      · exact absurd hf h

theorem Smoothers.service {ops : ConvOps V} {Len : ℕ → Prop} {N M : ℕ} {Good : V → Prop} : ∀ (batch : List (Held V)) {c : Core V}, Ready N M Good c →
    c.inOut ≤ c.upper → Short Len c → (∀ g ∈ batch, Good g.obj) → Smoothers ops Len c → Smoothers ops Len (c.service ops batch)
  | [], _, _, _, _, _, h => h
  | g :: gs, c, hr, hio, hS, hg, h => by
    have ss := settings_handle (ops := ops) c g
    refine Smoothers.service (ops := ops) gs (c := (c.handle ops g).1) (hr.handle (hg g (by simp))) (by rw [ss.inOut, ss.upper]; exact hio) ?_
      (fun x hx => hg x (by simp [hx])) (h.handle hr hio hS g)
    intro n hn
    rw [ss.upper] at hn
    exact hS n hn

theorem lock_resetBody {ops : ConvOps V} (c : Core V) :
    (c.resetBody ops).1.sOut = c.sOut ∧ (c.resetBody ops).1.sIn = c.sIn := by
  cases hp : c.pending with
  | some p => rw [resetBody_pending hp]; exact ⟨rfl, rfl⟩
  | none =>
    cases hf : c.fade with
    | some f => rw [resetBody_fade hp hf]; exact ⟨rfl, rfl⟩
    | none => rw [resetBody_plain hp hf]; exact ⟨rfl, rfl⟩

/-- A `service` that starts with locked smoothers ends with locked smoothers. -/
theorem lock_service {ops : ConvOps V} {Len : ℕ → Prop} {N M : ℕ} {Good : V → Prop} : ∀ (batch : List (Held V)) {c : Core V}, Ready N M Good c →
    c.inOut ≤ c.upper → Short Len c → (∀ g ∈ batch, Good g.obj) → Lock ops.gains Len c.sOut c.sIn →
    Lock ops.gains Len (c.service ops batch).sOut (c.service ops batch).sIn
  | [], _, _, _, _, _, h => h
  | g :: gs, c, hr, hio, hS, hg, h => by
    have ss := settings_handle (ops := ops) c g
    refine lock_service (ops := ops) gs (c := (c.handle ops g).1) (hr.handle (hg g (by simp))) (by rw [ss.inOut, ss.upper]; exact hio) ?_
      (fun x hx => hg x (by simp [hx])) ?_
    · intro n hn
      rw [ss.upper] at hn
      exact hS n hn
    · cases ha : c.active with
      | none => rw [handle_none ha]; exact h
      | some a =>
        cases hf : c.fade with
        | some f => rw [handle_fading ha hf]; exact h
        | none =>
          rw [handle_begin ha hf]
          have hpos := fadeLength_pos (ops := ops) hr g.obj
          have hle := fadeLength_le (ops := ops) hr hio g.obj
          have hn : ((c.fadeLength ops g.obj).toNat : ℤ) = c.fadeLength ops g.obj := Int.toNat_of_nonneg (by omega)
          have := lock_begin h (n := (c.fadeLength ops g.obj).toNat) (by omega) (hS _ (by omega))
          rw [hn] at this
          exact this

theorem AtMost_mono {X Y : ℝ} (h : X ≤ Y) {b : Buf} (hb : AtMost X b) : AtMost Y b := fun ch hc i hi => (hb ch hc i hi).trans h

theorem AtMost_samples (X : ℝ) : OfSamples (AtMost X) := by
  intro b b' h1 h2 h3 h ch hc i hi
  rw [h1] at hc
  rw [h2] at hi
  rw [h3 ch hc i hi]
  exact h ch hc i hi

/-- Convolvers with `P` turn blocks of `k` samples at level `X` into blocks at level `Y`. -/
def Limits (ops : ConvOps V) (N : ℕ) (k : ℕ) (X Y : ℝ) (P : ℕ → V → Prop) : Prop :=
  ∀ i v blk v' o, P i v → blk.ch = N → blk.n = k → AtMost X blk → ops.process v blk = some (v', o) → AtMost Y o

theorem runHeld_limits {ops : ConvOps V} {N k : ℕ} {X Y : ℝ} {P : ℕ → V → Prop} (hL : Limits ops N k X Y P) {h h' : Held V} {blk o : Buf} (hb : blk.ch = N)
    (hn : blk.n = k) (hx : AtMost X blk) (hP : P h.id h.obj) (e : Core.runHeld ops h blk = some (h', o)) : AtMost Y o := by
  unfold Core.runHeld at e
  cases hq : ops.process h.obj blk with
  | none => rw [hq] at e; cases e
  | some r =>
    rw [hq] at e
    cases e
    exact hL h.id h.obj blk r.1 r.2 hP hb hn hx hq

theorem runSlot_limits {ops : ConvOps V} {N k : ℕ} {X Y : ℝ} {P : ℕ → V → Prop} (hL : Limits ops N k X Y P) {s s' : Option (Held V)} {blk o : Buf} (hb : blk.ch = N)
    (hn : blk.n = k) (hx : AtMost X blk) (hP : ∀ h, s = some h → P h.id h.obj) (e : Core.runSlot ops s blk = some (s', o)) : AtMost (max X Y) o := by
  cases s with
  | none => cases e; exact AtMost_mono (le_max_left _ _) hx
  | some a =>
    unfold Core.runSlot at e
    cases hq : Core.runHeld ops a blk with
    | none => simp only [hq] at e; cases e
    | some r =>
      simp only [hq] at e
      cases e
      exact AtMost_mono (le_max_right _ _) (runHeld_limits hL hb hn hx (hP a rfl) hq)

/-- One block of a fade: the smoothers, and the level. -/
theorem fadeStep_level {ops : ConvOps V} {Len : ℕ → Prop} {N M : ℕ} {Good : V → Prop} (hA : Accepts ops N Good)
    {c c' : Core V} (hR : Ready N M Good c)
    (hS : Smoothers ops Len c) {f : Held V} (hf : c.fade = some f) {blk o : Buf} (hb : blk.ch = N)
    (e : c.fadeStep ops f blk = some (c', o)) : Smoothers ops Len c' ∧
      ∀ Λ, GainLimits ops.gains Len Λ → ∀ X Y P n, Limits ops N blk.n X Y (P n) → Aged P n c → AtMost X blk → AtMost (Λ * max X Y) o := by
  cases hs : c.strategy with
  | crossfade =>
    have hlock : Lock ops.gains Len c.sOut c.sIn := by
      rcases hS with h | ⟨h, _⟩
      · exact h
      · rw [hs] at h; cases h
    have e : c.crossfadeStep ops f blk = some (c', o) := by
      unfold Core.fadeStep at e
      rw [hs] at e
      exact e
    unfold Core.crossfadeStep at e
    simp only [Option.bind_eq_bind, Option.bind_eq_some_iff] at e
    obtain ⟨fb, efb, a, ea, f', ef, out, eo, e⟩ := e
    cases e
    have hfb : fb.ch = N ∧ fb.n = blk.n := by
      obtain ⟨h1, h2⟩ := sub_shape efb
      exact ⟨h1.trans hR.bufCh, h2⟩
    obtain ⟨hac, han⟩ : a.2.ch = N ∧ a.2.n = blk.n := by
      obtain ⟨_, _, ea', _, hac, han, _⟩ := runSlot_ok hA hR.active hb
      rw [ea] at ea'
      cases ea'
      exact ⟨hac, han⟩
    obtain ⟨hfc, hfn⟩ : f'.2.ch = N ∧ f'.2.n = (fb.copyFrom blk).n := by
      obtain ⟨_, _, ef', _, _, hfc, hfn, _⟩ := runHeld_ok hA (hR.fade f hf) (blk := fb.copyFrom blk) hfb.1
      rw [ef] at ef'
      cases ef'
      exact ⟨hfc, hfn⟩
    have hfn' : f'.2.n = a.2.n := by
      rw [han, hfn]
      exact hfb.2
    obtain ⟨x, y, hxy, e1, e2, hlk⟩ := hlock.multiply (a := a.2) (f := f'.2) hfn'
    refine ⟨Or.inl hlk, fun Λ hG X Y P n hL h hx => ?_⟩
    have hfx : AtMost X (fb.copyFrom blk) := copy_samples (hfb.1.trans hb.symm) hfb.2 (AtMost_samples X) hx
    have k2 := runSlot_limits hL hb rfl hx (h.active (Or.inr (Or.inl hs))) ea
    have k4 := runHeld_limits hL (show (fb.copyFrom blk).ch = N from hfb.1) hfb.2 hfx (h.fade f hf) ef
    rw [e1, e2] at eo
    unfold Buf.mix at eo
    rw [if_pos (show (Buf.scale ops.gains a.2 x).ch = (Buf.scale ops.gains f'.2 y).ch from hac.trans hfc.symm)] at eo
    cases eo
    intro ch hc i hi
    have hc : ch < a.2.ch := hc
    have hi : i < a.2.n := hi
    have hc' : ch < f'.2.ch := by rw [hfc]; rw [hac] at hc; exact hc
    have hi' : i < f'.2.n := by rw [hfn']; exact hi
    show |if ch < a.2.ch ∧ i < min a.2.n f'.2.n then
      ops.gains.add (if ch < a.2.ch ∧ i < a.2.n then ops.gains.mul (a.2.data ch i) (x i) else a.2.data ch i)
        (if ch < f'.2.ch ∧ i < f'.2.n then ops.gains.mul (f'.2.data ch i) (y i) else f'.2.data ch i)
      else if ch < a.2.ch ∧ i < a.2.n then ops.gains.mul (a.2.data ch i) (x i) else a.2.data ch i| ≤ _
    rw [if_pos ⟨hc, by omega⟩, if_pos ⟨hc, hi⟩, if_pos ⟨hc', hi'⟩]
    exact hG.mix _ _ (hxy i) _ _ _ (k2 ch hc i hi) ((k4 ch hc' i hi').trans (le_max_right _ _))
  | inOut =>
    have e : c.inOutStep ops f blk = some (c', o) := by
      unfold Core.fadeStep at e
      rw [hs] at e
      exact e
    have hoff : (c.sOut.countdown = 0 ∧ c.sIn.countdown = 0 ∧ Lock ops.gains Len c.sOut c.sIn) ∨ Off ops.gains Len c.sOut c.sIn := by
      rcases hS with h | ⟨_, _, h⟩
      · revert h
        generalize c.sOut = so
        generalize c.sIn = si
        intro h
        cases h with
        | start _ _ h1 h2 h3 h4 => exact Or.inl ⟨h2, h4, .start _ _ h1 h2 h3 h4⟩
        | done _ _ h1 h2 h3 h4 => exact Or.inl ⟨h2, h4, .done _ _ h1 h2 h3 h4⟩
        | mid n j hn hl hj => exact Or.inr (.mid n j j hn hl hj hj)
      · exact Or.inr h
    unfold Core.inOutStep at e
    split at e
    · next hsm =>
      simp only [Option.bind_eq_bind, Option.bind_eq_some_iff] at e
      obtain ⟨a, ea, e⟩ := e
      cases e
      rcases hoff with ⟨h0, _⟩ | hoff
      · unfold Smooth.isSmoothing at hsm
        simp [h0] at hsm
      · obtain ⟨x, y, hxy, e1, hlk⟩ := hoff.multiplyOut a.2
        refine ⟨Or.inr ⟨hs, by show c.fade ≠ none; rw [hf]; simp, hlk⟩, fun Λ hG X Y P n hL h hx => ?_⟩
        have k2 := runSlot_limits hL hb rfl hx (h.active (Or.inr (Or.inr hsm))) ea
        rw [e1]
        intro ch hc i hi
        have hc : ch < a.2.ch := hc
        have hi : i < a.2.n := hi
        show |if ch < a.2.ch ∧ i < a.2.n then ops.gains.mul (a.2.data ch i) (x i) else a.2.data ch i| ≤ _
        rw [if_pos ⟨hc, hi⟩]
        exact hG.fadeOut _ _ (hxy i) _ _ (k2 ch hc i hi)
    · simp only [Option.bind_eq_bind, Option.bind_eq_some_iff] at e
      obtain ⟨f', ef, e⟩ := e
      cases e
      have key : ∃ x y : ℕ → ℝ, (∀ i, GainPair ops.gains Len (x i) (y i)) ∧ (f'.2.multiplyBy ops.gains c.sIn).1 = f'.2.scale ops.gains y ∧
          (Lock ops.gains Len c.sOut (f'.2.multiplyBy ops.gains c.sIn).2 ∨ Off ops.gains Len c.sOut (f'.2.multiplyBy ops.gains c.sIn).2) := by
        rcases hoff with ⟨h0, h0', hl⟩ | hoff
        · obtain ⟨x, y, hxy, _, e2, _⟩ := hl.multiply (a := f'.2) (f := f'.2) rfl
          refine ⟨x, y, hxy, e2, Or.inl ?_⟩
          rw [multiplyBy_still h0']
          exact hl
        · obtain ⟨x, y, hxy, e1, hlk⟩ := hoff.multiplyIn f'.2
          exact ⟨x, y, hxy, e1, Or.inr hlk⟩
      obtain ⟨x, y, hxy, e1, hlk⟩ := key
      refine ⟨hlk.imp id (fun h => ⟨hs, by simp, h⟩), fun Λ hG X Y P n hL h hx => ?_⟩
      have k4 := runHeld_limits hL hb rfl hx (h.fade f hf) ef
      rw [e1]
      intro ch hc i hi
      have hc : ch < f'.2.ch := hc
      have hi : i < f'.2.n := hi
      show |if ch < f'.2.ch ∧ i < f'.2.n then ops.gains.mul (f'.2.data ch i) (y i) else f'.2.data ch i| ≤ _
      rw [if_pos ⟨hc, hi⟩]
      exact hG.fadeIn _ _ (hxy i) _ _ ((k4 ch hc i hi).trans (le_max_right _ _))

/-- What is known of the fade in every state. -/
structure Leveled (ops : ConvOps V) (Len : ℕ → Prop) (c : Core V) : Prop where
  smoothers : Smoothers ops Len c
  short : Short Len c

theorem Smoothers.endFade {ops : ConvOps V} {Len : ℕ → Prop} {N M : ℕ} {Good : V → Prop} {c : Core V} (hr : Ready N M Good c) (hio : c.inOut ≤ c.upper)
    (hS : Short Len c) (h : Smoothers ops Len c) : Smoothers ops Len (c.endFade ops).1 := by
  rcases endFade_slots (ops := ops) (c := c) with ⟨_, e⟩ | ⟨_, hp, e⟩ | ⟨p, _, hp, e⟩
  · rw [e]; exact h
  · rw [e]; exact Or.inl (lock_resetFade _)
  · rw [e]
    refine Smoothers.beginFade (c := ({ c with active := c.fade, fade := none, pending := none } : Core V).resetFade) (N := N) (M := M) (Good := Good) ?_ hio hS
      (lock_resetFade _) p
    exact ⟨hr.fade, fun x hx => (by cases hx), fun x hx => (by cases hx), hr.bufCh, hr.bufN, hr.lower, hr.le, hr.inOut⟩

theorem process_level {ops : ConvOps V} {Len : ℕ → Prop} {N M : ℕ} {Good : V → Prop} (hA : Accepts ops N Good)
    {c c' : Core V} (hR : Ready N M Good c) (hw : Within c) (hM : 0 < M) (h : Leveled ops Len c)
    {blk : Buf} (hb : blk.ch = N) (hfit : blk.n ≤ M) {e : Core.Effects V}
    (ec : c.processBody ops blk = some (c', e)) : Leveled ops Len c' ∧ ∃ out, e.out = some out ∧
      ∀ Λ, GainLimits ops.gains Len Λ → ∀ X Y P n, 0 ≤ max X Y → Limits ops N blk.n X Y (P n) → Aged P n c → AtMost X blk → AtMost (Λ * max X Y) out := by
  obtain ⟨hs, hsh⟩ := h
  cases hf : c.fade with
  | none =>
    rw [processBody_none hf] at ec
    cases hr : Core.runSlot ops c.active blk with
    | none => rw [hr] at ec; cases ec
    | some r =>
      rw [hr] at ec
      cases ec
      refine ⟨⟨hs, hsh⟩, r.2, rfl, fun Λ hG X Y P n h0 hL ha hx => ?_⟩
      exact AtMost_mono (le_mul_of_one_le_left h0 hG.one_le) (runSlot_limits hL hb rfl hx (ha.active (Or.inl hf)) hr)
  | some f =>
    rw [processBody_some hf] at ec
    cases hr : c.fadeStep ops f blk with
    | none => rw [hr] at ec; cases ec
    | some r =>
      rw [hr] at ec
      cases ec
      obtain ⟨k2, k3⟩ := fadeStep_level hA hR hs hf hb hr
      obtain ⟨c1, out', f', e1, _, _, hr1, _, _, _, _, _, _, _, _, hup, _, hio, _⟩ := fadeStep_ok hA hR hf hb (fun _ => ⟨hfit, hM⟩)
      rw [hr] at e1
      cases e1
      have hsh1 : Short Len c1 := by
        intro n hn
        rw [hup] at hn
        exact hsh n hn
      refine ⟨⟨k2.endFade hr1 (by rw [hup, hio]; exact hw.inOut) hsh1, ?_⟩, out', rfl, fun Λ hG X Y P n _ hL ha hx => k3 Λ hG X Y P n hL ha hx⟩
      have : (c1.endFade ops).1.upper = c1.upper := by
        rcases endFade_slots (ops := ops) (c := c1) with ⟨_, e⟩ | ⟨_, _, e⟩ | ⟨p, _, _, e⟩ <;> rw [e] <;> rfl
      intro n hn
      rw [this] at hn
      exact hsh1 n hn

/-- Admissible fade lengths in all formats of a history. -/
def ShortFades (Len : ℕ → Prop) (hist : List (List (Held V) × Call)) : Prop :=
  ∀ b ∈ hist, ∀ p g, b.2 = .prepare p g → ∀ n, n ≤ (ceilTimes kUpperFadeTimeS p.sampleRate).toNat → Len n

def LeveledOr (ops : ConvOps V) (Len : ℕ → Prop) (M : Option ℕ) (c : Core V) : Prop :=
  match M with
  | none => True
  | some _ => Leveled ops Len c

/-- One call: the state stays level, and so is the output. -/
theorem call_level {ops : ConvOps V} {Len : ℕ → Prop} {N : ℕ} {Good : V → Prop} (hA : Accepts ops N Good)
    {batch : List (Held V)} {k : Call} {rest : List (List (Held V) × Call)} {M : Option ℕ}
    {c : Core V} (h : Known N Good M c) (hv : LeveledOr ops Len M c) (hw : WellFormed N Good M ((batch, k) :: rest))
    (hsf : ShortFades Len [(batch, k)]) :
    ∃ r M', c.call ops batch k = some r ∧ Known N Good M' r.1 ∧ LeveledOr ops Len M' r.1 ∧ WellFormed N Good M' rest ∧
      (∀ blk, k = .process blk → ∃ out, r.2.out = some out ∧ out.ch = N ∧ out.n = blk.n ∧
        ∀ Λ, GainLimits ops.gains Len Λ → ∀ X Y P n, 0 ≤ max X Y → Limits ops N blk.n X Y (P n) → Aged P n c → (∀ g ∈ batch, ∀ m, P m g.id g.obj) →
          AtMost X blk → AtMost (Λ * max X Y) out) := by
  have hw0 := hw
  obtain ⟨hg, hm, hk⟩ := hw
  have hreset : ∀ (m : ℕ) (c1 : Core V), Known N Good (some m) c1 → Leveled ops Len c1 → Lock ops.gains Len c1.sOut c1.sIn →
      Leveled ops Len ((c1.service ops batch).resetBody ops).1 ∧ Leveled ops Len ((c1.service ops batch).clearBody ops).1 := by
    intro m c1 hk1 hl1 hlock
    obtain ⟨_, r1, w1, _⟩ := hk1
    have hlk := lock_service (ops := ops) batch r1 w1.inOut hl1.short hg hlock
    have ss := settings_service (ops := ops) c1 batch
    have sr := settings_resetBody (ops := ops) (c1.service ops batch)
    obtain ⟨q1, q2⟩ := lock_resetBody (ops := ops) (c1.service ops batch)
    have hsh : Short Len ((c1.service ops batch).resetBody ops).1 := by
      intro n hn
      rw [sr.upper, ss.upper] at hn
      exact hl1.short n hn
    have hlk' : Lock ops.gains Len ((c1.service ops batch).resetBody ops).1.sOut ((c1.service ops batch).resetBody ops).1.sIn := by
      rw [q1, q2]; exact hlk
    exact ⟨⟨Or.inl hlk', hsh⟩, ⟨Or.inl hlk', hsh⟩⟩
  cases M with
  | none =>
    have hsl := h.1
    cases k with
    | process blk =>
      obtain rfl := hm rfl (fun _ _ hc => by cases hc)
      obtain ⟨hc, _, hk⟩ := hk
      have e : c.call ops [] (.process blk) = some (c, { out := some blk }) := by
        show c.processBody ops blk = _
        rw [processBody_none hsl.2.1, hsl.1]
        show some (({ c with active := none } : Core V), _) = _
        rw [← hsl.1]
      refine ⟨_, none, e, h, trivial, hk, fun b hb => ?_⟩
      cases hb
      refine ⟨blk, rfl, hc, rfl, fun Λ hG X Y P n h0 hL ha hb hx => AtMost_mono ?_ hx⟩
      exact (le_max_left _ _).trans (le_mul_of_one_le_left h0 hG.one_le)
    | prepare p g =>
      obtain ⟨hp, hk⟩ := hk
      have hh := prepare_head h hp g
      have hlv : Leveled ops Len (c.callHead (.prepare p g)) :=
        ⟨Or.inl (lock_resetFade _), hsf (batch, .prepare p g) (by simp) p g rfl⟩
      exact ⟨_, some p.maximumBlockSize, rfl, (hh.service (ops := ops) hg).resetBody hA, (hreset _ _ hh hlv (lock_resetFade _)).1, hk,
        fun b hb => by cases hb⟩
    | reset =>
      obtain rfl := hm rfl (fun _ _ hc => by cases hc)
      have e2 : c.call ops [] .reset = some (c.resetFade.resetBody ops) := rfl
      rw [resetBody_plain (c := c.resetFade) hsl.2.2 hsl.2.1] at e2
      have ea : c.resetFade.active.map (fun h => (⟨h.id, ops.reset h.obj⟩ : Held V)) = none := by
        rw [show c.resetFade.active = c.active from rfl, hsl.1]; rfl
      exact ⟨_, none, e2, ⟨⟨ea, hsl.2.1, hsl.2.2⟩, h.2⟩, trivial, hk, fun b hb => by cases hb⟩
    | clear =>
      obtain rfl := hm rfl (fun _ _ hc => by cases hc)
      have e : c.call ops [] .clear = some (c.resetFade.clearBody ops) := rfl
      have e2 : (c.resetFade.clearBody ops).1.active = none ∧ (c.resetFade.clearBody ops).1.fade = none ∧
          (c.resetFade.clearBody ops).1.pending = none := by
        unfold Core.clearBody
        rw [resetBody_plain (c := c.resetFade) hsl.2.2 hsl.2.1]
        exact ⟨rfl, hsl.2.1, rfl⟩
      have e3 : (c.resetFade.clearBody ops).1.spec = none := by
        rw [← h.2]; exact (settings_resetBody (ops := ops) c.resetFade).spec
      exact ⟨_, none, e, ⟨e2, e3⟩, trivial, hk, fun b hb => by cases hb⟩
  | some m =>
    have hv : Leveled ops Len c := hv
    cases k with
    | process blk =>
      obtain ⟨hc, hn, hk⟩ := hk
      have hs := h.service (ops := ops) hg
      obtain ⟨m0, r1, w1, p, s1, s2, s3, s4⟩ := hs
      have ss := settings_service (ops := ops) c batch
      have hlv : Leveled ops Len (c.service ops batch) := by
        refine ⟨hv.smoothers.service batch h.2.1 h.2.2.1.inOut hv.short hg, fun n hn => ?_⟩
        rw [ss.upper] at hn
        exact hv.short n hn
      obtain ⟨c', e, out, ep, eo, oc, on, hr, hw1, st, _⟩ := process_any hA r1 w1 hc (hn m rfl) m0
      obtain ⟨q1, out', q2, q3⟩ := process_level hA r1 w1 m0 hlv hc (hn m rfl) ep
      rw [eo] at q2
      cases q2
      refine ⟨(c', e), some m, ep, ⟨m0, hr, hw1, p, by rw [st.spec, s1], s2, s3, s4.same st⟩, q1, hk, fun b hb => ?_⟩
      cases hb
      exact ⟨out, eo, oc, on, fun Λ hG X Y P n h0 hL ha hb hx => q3 Λ hG X Y P n h0 hL (ha.service batch hb) hx⟩
    | reset =>
      refine ⟨_, some m, rfl, (h.resetFade.service (ops := ops) hg).resetBody hA, ?_, hk, fun b hb => by cases hb⟩
      exact (hreset m c.resetFade h.resetFade ⟨Or.inl (lock_resetFade _), hv.short⟩ (lock_resetFade _)).1
    | clear =>
      refine ⟨_, some m, rfl, (h.resetFade.service (ops := ops) hg).clearBody hA, ?_, hk, fun b hb => by cases hb⟩
      exact (hreset m c.resetFade h.resetFade ⟨Or.inl (lock_resetFade _), hv.short⟩ (lock_resetFade _)).2
    | prepare p g =>
      obtain ⟨hp, hk⟩ := hk
      have hh := prepare_head h hp g
      have hlv : Leveled ops Len (c.callHead (.prepare p g)) :=
        ⟨Or.inl (lock_resetFade _), hsf (batch, .prepare p g) (by simp) p g rfl⟩
      exact ⟨_, some p.maximumBlockSize, rfl, (hh.service (ops := ops) hg).resetBody hA, (hreset _ _ hh hlv (lock_resetFade _)).1, hk,
        fun b hb => by cases hb⟩

/-- All processed blocks are in the class `Q`. -/
def Hears (Q : Buf → Prop) (hist : List (List (Held V) × Call)) : Prop := ∀ b ∈ hist, ∀ blk, b.2 = .process blk → Q blk

/-- Any history. -/
theorem calls_level {ops : ConvOps V} {Len : ℕ → Prop} {N : ℕ} {Good : V → Prop} (hA : Accepts ops N Good) {Q : Buf → Prop} {P : ℕ → ℕ → V → Prop}
    {t : ℕ} (hP : Ages ops N t Q P) (rest : List (List (Held V) × Call)) :
    ∀ (hist : List (List (Held V) × Call)) (M : Option ℕ) (c : Core V) (n : ℕ), (t = 0 → n = 0) → Known N Good M c → LeveledOr ops Len M c → Aged P n c →
      WellFormed N Good M (hist ++ rest) → Delivers (fun i v => ∀ m, P m i v) hist → Hears Q hist → ShortFades Len hist →
      ∃ c1 M1, c.calls ops hist = some c1 ∧ Known N Good M1 c1 ∧ LeveledOr ops Len M1 c1 ∧ Aged P (n + t * samplesIn hist) c1 ∧ WellFormed N Good M1 rest
  | [], M, c, n, _, hk, hv, ha, hw, _, _, _ => ⟨c, M, rfl, hk, hv, ha, hw⟩
  | b :: hist, M, c, n, ht, hk, hv, ha, hw, hd, hx, hs => by
    obtain ⟨r, M', e, k1, k2, k3, _⟩ := call_level hA hk hv hw (fun x hx' => hs x (by rw [List.mem_singleton.1 hx']; simp))
    have ha' := call_aged hP hk hw ht ha (fun g hg => hd b (by simp) g hg) (hx b (by simp)) e
    obtain ⟨c1, M1, e1, h1, h2, h3, h4⟩ := calls_level hA hP rest hist M' r.1 (n + t * callLength b.2) (fun h => by rw [ht h, h, Nat.zero_mul]) k1 k2 ha' k3 (fun x hx' => hd x (by simp [hx']))
      (fun x hx' => hx x (by simp [hx'])) (fun x hx' => hs x (by simp [hx']))
    refine ⟨c1, M1, ?_, h1, h2, ?_, h4⟩
    · rw [Core.calls, e]
      exact e1
    · have : n + t * samplesIn (b :: hist) = n + t * callLength b.2 + t * samplesIn hist := by
        obtain ⟨bt, k⟩ := b
        cases k <;> simp [samplesIn, callLength] <;> ring
      rw [this]
      exact h3

theorem Aged.mono {P P' : ℕ → ℕ → V → Prop} (h : ∀ n i v, P n i v → P' n i v) {n : ℕ} {c : Core V} (ha : Aged P n c) : Aged P' n c :=
  ⟨fun p hp m => h _ _ _ (ha.pending p hp m), fun f hf => h _ _ _ (ha.fade f hf), fun hc a e => h _ _ _ (ha.active hc a e),
    fun f hf h1 h2 m => h _ _ _ (ha.wait f hf h1 h2 m)⟩

end Zones.Proofs
