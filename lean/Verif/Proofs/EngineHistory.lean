import Verif.Proofs.Engine
import Verif.Spec.Engine

/-! What holds of the engine's slots after any history of audio-side calls. -/

open Zones.Model Zones.Spec

namespace Zones.Proofs

variable {V : Type}

theorem next_countdown {g : GainArith} (s : Smooth) : (s.next g).2.countdown = s.countdown - 1 := by
  unfold Smooth.next
  split_ifs with h1 h2
  · show s.countdown = _; omega
  · show 0 = _; omega
  · rfl

theorem advance_countdown {g : GainArith} (s : Smooth) (n : ℕ) : (s.advance g n).countdown = s.countdown - n := by
  induction n with
  | zero => rfl
  | succ n ih => rw [Smooth.advance, next_countdown, ih]; omega

theorem multiplyBy_countdown {g : GainArith} (b : Buf) (s : Smooth) : (b.multiplyBy g s).2.countdown = s.countdown - b.n := by
  unfold Buf.multiplyBy
  split
  · exact advance_countdown _ _
  · rename_i h
    unfold Smooth.isSmoothing at h
    simp only [decide_eq_true_eq] at h
    show s.countdown = _
    omega

theorem setTarget_countdown {g : GainArith} (s : Smooth) (n : ℤ) (v : ℝ) : ((s.reset n).setTarget g v).countdown ≤ n.toNat := by
  unfold Smooth.setTarget
  split_ifs with h1 h2
  · show 0 ≤ _; omega
  · show 0 ≤ _; omega
  · exact le_rfl

/-- Kept by every call, whatever the history. -/
structure Within (c : Core V) : Prop where
  sIn : c.sIn.countdown ≤ c.upper.toNat
  sOut : c.sOut.countdown ≤ c.upper.toNat
  inOut : c.inOut ≤ c.upper
  waiting : c.pending ≠ none → c.fade ≠ none

theorem Within.resetFade {c : Core V} (h : Within c) : Within c.resetFade :=
  ⟨Nat.zero_le _, Nat.zero_le _, h.inOut, h.waiting⟩

theorem Within.beginFade {N M : ℕ} {Good : V → Prop} {ops : ConvOps V} {c : Core V} (h : Within c) (hr : Ready N M Good c) (f : Held V) :
    Within (c.beginFade ops f) := by
  have hl := fadeLength_le (ops := ops) hr h.inOut f.obj
  refine ⟨?_, ?_, h.inOut, fun _ => by show some f ≠ none; simp⟩
  · exact le_trans (setTarget_countdown _ _ _) (by show _ ≤ c.upper.toNat; omega)
  · exact le_trans (setTarget_countdown _ _ _) (by show _ ≤ c.upper.toNat; omega)

theorem Within.handle {N M : ℕ} {Good : V → Prop} {ops : ConvOps V} {c : Core V} (h : Within c) (hr : Ready N M Good c) (g : Held V) :
    Within (c.handle ops g).1 := by
  cases ha : c.active with
  | none =>
    rw [handle_none ha]
    exact ⟨h.sIn, h.sOut, h.inOut, h.waiting⟩
  | some a =>
    cases hf : c.fade with
    | some f =>
      rw [handle_fading ha hf]
      exact ⟨h.sIn, h.sOut, h.inOut, fun _ => by show c.fade ≠ none; rw [hf]; simp⟩
    | none =>
      rw [handle_begin ha hf]
      refine Within.beginFade (c := { c with pending := none }) ⟨h.sIn, h.sOut, h.inOut, fun h => absurd rfl h⟩ (N := N) (M := M) (Good := Good) ?_ g
      exact ⟨hr.active, hr.fade, fun x hx => (by cases hx), hr.bufCh, hr.bufN, hr.lower, hr.le, hr.inOut⟩

theorem Within.service {N M : ℕ} {Good : V → Prop} {ops : ConvOps V} {c : Core V} (h : Within c) (hr : Ready N M Good c) {batch : List (Held V)}
    (hg : ∀ g ∈ batch, Good g.obj) : Within (c.service ops batch) := by
  unfold Core.service
  induction batch generalizing c with
  | nil => exact h
  | cons g batch ih =>
    rw [List.foldl_cons]
    exact ih (h.handle hr g) (hr.handle (hg g (by simp))) (fun g' h' => hg g' (by simp [h']))

theorem Within.resetBody {ops : ConvOps V} {c : Core V} (h : Within c) : Within (c.resetBody ops).1 := by
  cases hp : c.pending with
  | some p =>
    rw [resetBody_pending hp]
    exact ⟨h.sIn, h.sOut, h.inOut, fun h => absurd rfl h⟩
  | none =>
    cases hf : c.fade with
    | some f =>
      rw [resetBody_fade hp hf]
      exact ⟨h.sIn, h.sOut, h.inOut, fun h => absurd hp h⟩
    | none =>
      rw [resetBody_plain hp hf]
      exact ⟨h.sIn, h.sOut, h.inOut, fun h => absurd hp h⟩

theorem Within.clearBody {ops : ConvOps V} {c : Core V} (h : Within c) : Within (c.clearBody ops).1 :=
  have k := h.resetBody (ops := ops)
  ⟨k.sIn, k.sOut, k.inOut, fun h => absurd rfl h⟩

/-- The settings that only `prepare` changes. -/
structure SameSettings (c c' : Core V) : Prop where
  lower : c'.lower = c.lower
  upper : c'.upper = c.upper
  maxCrossfade : c'.maxCrossfade = c.maxCrossfade
  inOut : c'.inOut = c.inOut
  spec : c'.spec = c.spec

theorem SameSettings.refl (c : Core V) : SameSettings c c := ⟨rfl, rfl, rfl, rfl, rfl⟩

theorem SameSettings.trans {a b c : Core V} (h : SameSettings a b) (h' : SameSettings b c) : SameSettings a c :=
  ⟨h'.lower.trans h.lower, h'.upper.trans h.upper, h'.maxCrossfade.trans h.maxCrossfade, h'.inOut.trans h.inOut,
    h'.spec.trans h.spec⟩

theorem SameSettings.fadeLength {ops : ConvOps V} {c c' : Core V} (h : SameSettings c c') (v : V) :
    c'.fadeLength ops v = c.fadeLength ops v := by
  unfold Core.fadeLength Core.chooseStrategy
  rw [h.lower, h.upper, h.maxCrossfade, h.inOut]

theorem settings_handle {ops : ConvOps V} (c : Core V) (g : Held V) : SameSettings c (c.handle ops g).1 := by
  cases ha : c.active with
  | none => rw [handle_none ha]; exact ⟨rfl, rfl, rfl, rfl, rfl⟩
  | some a =>
    cases hf : c.fade with
    | some f => rw [handle_fading ha hf]; exact ⟨rfl, rfl, rfl, rfl, rfl⟩
    | none => rw [handle_begin ha hf]; exact ⟨rfl, rfl, rfl, rfl, rfl⟩

theorem settings_service {ops : ConvOps V} (c : Core V) (batch : List (Held V)) : SameSettings c (c.service ops batch) := by
  unfold Core.service
  induction batch generalizing c with
  | nil => exact .refl c
  | cons g batch ih =>
    rw [List.foldl_cons]
    exact (settings_handle c g).trans (ih _)

theorem settings_resetBody {ops : ConvOps V} (c : Core V) : SameSettings c (c.resetBody ops).1 := by
  cases hp : c.pending with
  | some p => rw [resetBody_pending hp]; exact ⟨rfl, rfl, rfl, rfl, rfl⟩
  | none =>
    cases hf : c.fade with
    | some f => rw [resetBody_fade hp hf]; exact ⟨rfl, rfl, rfl, rfl, rfl⟩
    | none => rw [resetBody_plain hp hf]; exact ⟨rfl, rfl, rfl, rfl, rfl⟩

/-- What `endFade` leaves, in terms of the slots. -/
theorem endFade_slots {ops : ConvOps V} {c : Core V} :
    (c.sIn.isSmoothing = true ∧ (c.endFade ops).1 = c) ∨
    (c.sIn.isSmoothing = false ∧ c.pending = none ∧ (c.endFade ops).1 = { c with active := c.fade, fade := none }.resetFade) ∨
    (∃ p, c.sIn.isSmoothing = false ∧ c.pending = some p ∧
      (c.endFade ops).1 = { c with active := c.fade, fade := none, pending := none }.resetFade.beginFade ops p) := by
  cases hs : c.sIn.isSmoothing with
  | true => left; rw [endFade_running hs]; exact ⟨rfl, rfl⟩
  | false =>
    right
    cases hp : c.pending with
    | none =>
      left
      rw [endFade_last hs hp]
      exact ⟨rfl, rfl, by simp only [hp]⟩
    | some p => right; rw [endFade_next hs hp]; exact ⟨p, rfl, rfl, rfl⟩

def inCost (M : ℕ) (st : FadeStrategy) (o i : ℕ) : ℕ :=
  match st with
  | .crossfade => i + M
  | .inOut => (if 0 < o then o + M else 0) + i + M

noncomputable def pendCost (ops : ConvOps V) (M : ℕ) (c : Core V) : ℕ :=
  match c.pending with
  | none => 0
  | some p => 2 * ((c.fadeLength ops p.obj).toNat + M)

theorem remaining_some {ops : ConvOps V} {M : ℕ} {c : Core V} {f : Held V} (hf : c.fade = some f) :
    remaining ops M c = inCost M c.strategy c.sOut.countdown c.sIn.countdown + pendCost ops M c := by
  unfold remaining
  rw [hf]
  rfl

/-- The state left by a `process` call, in any prepared state. -/
theorem process_any {ops : ConvOps V} {N M : ℕ} {Good : V → Prop} (hA : Accepts ops N Good) {c : Core V} (h : Ready N M Good c)
    (hw : Within c) {blk : Buf} (hb : blk.ch = N) (hfit : blk.n ≤ M) (hM : 0 < M) :
    ∃ c' e out, c.processBody ops blk = some (c', e) ∧ e.out = some out ∧ out.ch = N ∧ out.n = blk.n ∧ Ready N M Good c' ∧ Within c' ∧
      SameSettings c c' ∧ newest c' = newest c ∧ (c.fade = none → c'.fade = none) ∧
      (c.fade ≠ none → remaining ops M c' + blk.n ≤ remaining ops M c) ∧
      ((c.fade ≠ none → c.active ≠ none) → c'.fade ≠ none → c'.active ≠ none) := by
  obtain ⟨c', e, out, ep, eo, oc, on, hr⟩ := h.process hA hb (fun _ _ => ⟨hfit, hM⟩)
  refine ⟨c', e, out, ep, eo, oc, on, hr, ?_⟩
  cases hf : c.fade with
  | none =>
    have hpe : c.pending = none := by
      by_contra hc; exact hw.waiting hc hf
    obtain ⟨a', out', e', _, _, _, hid, _⟩ := process_idle hA h hf hb
    rw [ep] at e'
    cases e'
    refine ⟨⟨hw.sIn, hw.sOut, hw.inOut, hw.waiting⟩, ⟨rfl, rfl, rfl, rfl, rfl⟩, ?_, fun _ => hf, fun h => absurd rfl h, fun _ h => absurd hf h⟩
    unfold newest
    simp only [hf, hpe]
    exact hid
  | some f =>
    obtain ⟨c1, out', f', e1, h1, h2, h3, h4, h5, h6, h7, h8, h9, h10, h11, h12, h13, h14, h15, k1, k2, k3⟩ :=
      fadeStep_ok hA h hf hb (fun _ => ⟨hfit, hM⟩)
    have ss : SameSettings c c1 := ⟨h11, h12, h13, h14, h15⟩
    have ec : c' = (c1.endFade ops).1 := by
      rw [processBody_some hf, e1, Option.map_some] at ep
      cases ep; rfl
    -- the countdowns
    have hcd : c1.sIn.countdown ≤ c.sIn.countdown ∧ c1.sOut.countdown ≤ c.sOut.countdown := by
      cases hs : c.strategy with
      | crossfade =>
        obtain ⟨a, b⟩ := k1 hs
        rw [a, b, multiplyBy_countdown, multiplyBy_countdown]; omega
      | inOut =>
        cases hsm : c.sOut.isSmoothing with
        | true =>
          obtain ⟨a, b⟩ := k2 hs hsm
          rw [a, b, multiplyBy_countdown]; omega
        | false =>
          obtain ⟨a, b⟩ := k3 hs hsm
          rw [a, b, multiplyBy_countdown]; omega
    have w1 : Within c1 := by
      refine ⟨?_, ?_, ?_, fun _ => by rw [h4]; simp⟩
      · rw [h12]; have := hw.sIn; omega
      · rw [h12]; have := hw.sOut; omega
      · rw [h12, h14]; exact hw.inOut
    have hpend : pendCost ops M c1 = pendCost ops M c := by
      unfold pendCost
      rw [h9]
      simp only [ss.fadeLength]
    rcases endFade_slots (ops := ops) (c := c1) with ⟨hs, es⟩ | ⟨hs, hp, es⟩ | ⟨p, hs, hp, es⟩
    · rw [es] at ec
      subst ec
      refine ⟨w1, ss, ?_, fun h => (by cases h), fun _ => ?_, fun h _ hn => ?_⟩
      · unfold newest
        rw [h9, h4, hf]
        cases c.pending <;> simp [h5]
      · rw [remaining_some h4, remaining_some hf, hpend, h10]
        have hpos : 0 < c'.sIn.countdown := by
          unfold Smooth.isSmoothing at hs
          simpa using hs
        unfold inCost
        cases hst : c.strategy with
        | crossfade =>
          obtain ⟨a, b⟩ := k1 hst
          have := multiplyBy_countdown (g := ops.gains) blk c.sIn
          rw [← b] at this
          dsimp only
          omega
        | inOut =>
          dsimp only
          cases hsm : c.sOut.isSmoothing with
          | true =>
            obtain ⟨a, b⟩ := k2 hst hsm
            have := multiplyBy_countdown (g := ops.gains) blk c.sOut
            rw [← a] at this
            have hsm' : 0 < c.sOut.countdown := by
              unfold Smooth.isSmoothing at hsm
              simpa using hsm
            rw [if_pos hsm', b]
            split_ifs <;> omega
          | false =>
            obtain ⟨a, b⟩ := k3 hst hsm
            have := multiplyBy_countdown (g := ops.gains) blk c.sIn
            rw [← b] at this
            rw [a]
            omega
      · have hx := h (by simp)
        rw [hn] at h8
        cases ha : c.active with
        | none => exact hx ha
        | some a => rw [ha] at h8; cases h8
    · rw [es] at ec
      subst ec
      refine ⟨⟨Nat.zero_le _, Nat.zero_le _, w1.inOut, fun h => absurd hp h⟩, ss.trans ⟨rfl, rfl, rfl, rfl, rfl⟩, ?_, fun h => (by cases h), fun _ => ?_,
        fun _ h => absurd rfl h⟩
      · unfold newest
        have hpe : c.pending = none := by rw [← h9]; exact hp
        rw [hpe, hf]
        show (c1.pending <|> none <|> c1.fade).map Held.id = _
        rw [hp, h4]
        simp [h5]
      · unfold remaining
        rw [hf]
        show 0 + _ ≤ _
        cases c.strategy <;> dsimp only <;> omega
    · rw [es] at ec
      subst ec
      have hr1 : Ready N M Good ({ c1 with active := c1.fade, fade := none, pending := none } : Core V).resetFade :=
        ⟨h3.fade, fun x hx => (by cases hx), fun x hx => (by cases hx), h3.bufCh, h3.bufN, h3.lower, h3.le, h3.inOut⟩
      have hw1 : Within ({ c1 with active := c1.fade, fade := none, pending := none } : Core V).resetFade :=
        ⟨Nat.zero_le _, Nat.zero_le _, w1.inOut, fun h => absurd rfl h⟩
      obtain ⟨b1, b2, b3⟩ := beginFade_at (ops := ops) hr1 (resetFade_rest _) (by show c1.fade ≠ none; rw [h4]; simp) p
      have hpe : c.pending = some p := by rw [← h9]; exact hp
      refine ⟨hw1.beginFade hr1 p, ss.trans ⟨rfl, rfl, rfl, rfl, rfl⟩, ?_, fun h => (by cases h), fun _ => ?_, fun _ _ => ?_⟩
      · rw [newest_eq_of b1.slot b3]
        unfold newest
        rw [hpe]
        rfl
      · rw [remaining_fading b1, b3]
        have hl : (({ c1 with active := c1.fade, fade := none, pending := none } : Core V).resetFade).fadeLength ops p.obj =
            c.fadeLength ops p.obj := ss.fadeLength p.obj
        rw [hl]
        rw [remaining_some hf]
        unfold pendCost inCost
        rw [hpe]
        show _ + 0 + _ ≤ _
        dsimp only
        generalize (c.fadeLength ops p.obj).toNat = L
        cases c.strategy <;> dsimp only <;> split <;> (try split_ifs) <;> omega
      · rw [b2]
        show c1.fade ≠ none
        rw [h4]; simp

theorem remaining_within {ops : ConvOps V} {N M : ℕ} {Good : V → Prop} {c : Core V} (h : Ready N M Good c) (hw : Within c) :
    remaining ops M c ≤ 4 * (c.upper.toNat + M) := by
  cases hf : c.fade with
  | none => unfold remaining; rw [hf]; exact Nat.zero_le _
  | some f =>
    rw [remaining_some hf]
    have h1 := hw.sIn
    have h2 := hw.sOut
    have h3 : pendCost ops M c ≤ 2 * (c.upper.toNat + M) := by
      unfold pendCost
      cases c.pending with
      | none => simp
      | some p =>
        dsimp only
        have := fadeLength_le (ops := ops) h hw.inOut p.obj
        omega
    unfold inCost
    cases c.strategy <;> dsimp only <;> (try split_ifs) <;> omega

/-- Playing on without deliveries: after `remaining` samples the newest convolver is the active one. -/
theorem settle {ops : ConvOps V} {N M : ℕ} {Good : V → Prop} (hA : Accepts ops N Good) (hM : 0 < M) :
    ∀ (blocks : List Buf) (c : Core V), Ready N M Good c → Within c → (∀ b ∈ blocks, b.ch = N ∧ b.n ≤ M) →
      remaining ops M c ≤ totalLen blocks →
      ∃ c' outs, c.play ops (blocks.map fun b => ([], b)) = some (c', outs) ∧ Ready N M Good c' ∧ Within c' ∧ newest c' = newest c ∧
        c'.fade = none ∧ c'.pending = none
  | [], c, h, hw, _, hl => by
    have hf : c.fade = none := by
      by_contra hc
      have := remaining_pos (ops := ops) hM hc
      simp only [totalLen] at hl
      omega
    refine ⟨c, [], rfl, h, hw, rfl, hf, ?_⟩
    by_contra hc
    exact hw.waiting hc hf
  | b :: bs, c, h, hw, hb, hl => by
    obtain ⟨c1, e, out, ep, eo, _, _, hr, hw1, _, hn, hf0, hrem, _⟩ :=
      process_any hA h hw (hb b (by simp)).1 (hb b (by simp)).2 hM
    have hl1 : remaining ops M c1 ≤ totalLen bs := by
      cases hf : c.fade with
      | none =>
        unfold remaining
        rw [hf0 hf]
        exact Nat.zero_le _
      | some f =>
        have := hrem (by rw [hf]; simp)
        simp only [totalLen] at hl
        omega
    obtain ⟨c2, outs, e2, k1, k2, k3, k4, k5⟩ := settle hA hM bs c1 hr hw1 (fun b' hb' => hb b' (by simp [hb'])) hl1
    refine ⟨c2, out :: outs, ?_, k1, k2, by rw [k3, hn], k4, k5⟩
    rw [List.map_cons, Core.play]
    show (c.processBody ops b).bind _ = _
    rw [ep, Option.bind_some]
    simp only [e2, Option.map_some, eo]
    rfl

/-! ## Histories -/

theorem ceil_bounds {k x : ℚ} (hk : 0 < k) (hx : 0 < x) :
    k / 2 * (f32 x) ≤ f32 (k * f32 x) ∧ f32 (k * f32 x) ≤ 2 * k * f32 x ∧ 0 < f32 x := by
  have h1 := f32_pos_bounds hx
  have h2 : 0 < f32 x := by linarith
  have h3 := f32_pos_bounds (mul_pos hk h2)
  refine ⟨by linarith [h3.1], by linarith [h3.2], h2⟩

theorem ceilTimes_pos {k x : ℚ} (hk : 0 < k) (hx : 0 < x) : 1 ≤ ceilTimes k x := by
  obtain ⟨h1, _, h3⟩ := ceil_bounds hk hx
  have : 0 < f32 (k * f32 x) := lt_of_lt_of_le (by positivity) h1
  unfold ceilTimes
  exact Int.one_le_ceil_iff.mpr this

theorem ceilTimes_le {k k' x : ℚ} (hk : 0 < k) (hx : 0 < x) (h : 4 * k ≤ k') : ceilTimes k x ≤ ceilTimes k' x := by
  obtain ⟨_, h2, h3⟩ := ceil_bounds hk hx
  obtain ⟨h1, _, _⟩ := ceil_bounds (by linarith : 0 < k') hx
  unfold ceilTimes
  apply Int.ceil_le_ceil
  have : 2 * k * f32 x ≤ k' / 2 * f32 x := mul_le_mul_of_nonneg_right (by linarith) h3.le
  linarith

theorem f32_four : f32 4 = 4 := by
  have := f32_nat (n := 4) (by norm_num)
  exact_mod_cast this

theorem prepared_bounds {x : ℚ} (hx : 0 < x) :
    1 ≤ ceilTimes kLowerFadeTimeS x ∧ ceilTimes kLowerFadeTimeS x ≤ ceilTimes kUpperFadeTimeS x ∧ 1 ≤ ceilTimes kInOutFadeTimeS x ∧
      ceilTimes kInOutFadeTimeS x ≤ ceilTimes kUpperFadeTimeS x := by
  have h1 := f32_pos_bounds (x := 1/10) (by norm_num)
  have h2 := f32_pos_bounds (x := 4/10) (by norm_num)
  have e : kUpperFadeTimeS = 4 := f32_four
  have l1 : 0 < kLowerFadeTimeS := by unfold kLowerFadeTimeS; linarith [h1.1]
  have l2 : 0 < kInOutFadeTimeS := by unfold kInOutFadeTimeS; linarith [h2.1]
  refine ⟨ceilTimes_pos l1 hx, ceilTimes_le l1 hx ?_, ceilTimes_pos l2 hx, ceilTimes_le l2 hx ?_⟩
  · rw [e]; unfold kLowerFadeTimeS; linarith [h1.2]
  · rw [e]; unfold kInOutFadeTimeS; linarith [h2.2]

/-- The lengths `prepare` computes for a format. -/
structure SetFor (p : ProcSpec) (c : Core V) : Prop where
  lower : c.lower = ceilTimes kLowerFadeTimeS p.sampleRate
  upper : c.upper = ceilTimes kUpperFadeTimeS p.sampleRate
  maxCrossfade : c.maxCrossfade = ceilTimes kMaxCrossFadeIrTimeS p.sampleRate
  inOut : c.inOut = ceilTimes kInOutFadeTimeS p.sampleRate

theorem SetFor.same {p : ProcSpec} {c c' : Core V} (h : SetFor p c) (s : SameSettings c c') : SetFor p c' :=
  ⟨s.lower.trans h.lower, s.upper.trans h.upper, s.maxCrossfade.trans h.maxCrossfade, s.inOut.trans h.inOut⟩

/-- What is known of the engine after any well-formed history; `M` as in `WellFormed`. -/
def Known (N : ℕ) (Good : V → Prop) (M : Option ℕ) (c : Core V) : Prop :=
  match M with
  | none => (c.active = none ∧ c.fade = none ∧ c.pending = none) ∧ c.spec = none
  | some m => 0 < m ∧ Ready N m Good c ∧ Within c ∧ ∃ p, c.spec = some p ∧ p.maximumBlockSize = m ∧ ValidFormat N p ∧ SetFor p c

/-- The newest response is the one delivered last. -/
def Tracks (last : Option ℕ) (c : Core V) : Prop := newest c = last ∧ (c.fade ≠ none → c.active ≠ none)

theorem Tracks.handle {ops : ConvOps V} {c : Core V} {last : Option ℕ} (h : Tracks last c) (hw : c.pending ≠ none → c.fade ≠ none) (g : Held V) :
    Tracks (some g.id) (c.handle ops g).1 := by
  cases ha : c.active with
  | none =>
    rw [handle_none ha]
    have hf : c.fade = none := by by_contra hc; exact h.2 hc ha
    have hp : c.pending = none := by by_contra hc; exact hw hc hf
    refine ⟨?_, fun _ => by show some g ≠ none; simp⟩
    unfold newest
    simp only [hf, hp]
    rfl
  | some a =>
    cases hf : c.fade with
    | some f =>
      rw [handle_fading ha hf]
      exact ⟨rfl, fun _ => by show c.active ≠ none; rw [ha]; simp⟩
    | none =>
      rw [handle_begin ha hf]
      exact ⟨rfl, fun _ => by show c.active ≠ none; rw [ha]; simp⟩

theorem Tracks.service {N M : ℕ} {Good : V → Prop} {ops : ConvOps V} {c : Core V} {last : Option ℕ} (h : Tracks last c) (hw : Within c)
    (hr : Ready N M Good c) {batch : List (Held V)} (hg : ∀ g ∈ batch, Good g.obj) :
    Tracks (batch.getLast?.map Held.id <|> last) (c.service ops batch) := by
  unfold Core.service
  induction batch generalizing c last with
  | nil => exact h
  | cons g batch ih =>
    rw [List.foldl_cons]
    have := ih (h.handle (ops := ops) hw.waiting g) (hw.handle hr g) (hr.handle (hg g (by simp))) (fun g' h' => hg g' (by simp [h']))
    cases batch with
    | nil => exact this
    | cons b bs =>
      rw [List.getLast?_cons_cons]
      cases h : (b :: bs).getLast? with
      | none => simp at h
      | some x => rw [h] at this; exact this

theorem Tracks.resetBody {ops : ConvOps V} {c : Core V} {last : Option ℕ} (h : Tracks last c) (hp : c.pending = none) :
    Tracks last (c.resetBody ops).1 ∧ (c.resetBody ops).1.fade = none := by
  cases hf : c.fade with
  | some f =>
    rw [resetBody_fade hp hf]
    refine ⟨⟨?_, fun h => absurd rfl h⟩, rfl⟩
    rw [← h.1]
    unfold newest
    simp only [hp, hf]
    rfl
  | none =>
    rw [resetBody_plain hp hf]
    refine ⟨⟨?_, fun h => absurd hf h⟩, hf⟩
    rw [← h.1]
    unfold newest
    simp only [hp, hf]
    cases c.active <;> rfl

theorem prepare_head {N : ℕ} {Good : V → Prop} {M : Option ℕ} {c : Core V} (h : Known N Good M c) {p : ProcSpec} (hp : ValidFormat N p)
    (g : ℕ → ℕ → ℝ) : Known N Good (some p.maximumBlockSize) (c.callHead (.prepare p g)) := by
  have hp' := hp
  obtain ⟨p1, p2, p3, p4⟩ := hp
  obtain ⟨b1, b2, b3, b4⟩ := prepared_bounds p3
  refine ⟨p2, ?_, ?_, p, rfl, rfl, hp', ⟨rfl, rfl, rfl, rfl⟩⟩
  · cases M with
    | none =>
      obtain ⟨⟨h1, h2, h3⟩, _⟩ := h
      exact ⟨fun x hx => (by rw [show (c.callHead (.prepare p g)).active = c.active from rfl, h1] at hx; cases hx),
        fun x hx => (by rw [show (c.callHead (.prepare p g)).fade = c.fade from rfl, h2] at hx; cases hx),
        fun x hx => (by rw [show (c.callHead (.prepare p g)).pending = c.pending from rfl, h3] at hx; cases hx),
        p1, rfl, b1, b2, b3⟩
    | some m =>
      obtain ⟨_, hr, _⟩ := h
      exact ⟨hr.active, hr.fade, hr.pending, p1, rfl, b1, b2, b3⟩
  · refine ⟨Nat.zero_le _, Nat.zero_le _, b4, ?_⟩
    cases M with
    | none => intro hc; exact absurd h.1.2.2 hc
    | some m => exact h.2.2.1.waiting

theorem Known.resetFade {N m : ℕ} {Good : V → Prop} {c : Core V} (h : Known N Good (some m) c) : Known N Good (some m) c.resetFade := by
  obtain ⟨h1, h2, h3, h4⟩ := h
  obtain ⟨p, h4, h5, h6, h7⟩ := h4
  exact ⟨h1, h2.resetFade, h3.resetFade, p, h4, h5, h6, h7.same ⟨rfl, rfl, rfl, rfl, rfl⟩⟩

theorem Known.service {N m : ℕ} {Good : V → Prop} {ops : ConvOps V} {c : Core V} (h : Known N Good (some m) c) {batch : List (Held V)}
    (hg : ∀ g ∈ batch, Good g.obj) : Known N Good (some m) (c.service ops batch) := by
  obtain ⟨h1, h2, h3, p, h4, h5, h6, h7⟩ := h
  have ss := settings_service (ops := ops) c batch
  exact ⟨h1, h2.service hg, h3.service h2 hg, p, by rw [ss.spec, h4], h5, h6, h7.same ss⟩

theorem Known.resetBody {N m : ℕ} {Good : V → Prop} {ops : ConvOps V} (hA : Accepts ops N Good) {c : Core V} (h : Known N Good (some m) c) :
    Known N Good (some m) (c.resetBody ops).1 := by
  obtain ⟨h1, h2, h3, p, h4, h5, h6, h7⟩ := h
  have ss := settings_resetBody (ops := ops) c
  exact ⟨h1, h2.resetBody hA, h3.resetBody, p, by rw [ss.spec, h4], h5, h6, h7.same ss⟩

theorem Known.clearBody {N m : ℕ} {Good : V → Prop} {ops : ConvOps V} (hA : Accepts ops N Good) {c : Core V} (h : Known N Good (some m) c) :
    Known N Good (some m) (c.clearBody ops).1 := by
  obtain ⟨h1, h2, h3, p, h4, h5, h6, h7⟩ := h
  have ss := settings_resetBody (ops := ops) c
  exact ⟨h1, h2.clearBody hA, h3.clearBody, p, by rw [← h4]; exact ss.spec, h5, h6, h7.same (ss.trans ⟨rfl, rfl, rfl, rfl, rfl⟩)⟩

theorem newest_none {c : Core V} (h : c.active = none ∧ c.fade = none ∧ c.pending = none) : newest c = none := by
  unfold newest
  rw [h.1, h.2.1, h.2.2]
  rfl

def stepLast (last : Option ℕ) (batch : List (Held V)) : Call → Option ℕ
  | .clear => none
  | _ => (batch.getLast?.map Held.id <|> last)

/-- One call keeps `Known` and `Tracks`. -/
theorem call_known {N : ℕ} {Good : V → Prop} {ops : ConvOps V} (hA : Accepts ops N Good) {batch : List (Held V)} {k : Call}
    {rest : List (List (Held V) × Call)} {M : Option ℕ} {c : Core V} (h : Known N Good M c) (hw : WellFormed N Good M ((batch, k) :: rest)) :
    ∃ r M', c.call ops batch k = some r ∧ Known N Good M' r.1 ∧ WellFormed N Good M' rest ∧
      ∀ last, Tracks last c → ((∀ blk, k ≠ .process blk) → ((c.callHead k).service ops batch).pending = none) →
        Tracks (stepLast last batch k) r.1 := by
  obtain ⟨hg, h0, hk⟩ := hw
  cases M with
  | none =>
    have hb := h0 rfl
    obtain ⟨h, hsp⟩ := h
    cases k with
    | process blk =>
      have hb := hb (fun _ _ hc => by cases hc)
      subst hb
      obtain ⟨_, _, hk⟩ := hk
      have e : c.call ops [] (.process blk) = some (c, { out := some blk }) := by
        show c.processBody ops blk = _
        rw [processBody_none h.2.1, h.1]
        show some (({ c with active := none } : Core V), _) = _
        rw [← h.1]
      exact ⟨_, none, e, ⟨h, hsp⟩, hk, fun last ht _ => ht⟩
    | reset =>
      have hb := hb (fun _ _ hc => by cases hc)
      subst hb
      have e : c.call ops [] .reset = some (c.resetFade.resetBody ops) := rfl
      rw [resetBody_plain (c := c.resetFade) h.2.2 h.2.1] at e
      have ea : c.resetFade.active.map (fun h => (⟨h.id, ops.reset h.obj⟩ : Held V)) = none := by
        rw [show c.resetFade.active = c.active from rfl, h.1]; rfl
      refine ⟨_, none, e, ⟨⟨ea, h.2.1, h.2.2⟩, hsp⟩, hk, fun last ht _ => ?_⟩
      refine ⟨?_, fun hc => absurd h.2.1 hc⟩
      have h1 := ht.1
      rw [newest_none h] at h1
      rw [newest_none]
      · exact h1
      · exact ⟨ea, h.2.1, h.2.2⟩
    | clear =>
      have hb := hb (fun _ _ hc => by cases hc)
      subst hb
      have e : c.call ops [] .clear = some (c.resetFade.clearBody ops) := rfl
      have e2 : (c.resetFade.clearBody ops).1.active = none ∧ (c.resetFade.clearBody ops).1.fade = none ∧
          (c.resetFade.clearBody ops).1.pending = none := by
        unfold Core.clearBody
        rw [resetBody_plain (c := c.resetFade) h.2.2 h.2.1]
        exact ⟨rfl, h.2.1, rfl⟩
      have e3 : (c.resetFade.clearBody ops).1.spec = none := by
        rw [← hsp]; exact (settings_resetBody (ops := ops) c.resetFade).spec
      exact ⟨_, none, e, ⟨e2, e3⟩, hk, fun last ht _ => ⟨newest_none e2, fun hc => absurd e2.2.1 hc⟩⟩
    | prepare p g =>
      obtain ⟨hp, hk⟩ := hk
      have hh := prepare_head (Good := Good) (M := none) ⟨h, hsp⟩ hp g
      have hs := hh.service (ops := ops) hg
      refine ⟨_, some p.maximumBlockSize, rfl, hs.resetBody hA, hk, fun last ht hq => ?_⟩
      have ht' : Tracks last (c.callHead (.prepare p g)) := ht
      have ht1 := ht'.service (ops := ops) hh.2.2.1 hh.2.1 hg
      exact (ht1.resetBody (hq (fun _ hc => by cases hc))).1
  | some m =>
    cases k with
    | process blk =>
      obtain ⟨hc, hn, hk⟩ := hk
      have hs := h.service (ops := ops) hg
      obtain ⟨m0, r1, w1, p, s1, s2, s3, s4⟩ := hs
      obtain ⟨c', e, out, ep, eo, _, _, hr, hw1, ss, hnew, hf0, hrem, hact⟩ := process_any hA r1 w1 hc (hn m rfl) m0
      refine ⟨(c', e), some m, ep, ⟨m0, hr, hw1, p, by rw [ss.spec, s1], s2, s3, s4.same ss⟩, hk, fun last ht _ => ?_⟩
      have ht1 := ht.service (ops := ops) h.2.2.1 h.2.1 hg
      exact ⟨by rw [hnew]; exact ht1.1, hact ht1.2⟩
    | reset =>
      have hs := h.resetFade.service (ops := ops) hg
      refine ⟨_, some m, rfl, hs.resetBody hA, hk, fun last ht hq => ?_⟩
      have ht' : Tracks last c.resetFade := ht
      have ht1 := ht'.service (ops := ops) h.resetFade.2.2.1 h.resetFade.2.1 hg
      exact (ht1.resetBody (hq (fun _ hc => by cases hc))).1
    | clear =>
      have hs := h.resetFade.service (ops := ops) hg
      refine ⟨_, some m, rfl, hs.clearBody hA, hk, fun last ht hq => ?_⟩
      have ht' : Tracks last c.resetFade := ht
      have ht1 := ht'.service (ops := ops) h.resetFade.2.2.1 h.resetFade.2.1 hg
      have hf := (ht1.resetBody (ops := ops) (hq (fun _ hc => by cases hc))).2
      exact ⟨newest_none ⟨rfl, hf, rfl⟩, fun hc => absurd hf hc⟩
    | prepare p g =>
      obtain ⟨hp, hk⟩ := hk
      have hh := prepare_head h hp g
      have hs := hh.service (ops := ops) hg
      refine ⟨_, some p.maximumBlockSize, rfl, hs.resetBody hA, hk, fun last ht hq => ?_⟩
      have ht' : Tracks last (c.callHead (.prepare p g)) := ht
      have ht1 := ht'.service (ops := ops) hh.2.2.1 hh.2.1 hg
      exact (ht1.resetBody (hq (fun _ hc => by cases hc))).1

/-- Every well-formed history is defined, whatever resets it contains. -/
theorem calls_known {N : ℕ} {Good : V → Prop} {ops : ConvOps V} (hA : Accepts ops N Good) :
    ∀ (hist : List (List (Held V) × Call)) (M : Option ℕ) (c : Core V), Known N Good M c → WellFormed N Good M hist →
      ∃ c' M', c.calls ops hist = some c' ∧ Known N Good M' c' ∧
        (∀ last, Tracks last c → NoResetWhileQueued ops c hist → Tracks (lastDelivered last hist) c')
  | [], M, c, h, _ => ⟨c, M, rfl, h, fun _ ht _ => ht⟩
  | (batch, k) :: rest, M, c, h, hw => by
    obtain ⟨r, M', e, hk, hwf, ht⟩ := call_known hA h hw
    obtain ⟨c', M'', e', hk', ht'⟩ := calls_known hA rest M' r.1 hk hwf
    refine ⟨c', M'', ?_, hk', fun last h1 h2 => ?_⟩
    · rw [Core.calls, e]; exact e'
    · obtain ⟨q1, q2⟩ := h2
      have := ht' _ (ht last h1 q1) (q2 r e)
      cases k <;> exact this

/-! ## Histories in which resets do not pick up responses -/

theorem Playing.waiting {ops : ConvOps V} {c : Core V} (h : Playing ops c) : (c.pending ≠ none → c.fade ≠ none) ∧ (c.fade ≠ none → c.active ≠ none) := by
  rcases h with ⟨h1, h2, _⟩ | ⟨f, n, j, j', h⟩
  · exact ⟨fun hc => absurd h2 hc, fun hc => absurd h1 hc⟩
  · exact ⟨fun _ => by rw [h.slot]; simp, fun _ => h.active⟩

/-- A reset that picks up nothing, or the very first response, ends every fade. -/
theorem quiet_reset {ops : ConvOps V} {c : Core V} (hr : Rest c) (hpf : c.fade ≠ none → c.active ≠ none) {batch : List (Held V)} (hp : c.pending = none)
    (hb : batch = [] ∨ c.active = none ∧ batch.length ≤ 1) :
    (c.service ops batch).pending = none ∧ ((c.service ops batch).resetBody ops).1.fade = none ∧
      ((c.service ops batch).resetBody ops).1.pending = none ∧ Rest ((c.service ops batch).resetBody ops).1 := by
  have key : ∀ d : Core V, d.pending = none → Rest d → d.pending = none ∧ (d.resetBody ops).1.fade = none ∧
      (d.resetBody ops).1.pending = none ∧ Rest (d.resetBody ops).1 := by
    intro d hd hrd
    cases hf : d.fade with
    | some f => rw [resetBody_fade hd hf]; exact ⟨hd, rfl, hd, hrd⟩
    | none => rw [resetBody_plain hd hf]; exact ⟨hd, hf, hd, hrd⟩
  rcases hb with rfl | ⟨ha, hl⟩
  · exact key c hp hr
  · cases batch with
    | nil => exact key c hp hr
    | cons g gs =>
      have : gs = [] := by
        cases gs with
        | nil => rfl
        | cons x xs => simp at hl
      subst this
      have e : c.service ops [g] = { c with active := some g } := by
        show (c.handle ops g).1 = _
        rw [handle_none ha]
      rw [e]
      exact key _ hp hr

/-- After a history in which resets do not pick up responses, the smoothers fit the slots; such a history is also free of
resets while queued. -/
theorem calls_playing {N : ℕ} {Good : V → Prop} {ops : ConvOps V} (hA : Accepts ops N Good) :
    ∀ (hist : List (List (Held V) × Call)) (M : Option ℕ) (c : Core V), Known N Good M c → Playing ops c ∨ M = none → WellFormed N Good M hist →
      QuietResets ops c hist → NoResetWhileQueued ops c hist ∧
      ∃ c' M', c.calls ops hist = some c' ∧ Known N Good M' c' ∧ (Playing ops c' ∨ M' = none)
  | [], M, c, h, hp, _, _ => ⟨trivial, c, M, rfl, h, hp⟩
  | (batch, k) :: rest, M, c, h, hp, hw, hq => by
    have hw0 := hw
    obtain ⟨hq1, hq2⟩ := hq
    have key : ∃ r M', c.call ops batch k = some r ∧ Known N Good M' r.1 ∧ WellFormed N Good M' rest ∧ (Playing ops r.1 ∨ M' = none) ∧
        ((∀ blk, k ≠ .process blk) → ((c.callHead k).service ops batch).pending = none) := by
      obtain ⟨hg, h0, hk⟩ := hw
      cases M with
      | none =>
        have hb := h0 rfl
        have hsl := h.1
        cases k with
        | process blk =>
          have hb := hb (fun _ _ hc => by cases hc)
          subst hb
          obtain ⟨_, _, hk⟩ := hk
          have e : c.call ops [] (.process blk) = some (c, { out := some blk }) := by
            show c.processBody ops blk = _
            rw [processBody_none hsl.2.1, hsl.1]
            show some (({ c with active := none } : Core V), _) = _
            rw [← hsl.1]
          exact ⟨_, none, e, h, hk, Or.inr rfl, fun hn => absurd rfl (hn blk)⟩
        | reset =>
          have hb := hb (fun _ _ hc => by cases hc)
          subst hb
          have e : c.call ops [] .reset = some (c.resetFade.resetBody ops) := rfl
          rw [resetBody_plain (c := c.resetFade) hsl.2.2 hsl.2.1] at e
          have ea : c.resetFade.active.map (fun h => (⟨h.id, ops.reset h.obj⟩ : Held V)) = none := by
            rw [show c.resetFade.active = c.active from rfl, hsl.1]; rfl
          exact ⟨_, none, e, ⟨⟨ea, hsl.2.1, hsl.2.2⟩, h.2⟩, hk, Or.inr rfl, fun _ => hsl.2.2⟩
        | clear =>
          have hb := hb (fun _ _ hc => by cases hc)
          subst hb
          have e : c.call ops [] .clear = some (c.resetFade.clearBody ops) := rfl
          have e2 : (c.resetFade.clearBody ops).1.active = none ∧ (c.resetFade.clearBody ops).1.fade = none ∧
              (c.resetFade.clearBody ops).1.pending = none := by
            unfold Core.clearBody
            rw [resetBody_plain (c := c.resetFade) hsl.2.2 hsl.2.1]
            exact ⟨rfl, hsl.2.1, rfl⟩
          have e3 : (c.resetFade.clearBody ops).1.spec = none := by
            rw [← h.2]; exact (settings_resetBody (ops := ops) c.resetFade).spec
          exact ⟨_, none, e, ⟨e2, e3⟩, hk, Or.inr rfl, fun _ => hsl.2.2⟩
        | prepare p g =>
          obtain ⟨hpf, hk⟩ := hk
          have hh := prepare_head h hpf g
          have hs := hh.service (ops := ops) hg
          obtain ⟨a1, a2⟩ := hq1 (fun _ hc => by cases hc)
          obtain ⟨q1, q2, q3, q4⟩ := quiet_reset (ops := ops) (c := c.callHead (.prepare p g)) (resetFade_rest _) (fun hc => absurd hsl.2.1 hc) a1 a2
          exact ⟨_, some p.maximumBlockSize, rfl, hs.resetBody hA, hk, Or.inl (Or.inl ⟨q2, q3, q4⟩), fun _ => q1⟩
      | some m =>
        have hp' : Playing ops c := hp.resolve_right (by simp)
        cases k with
        | process blk =>
          obtain ⟨hc, hn, hk⟩ := hk
          have hs := h.service (ops := ops) hg
          obtain ⟨ps, _⟩ := hp'.service h.2.1 hg
          obtain ⟨m0, r1, w1, p, s1, s2, s3, s4⟩ := hs
          obtain ⟨c', e, out, ep, eo, _, _, hr, hw1, ss, hnew, hf0, hrem, hact⟩ := process_any hA r1 w1 hc (hn m rfl) m0
          obtain ⟨c'', e', _, ep', _, _, _, _, pp, _⟩ := ps.process hA r1 hc (hn m rfl) m0
          rw [ep] at ep'
          cases ep'
          exact ⟨(c', e), some m, ep, ⟨m0, hr, hw1, p, by rw [ss.spec, s1], s2, s3, s4.same ss⟩, hk, Or.inl pp, fun hn => absurd rfl (hn blk)⟩
        | reset =>
          have hs := h.resetFade.service (ops := ops) hg
          obtain ⟨a1, a2⟩ := hq1 (fun _ hc => by cases hc)
          obtain ⟨q1, q2, q3, q4⟩ := quiet_reset (ops := ops) (c := c.resetFade) (resetFade_rest c) hp'.waiting.2 a1 a2
          exact ⟨_, some m, rfl, hs.resetBody hA, hk, Or.inl (Or.inl ⟨q2, q3, q4⟩), fun _ => q1⟩
        | clear =>
          have hs := h.resetFade.service (ops := ops) hg
          obtain ⟨a1, a2⟩ := hq1 (fun _ hc => by cases hc)
          obtain ⟨q1, q2, q3, q4⟩ := quiet_reset (ops := ops) (c := c.resetFade) (resetFade_rest c) hp'.waiting.2 a1 a2
          exact ⟨_, some m, rfl, hs.clearBody hA, hk, Or.inl (Or.inl ⟨q2, rfl, q4⟩), fun _ => q1⟩
        | prepare p g =>
          obtain ⟨hpf, hk⟩ := hk
          have hh := prepare_head h hpf g
          have hs := hh.service (ops := ops) hg
          obtain ⟨a1, a2⟩ := hq1 (fun _ hc => by cases hc)
          obtain ⟨q1, q2, q3, q4⟩ := quiet_reset (ops := ops) (c := c.callHead (.prepare p g)) (resetFade_rest _) hp'.waiting.2 a1 a2
          exact ⟨_, some p.maximumBlockSize, rfl, hs.resetBody hA, hk, Or.inl (Or.inl ⟨q2, q3, q4⟩), fun _ => q1⟩
    obtain ⟨r, M', e, hk, hwf, hpl, hnq⟩ := key
    obtain ⟨nq, c', M'', e', hk', hp''⟩ := calls_playing hA rest M' r.1 hk hpl hwf (hq2 r e)
    refine ⟨⟨hnq, fun r' er => ?_⟩, c', M'', ?_, hk', hp''⟩
    · rw [e] at er
      cases er
      exact nq
    · rw [Core.calls, e]; exact e'

end Zones.Proofs
