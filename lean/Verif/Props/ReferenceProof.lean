import Verif.Spec.Reference
import Verif.Props.EngineReset
import Verif.Spec.EngineSys

/-! The engine follows the reference engine. -/

open Zones.Spec Zones.Model Zones.Proofs

namespace Zones.Props

variable {V : Type}

/-- Two blocks of `N` channels with the same samples. -/
def SameBlock (N : ℕ) (a b : Buf) : Prop := a.ch = N ∧ b.ch = N ∧ a.n = b.n ∧ ∀ ch < N, ∀ i < a.n, a.data ch i = b.data ch i

theorem SameBlock.refl {N : ℕ} {b : Buf} (h : b.ch = N) : SameBlock N b b := ⟨h, h, rfl, fun _ _ _ _ => rfl⟩

/-- `P i h v`: convolver `v` is response `i` having heard `h`. -/
structure Voices (ops : ConvOps V) (N : ℕ) (Good : V → Prop) (irs : ℕ → Buf) (specs : ℕ → ConvolverSpec) (P : ℕ → List Buf → V → Prop) : Prop where
  good : ∀ {i h v}, P i h v → Good v
  fixed : ∀ {i h v}, P i h v → ops.numSamples v = (irs i).n ∧ ops.strategy v = (specs i).fadeStrategy
  hears : ∀ {i h v blk blk' v' out}, P i h v → SameBlock N blk blk' → ops.process v blk' = some (v', out) → P i (h ++ [blk]) v'
  reset : ∀ {i h v}, P i h v → P i [] (ops.reset v)

/-- Response `a` may make `out` of `blk`. -/
def Makes (ops : ConvOps V) (N : ℕ) (P : ℕ → List Buf → V → Prop) (a : Voice) (blk out : Buf) : Prop :=
  ∃ v blk' v', P a.id a.heard v ∧ SameBlock N blk blk' ∧ ops.process v blk' = some (v', out)

/-- The same for the dry signal. -/
def MakesOf (ops : ConvOps V) (N : ℕ) (P : ℕ → List Buf → V → Prop) (blk out : Buf) : Option Voice → Prop
  | none => out = blk
  | some a => Makes ops N P a blk out

/-- What a sample may become in a fade. -/
def Phase.Sample (K : FadeRule) (g : GainArith) (i : ℕ) (old new out : ℝ) : Phase → Prop
  | .crossfade n j => K.mix n (j + i) old new out
  | .fadeOut n j => K.fadeOut n (j + i) old out
  | .fadeIn n j => K.fadeIn n (j + i) new out
  | .stuck .crossfade => out = g.add (g.mul old 1) (g.mul new 0)
  | .stuck .inOut => out = g.mul new 0
  | .jump .crossfade => out = g.add (g.mul old 0) (g.mul new 1)
  | .jump .inOut => out = g.mul new 1

/-- What a block may become. -/
def Emits (K : FadeRule) (ops : ConvOps V) (N : ℕ) (P : ℕ → List Buf → V → Prop) (b out : Buf) : Stage → Prop
  | .steady a _ => MakesOf ops N P b out a
  | .fading a f _ p => ∃ old new, MakesOf ops N P b old a ∧ Makes ops N P f b new ∧
      ∀ ch < N, ∀ i < b.n, Phase.Sample K ops.gains i (old.data ch i) (new.data ch i) (out.data ch i) p

/-- What is in a slot of the engine. -/
def Slot (P : ℕ → List Buf → V → Prop) (s : Option (Held V)) : Option Voice → Prop
  | none => s = none
  | some a => ∃ v, s = some ⟨a.id, v⟩ ∧ P a.id a.heard v

/-- The smoothers are where a fade has left them. -/
def Hasty (c : Core V) : Prop := c.sIn.target = 1 ∧ c.sOut.target = 0

def Poised (c : Core V) : Bool → Prop
  | false => Rest c
  | true => Hasty c

/-- The smoothers in a fade. -/
def At (g : GainArith) (c : Core V) : Phase → Prop
  | .crossfade n j => j < n ∧ c.sOut = ramp g 1 0 n j ∧ c.sIn = ramp g 0 1 n j ∧ c.strategy = .crossfade
  | .fadeOut n j => j < n ∧ c.sOut = ramp g 1 0 n j ∧ c.sIn = ramp g 0 1 n 0 ∧ c.strategy = .inOut
  | .fadeIn n j => j < n ∧ c.sOut = ramp g 1 0 n n ∧ c.sIn = ramp g 0 1 n j ∧ c.strategy = .inOut
  | .stuck k => Rest c ∧ c.strategy = k
  | .jump k => Hasty c ∧ c.sIn.countdown = 0 ∧ c.sOut.countdown = 0 ∧ c.strategy = k

/-- The engine is in the given stage. -/
def Follows (g : GainArith) (P : ℕ → List Buf → V → Prop) (c : Core V) : Stage → Prop
  | .steady a h => Slot P c.active a ∧ c.fade = none ∧ c.pending = none ∧ Poised c h
  | .fading a f w p => Slot P c.active a ∧ Slot P c.fade (some f) ∧ Slot P c.pending (w.map fun i => ⟨i, []⟩) ∧ At g c p

theorem slot_ids {P : ℕ → List Buf → V → Prop} {s : Option (Held V)} {a : Option Voice} (h : Slot P s a) : s.map Held.id = a.map Voice.id := by
  cases a with
  | none => rw [show s = none from h]; rfl
  | some a => obtain ⟨v, e, _⟩ := h; rw [e]; rfl

theorem follows_ids {g : GainArith} {P : ℕ → List Buf → V → Prop} {c : Core V} {s : Stage} (h : Follows g P c s) : slotIds c = s.ids := by
  cases s with
  | steady a hs => obtain ⟨h1, h2, h3, _⟩ := h; unfold slotIds; rw [slot_ids h1, h2, h3]; rfl
  | fading a f w p =>
    obtain ⟨h1, h2, h3, _⟩ := h
    unfold slotIds
    rw [slot_ids h1, slot_ids h2, slot_ids h3]
    cases w <;> rfl

theorem slot_good {ops : ConvOps V} {N : ℕ} {Good : V → Prop} {irs : ℕ → Buf} {specs : ℕ → ConvolverSpec} {P : ℕ → List Buf → V → Prop}
    (hV : Voices ops N Good irs specs P) {s : Option (Held V)} {a : Option Voice} (h : Slot P s a) : ∀ x, s = some x → Good x.obj := by
  intro x hx
  cases a with
  | none => rw [show s = none from h] at hx; cases hx
  | some a => obtain ⟨v, e, hv⟩ := h; rw [e] at hx; cases hx; exact hV.good hv

/-- The smoothers at the beginning of a fade. -/
theorem at_begin {ops : ConvOps V} {N M : ℕ} {Good : V → Prop} {irs : ℕ → Buf} {specs : ℕ → ConvolverSpec} {P : ℕ → List Buf → V → Prop}
    (hV : Voices ops N Good irs specs P) {p : ProcSpec} {rate : ℕ} (hr : p.sampleRate = rate) (hr0 : 0 < rate) (hr1 : rate ≤ 200000)
    {c : Core V} (hR : Ready N M Good c) (hS : SetFor p c) (hrest : Rest c) (ha : c.active ≠ none) {g : Held V} (hg : P g.id [] g.obj) :
    At ops.gains (c.beginFade ops g) (firstPhase irs specs rate g.id) := by
  obtain ⟨h1, _, _⟩ := beginFade_at (ops := ops) hR hrest ha g
  obtain ⟨f1, f2⟩ := hV.fixed hg
  have hc := fade_choice_set (ops := ops) hS hr hr0 hr1 g.obj
  rw [f1, f2] at hc
  have hpos := h1.pos
  have hs : (c.beginFade ops g).strategy = c.chooseStrategy ops g.obj := rfl
  unfold firstPhase
  rw [← hc]
  cases hk : c.chooseStrategy ops g.obj with
  | crossfade => exact ⟨hpos, h1.sOut, h1.sIn, hs.trans hk⟩
  | inOut => exact ⟨hpos, h1.sOut, h1.sIn, hs.trans hk⟩

/-- The same if the smoothers are already there. -/
theorem at_jump {ops : ConvOps V} {N : ℕ} {Good : V → Prop} {irs : ℕ → Buf} {specs : ℕ → ConvolverSpec} {P : ℕ → List Buf → V → Prop}
    (hV : Voices ops N Good irs specs P) {p : ProcSpec} {rate : ℕ} (hr : p.sampleRate = rate) (hr0 : 0 < rate) (hr1 : rate ≤ 200000)
    {c : Core V} (hS : SetFor p c) (hh : Hasty c) {g : Held V} (hg : P g.id [] g.obj) :
    At ops.gains (c.beginFade ops g) (.jump (firstPhase irs specs rate g.id).kind) := by
  obtain ⟨f1, f2⟩ := hV.fixed hg
  have hc := fade_choice_set (ops := ops) hS hr hr0 hr1 g.obj
  rw [f1, f2] at hc
  have hsame : ∀ (s : Smooth) (n : ℤ) (v : ℝ), s.target = v → ((s.reset n).setTarget ops.gains v).target = v ∧ ((s.reset n).setTarget ops.gains v).countdown = 0 := by
    intro s n v hv
    have : (s.reset n).target = s.target := rfl
    unfold Smooth.setTarget
    rw [if_pos (by rw [this, hv])]
    exact ⟨hv, rfl⟩
  have hs : (c.beginFade ops g).strategy = c.chooseStrategy ops g.obj := rfl
  have h1 := hsame c.sIn (c.fadeLength ops g.obj) 1 hh.1
  have h2 := hsame c.sOut (c.fadeLength ops g.obj) 0 hh.2
  refine ⟨⟨h1.1, h2.1⟩, h1.2, h2.2, hs.trans ?_⟩
  unfold firstPhase
  rw [← hc]
  cases hk : c.chooseStrategy ops g.obj <;> rfl

theorem follows_handle {ops : ConvOps V} {N M : ℕ} {Good : V → Prop} {irs : ℕ → Buf} {specs : ℕ → ConvolverSpec} {P : ℕ → List Buf → V → Prop}
    (hV : Voices ops N Good irs specs P) {p : ProcSpec} {rate : ℕ} (hr : p.sampleRate = rate) (hr0 : 0 < rate) (hr1 : rate ≤ 200000)
    {c : Core V} (hR : Ready N M Good c) (hS : SetFor p c) {s : Stage} (h : Follows ops.gains P c s) {g : Held V} (hg : P g.id [] g.obj) :
    Follows ops.gains P (c.handle ops g).1 (s.arrive irs specs rate g.id) := by
  cases s with
  | steady a hs =>
    obtain ⟨h1, h2, h3, h4⟩ := h
    cases a with
    | none =>
      rw [handle_none h1]
      exact ⟨⟨g.obj, rfl, hg⟩, h2, h3, h4⟩
    | some a =>
      obtain ⟨v, e, hv⟩ := h1
      have e0 : ({ c with pending := none } : Core V) = c := by rw [← h3]
      rw [handle_begin e h2, e0]
      have hslots : Slot P (c.beginFade ops g).active (some a) ∧ Slot P (c.beginFade ops g).fade (some ⟨g.id, []⟩) ∧ Slot P (c.beginFade ops g).pending none :=
        ⟨⟨v, e, hv⟩, ⟨g.obj, rfl, hg⟩, h3⟩
      cases hs with
      | false => exact ⟨hslots.1, hslots.2.1, hslots.2.2, at_begin hV hr hr0 hr1 hR hS h4 (by rw [e]; simp) hg⟩
      | true => exact ⟨hslots.1, hslots.2.1, hslots.2.2, at_jump hV hr hr0 hr1 hS h4 hg⟩
  | fading a f w ph =>
    obtain ⟨h1, h2, h3, h4⟩ := h
    cases a with
    | none =>
      rw [handle_none h1]
      refine ⟨⟨g.obj, rfl, hg⟩, h2, h3, ?_⟩
      cases ph <;> exact h4
    | some a =>
      obtain ⟨v, e, hv⟩ := h1
      obtain ⟨u, e2, hu⟩ := h2
      rw [handle_fading e e2]
      refine ⟨⟨v, e, hv⟩, ⟨u, e2, hu⟩, ⟨g.obj, rfl, hg⟩, ?_⟩
      cases ph <;> exact h4

theorem follows_service {ops : ConvOps V} {N M : ℕ} {Good : V → Prop} {irs : ℕ → Buf} {specs : ℕ → ConvolverSpec} {P : ℕ → List Buf → V → Prop}
    (hV : Voices ops N Good irs specs P) {p : ProcSpec} {rate : ℕ} (hr : p.sampleRate = rate) (hr0 : 0 < rate) (hr1 : rate ≤ 200000) :
    ∀ (batch : List (Held V)) {c : Core V}, Ready N M Good c → SetFor p c → ∀ {s : Stage}, Follows ops.gains P c s → (∀ g ∈ batch, P g.id [] g.obj) →
      Follows ops.gains P (c.service ops batch) ((batch.map Held.id).foldl (Stage.arrive irs specs rate) s)
  | [], _, _, _, _, h, _ => h
  | g :: gs, c, hR, hS, s, h, hg => by
    have hg0 := hg g (by simp)
    exact follows_service hV hr hr0 hr1 gs (hR.handle (hV.good hg0)) (hS.same (settings_handle c g))
      (follows_handle hV hr hr0 hr1 hR hS h hg0) fun x hx => hg x (by simp [hx])

/-- A slot hears a block. -/
theorem slot_hears {ops : ConvOps V} {N : ℕ} {Good : V → Prop} (hA : Accepts ops N Good) {irs : ℕ → Buf} {specs : ℕ → ConvolverSpec} {P : ℕ → List Buf → V → Prop}
    (hV : Voices ops N Good irs specs P) {s : Option (Held V)} {a : Option Voice} (h : Slot P s a) {blk : Buf} (hb : blk.ch = N) :
    ∃ s' out, Core.runSlot ops s blk = some (s', out) ∧ out.ch = N ∧ out.n = blk.n ∧ Slot P s' (a.map (·.hear blk)) ∧ MakesOf ops N P blk out a := by
  cases a with
  | none =>
    rw [show s = none from h]
    exact ⟨none, blk, rfl, hb, rfl, rfl, rfl⟩
  | some a =>
    obtain ⟨v, rfl, hv⟩ := h
    obtain ⟨a1, out, ea, ea', hida, hca, hna, hga, _, _⟩ := runHeld_ok hA (h := ⟨a.id, v⟩) (hV.good hv) hb
    have hida' : a1.id = a.id := hida
    refine ⟨some a1, out, ?_, hca, hna, ⟨a1.obj, ?_, hV.hears hv (.refl hb) ea'⟩, v, blk, a1.obj, hv, .refl hb, ea'⟩
    · unfold Core.runSlot
      simp only [ea, Option.map_some]
    · show some a1 = some ⟨a.id, a1.obj⟩
      rw [← hida']

/-- The end of a fade. -/
theorem follows_over {ops : ConvOps V} {N M : ℕ} {Good : V → Prop} {irs : ℕ → Buf} {specs : ℕ → ConvolverSpec} {P : ℕ → List Buf → V → Prop}
    (hV : Voices ops N Good irs specs P) {p : ProcSpec} {rate : ℕ} (hr : p.sampleRate = rate) (hr0 : 0 < rate) (hr1 : rate ≤ 200000)
    {c : Core V} (hR : Ready N M Good c) (hS : SetFor p c) {f : Voice} {w : Option ℕ} (hf : Slot P c.fade (some f))
    (hw : Slot P c.pending (w.map fun i => ⟨i, []⟩)) (hs : c.sIn.isSmoothing = false) :
    Follows ops.gains P (c.endFade ops).1 (match w with
      | none => .steady (some f) false
      | some i => .fading (some f) ⟨i, []⟩ none (firstPhase irs specs rate i)) := by
  cases w with
  | none =>
    rw [endFade_last hs hw]
    exact ⟨hf, rfl, hw, resetFade_rest _⟩
  | some i =>
    obtain ⟨v, e, hv⟩ := hw
    rw [endFade_next hs e]
    refine ⟨hf, ⟨v, rfl, hv⟩, rfl, ?_⟩
    refine at_begin (M := M) (c := ({ c with active := c.fade, fade := none, pending := none } : Core V).resetFade) hV hr hr0 hr1 ?_ ?_ (resetFade_rest _) ?_ (g := ⟨i, v⟩) hv
    · exact ⟨hR.fade, fun _ h => (by cases h), fun _ h => (by cases h), hR.bufCh, hR.bufN, hR.lower, hR.le, hR.inOut⟩
    · exact ⟨hS.lower, hS.upper, hS.maxCrossfade, hS.inOut⟩
    · obtain ⟨u, e, _⟩ := hf
      show c.fade ≠ none
      rw [e]; simp

/-- The crossfade branch of `process`. -/
theorem cross_step {ops : ConvOps V} {N M : ℕ} {Good : V → Prop} (hA : Accepts ops N Good) (hM : 0 < M) {irs : ℕ → Buf} {specs : ℕ → ConvolverSpec}
    {P : ℕ → List Buf → V → Prop} (hV : Voices ops N Good irs specs P) {c : Core V} (h : Ready N M Good c) (hs : c.strategy = .crossfade)
    {a : Option Voice} {f : Voice} (ha : Slot P c.active a) {u : V} (hf : c.fade = some ⟨f.id, u⟩) (hu : P f.id f.heard u) {blk : Buf} (hb : blk.ch = N) (hfit : blk.n ≤ M) :
    ∃ c1 out old new, c.fadeStep ops ⟨f.id, u⟩ blk = some (c1, out) ∧ out.ch = N ∧ out.n = blk.n ∧ old.ch = N ∧ old.n = blk.n ∧ new.ch = N ∧ new.n = blk.n ∧
      Slot P c1.active (a.map (·.hear blk)) ∧ Slot P c1.fade (some (f.hear blk)) ∧ c1.pending = c.pending ∧ c1.strategy = c.strategy ∧
      c1.sOut = (old.multiplyBy ops.gains c.sOut).2 ∧ c1.sIn = (new.multiplyBy ops.gains c.sIn).2 ∧
      MakesOf ops N P blk old a ∧ Makes ops N P f blk new ∧
      ∀ ch < N, ∀ i < blk.n, out.data ch i = ops.gains.add ((old.multiplyBy ops.gains c.sOut).1.data ch i) ((new.multiplyBy ops.gains c.sIn).1.data ch i) := by
  obtain ⟨a1, old, ea, hca, hna, hsa, hma⟩ := slot_hears hA hV ha hb
  have esub : c.fadeBuf.sub 0 blk.n = some ⟨N, blk.n, fun ch i => c.fadeBuf.data ch (0 + i)⟩ := by
    unfold Buf.sub
    rw [if_pos ⟨by rw [h.bufN]; omega, by rw [h.bufN]; omega⟩, h.bufCh]
  obtain ⟨fb, hfb⟩ : ∃ fb, (Buf.mk N blk.n fun ch i => c.fadeBuf.data ch (0 + i)).copyFrom blk = fb := ⟨_, rfl⟩
  have hsb : SameBlock N blk fb := by
    rw [← hfb]
    refine ⟨hb, rfl, rfl, fun ch hch i hi => ?_⟩
    unfold Buf.copyFrom
    dsimp only
    rw [if_pos ⟨by rw [hb]; omega, by omega⟩]
  obtain ⟨f1', new, ef, ef', hidf, hcf, hnf, hgf, hsf, htf⟩ := runHeld_ok hA (h := ⟨f.id, u⟩) (hV.good hu) (blk := fb) hsb.2.1
  have hidf' : f1'.id = f.id := hidf
  have hnf' : new.n = blk.n := hnf.trans hsb.2.2.1.symm
  obtain ⟨hc1, hn1⟩ := multiplyBy_shape (g := ops.gains) old c.sOut
  obtain ⟨hc2, hn2⟩ := multiplyBy_shape (g := ops.gains) new c.sIn
  have eadd : ∃ o, (old.multiplyBy ops.gains c.sOut).1.mix ops.gains (new.multiplyBy ops.gains c.sIn).1 = some o ∧ o.ch = N ∧ o.n = blk.n ∧
      ∀ ch < N, ∀ i < blk.n, o.data ch i = ops.gains.add ((old.multiplyBy ops.gains c.sOut).1.data ch i) ((new.multiplyBy ops.gains c.sIn).1.data ch i) := by
    unfold Buf.mix
    rw [if_pos (by rw [hc1, hc2, hca, hcf])]
    refine ⟨_, rfl, by rw [← hca, ← hc1], by rw [← hna, ← hn1], fun ch hch i hi => ?_⟩
    dsimp only
    rw [if_pos ⟨by rw [hc1, hca]; exact hch, by rw [hn1, hn2, hna, hnf']; omega⟩]
  obtain ⟨o, eo, hoc, hon, hod⟩ := eadd
  refine ⟨{ c with
      active := a1
      fade := some f1'
      sOut := (old.multiplyBy ops.gains c.sOut).2
      sIn := (new.multiplyBy ops.gains c.sIn).2
      fadeBuf := c.fadeBuf.put 0 (new.multiplyBy ops.gains c.sIn).1 }, o, old, new, ?_, hoc, hon, hca, hna, hcf, hnf', hsa, ⟨f1'.obj, ?_, hV.hears hu hsb ef'⟩, rfl, rfl, rfl, rfl,
      hma, ⟨u, fb, f1'.obj, hu, hsb, ef'⟩, hod⟩
  · rw [fadeStep_cross hs]
    unfold Core.crossfadeStep
    simp only [esub, ea, Option.bind_eq_bind, Option.bind_some, hfb, ef, eo]
    rfl
  · show some f1' = some ⟨f.id, f1'.obj⟩
    rw [← hidf']

/-- The smoothers while nothing moves. -/
theorem still_scaled {g : GainArith} {s : Smooth} (hs : s.countdown = 0) (b : Buf) : (b.multiplyBy g s).2 = s ∧
    ∀ ch < b.ch, ∀ i < b.n, (b.multiplyBy g s).1.data ch i = g.mul (b.data ch i) s.target := by
  unfold Buf.multiplyBy Smooth.isSmoothing
  rw [if_neg (by simp [hs])]
  refine ⟨rfl, fun ch hc i hi => ?_⟩
  unfold Buf.scale
  dsimp only
  rw [if_pos ⟨hc, hi⟩]

theorem still_not {s : Smooth} (hs : s.countdown = 0) : s.isSmoothing = false := by
  unfold Smooth.isSmoothing; simp [hs]

theorem after_goes {irs : ℕ → Buf} {specs : ℕ → ConvolverSpec} {rate : ℕ} {a : Option Voice} {f : Voice} {w : Option ℕ} {p p' : Phase} {b : Buf}
    (h : p.after b.n = some p') : (Stage.fading a f w p).after irs specs rate b =
      .fading (if p.oldHears then a.map (·.hear b) else a) (if p.newHears then f.hear b else f) w p' := by
  unfold Stage.after
  simp only [h]

theorem after_over {irs : ℕ → Buf} {specs : ℕ → ConvolverSpec} {rate : ℕ} {a : Option Voice} {f : Voice} {w : Option ℕ} {p : Phase} {b : Buf}
    (h : p.after b.n = none) : (Stage.fading a f w p).after irs specs rate b = match w with
      | none => .steady (some (if p.newHears then f.hear b else f)) false
      | some i => .fading (some (if p.newHears then f.hear b else f)) ⟨i, []⟩ none (firstPhase irs specs rate i) := by
  unfold Stage.after
  simp only [h]
  cases w <;> rfl

/-- One block. -/
theorem follows_process {ops : ConvOps V} {K : FadeRule} (hK : Implements ops.gains K) {N M : ℕ} {Good : V → Prop} (hA : Accepts ops N Good)
    {irs : ℕ → Buf} {specs : ℕ → ConvolverSpec} {P : ℕ → List Buf → V → Prop}
    (hV : Voices ops N Good irs specs P) {p : ProcSpec} {rate : ℕ} (hr : p.sampleRate = rate) (hr0 : 0 < rate) (hr1 : rate ≤ 200000)
    (hM : 0 < M) {c : Core V} (hR : Ready N M Good c) (hS : SetFor p c) {s : Stage} (h : Follows ops.gains P c s) {blk : Buf} (hb : blk.ch = N) (hfit : blk.n ≤ M) :
    ∃ c' e out, c.processBody ops blk = some (c', e) ∧ e.out = some out ∧ out.ch = N ∧ out.n = blk.n ∧
      Follows ops.gains P c' (s.after irs specs rate blk) ∧ Emits K ops N P blk out s := by
  cases s with
  | steady a hs =>
    obtain ⟨h1, h2, h3, h4⟩ := h
    obtain ⟨a1, out, ea, hca, hna, hsa, hma⟩ := slot_hears hA hV h1 hb
    refine ⟨{ c with active := a1 }, { out := some out }, out, ?_, rfl, hca, hna, ⟨hsa, h2, h3, ?_⟩, hma⟩
    · rw [processBody_none h2, ea]; rfl
    · cases hs <;> exact h4
  | fading a f w ph =>
    obtain ⟨h1, ⟨u, h2, hu⟩, h3, h4⟩ := h
    -- what a step and the end of a fade make together
    have finish : ∀ {c1 : Core V} {out : Buf}, c.fadeStep ops ⟨f.id, u⟩ blk = some (c1, out) → out.ch = N → out.n = blk.n →
        (Ready N M Good c1 → SetFor p c1 → Follows ops.gains P (c1.endFade ops).1 ((Stage.fading a f w ph).after irs specs rate blk)) →
        Emits K ops N P blk out (.fading a f w ph) →
        ∃ c' e out, c.processBody ops blk = some (c', e) ∧ e.out = some out ∧ out.ch = N ∧ out.n = blk.n ∧
          Follows ops.gains P c' ((Stage.fading a f w ph).after irs specs rate blk) ∧ Emits K ops N P blk out (.fading a f w ph) := by
      intro c1 out e hc hn hfo hem
      obtain ⟨c1', out', f', e', _, _, hR1, _, _, _, _, _, _, _, s1, s2, s3, s4, _⟩ := fadeStep_ok hA hR h2 hb (fun _ => ⟨hfit, hM⟩)
      rw [e] at e'
      cases e'
      exact ⟨(c1.endFade ops).1, _, out, by rw [processBody_some h2, e]; rfl, rfl, hc, hn,
        hfo hR1 ⟨s1.trans hS.lower, s2.trans hS.upper, s3.trans hS.maxCrossfade, s4.trans hS.inOut⟩, hem⟩
    -- what the responses would make of the block
    obtain ⟨a1, old, ea, hca, hna, hsa, hma⟩ := slot_hears hA hV h1 hb
    obtain ⟨f1, new, ef, ef', hidf, hcf, hnf, _, _, _⟩ := runHeld_ok hA (h := ⟨f.id, u⟩) (hV.good hu) hb
    have hmf : Makes ops N P f blk new := ⟨u, blk, f1.obj, hu, .refl hb, ef'⟩
    have hsf : Slot P (some f1) (some (f.hear blk)) := by
      refine ⟨f1.obj, ?_, hV.hears hu (.refl hb) ef'⟩
      have : f1.id = f.id := hidf
      show some f1 = some ⟨f.id, f1.obj⟩
      rw [← this]
    -- the two branches of an in/out fade
    have outStep : c.strategy = .inOut → c.sOut.isSmoothing = true → c.fadeStep ops ⟨f.id, u⟩ blk = some ({ c with
        active := a1
        sOut := (old.multiplyBy ops.gains c.sOut).2 }, (old.multiplyBy ops.gains c.sOut).1) := by
      intro hs hsm
      rw [fadeStep_inOut hs]
      unfold Core.inOutStep
      rw [if_pos hsm]
      simp only [ea, Option.bind_eq_bind, Option.bind_some]
      rfl
    have inStep : c.strategy = .inOut → c.sOut.isSmoothing = false → c.fadeStep ops ⟨f.id, u⟩ blk = some ({ c with
        fade := some f1
        sIn := (new.multiplyBy ops.gains c.sIn).2 }, (new.multiplyBy ops.gains c.sIn).1) := by
      intro hs hsm
      rw [fadeStep_inOut hs]
      unfold Core.inOutStep
      rw [if_neg (by rw [hsm]; simp)]
      simp only [ef, Option.bind_eq_bind, Option.bind_some]
      rfl
    obtain ⟨kc1, kn1⟩ := multiplyBy_shape (g := ops.gains) old c.sOut
    obtain ⟨kc2, kn2⟩ := multiplyBy_shape (g := ops.gains) new c.sIn
    cases ph with
    | crossfade n j =>
      obtain ⟨hj, hO, hI, hs⟩ := h4
      obtain ⟨c1, out, old, new, e, hc, hn, hoc, hon, hnc, hnn, s1, s2, s3, s4, s5, s6, m1, m2, hd⟩ := cross_step hA hM hV hR hs h1 h2 hu hb hfit
      rw [hO, multiplyBy_ramp hj.le, hon] at s5
      rw [hI, multiplyBy_ramp hj.le, hnn] at s6
      refine finish e hc hn (fun hR1 hS1 => ?_) ⟨old, new, m1, m2, fun ch hch i hi => ?_⟩
      · by_cases hlt : j + blk.n < n
        · rw [after_goes (show (Phase.crossfade n j).after blk.n = some (.crossfade n (j + blk.n)) from if_pos hlt)]
          rw [Nat.min_eq_right hlt.le] at s5 s6
          rw [endFade_running (by rw [s6, ramp_smoothing]; simpa using hlt)]
          exact ⟨s1, s2, by rw [s3]; exact h3, hlt, s5, s6, s4.trans hs⟩
        · rw [after_over (show (Phase.crossfade n j).after blk.n = none from if_neg hlt)]
          have hns : c1.sIn.isSmoothing = false := by rw [s6, ramp_smoothing]; simp; omega
          have := follows_over hV hr hr0 hr1 hR1 hS1 s2 (by rw [s3]; exact h3) hns
          cases w <;> exact this
      · rw [hd ch hch i hi, hO, hI, out_scaled hj.le (by omega) (by omega), in_scaled hj.le (by omega) (by omega)]
        exact hK.mix _ _ _ _ (by omega)
    | fadeOut n j =>
      obtain ⟨hj, hO, hI, hs⟩ := h4
      have hsm : c.sOut.isSmoothing = true := by rw [hO, ramp_smoothing]; simpa using hj
      have s5 : (old.multiplyBy ops.gains c.sOut).2 = ramp ops.gains 1 0 n (min n (j + blk.n)) := by rw [hO, multiplyBy_ramp hj.le, hna]
      refine finish (outStep hs hsm) (kc1.trans hca) (kn1.trans hna) (fun hR1 hS1 => ?_) ⟨old, new, hma, hmf, fun ch hch i hi => ?_⟩
      · rw [endFade_running (by show c.sIn.isSmoothing = true; rw [hI, ramp_smoothing]; simp; omega)]
        by_cases hlt : j + blk.n < n
        · rw [after_goes (show (Phase.fadeOut n j).after blk.n = some (.fadeOut n (j + blk.n)) from if_pos hlt)]
          rw [Nat.min_eq_right hlt.le] at s5
          exact ⟨hsa, ⟨u, h2, hu⟩, h3, hlt, s5, hI, hs⟩
        · rw [after_goes (show (Phase.fadeOut n j).after blk.n = some (.fadeIn n 0) from if_neg hlt)]
          rw [Nat.min_eq_left (by omega)] at s5
          exact ⟨hsa, ⟨u, h2, hu⟩, h3, by omega, s5, hI, hs⟩
      · rw [hO, out_scaled hj.le (by omega) (by omega)]
        exact hK.fadeOut _ _ _ (by omega)
    | fadeIn n j =>
      obtain ⟨hj, hO, hI, hs⟩ := h4
      have hsm : c.sOut.isSmoothing = false := by rw [hO, ramp_smoothing]; simp
      have s6 : (new.multiplyBy ops.gains c.sIn).2 = ramp ops.gains 0 1 n (min n (j + blk.n)) := by rw [hI, multiplyBy_ramp hj.le, hnf]
      refine finish (inStep hs hsm) (kc2.trans hcf) (kn2.trans hnf) (fun hR1 hS1 => ?_) ⟨old, new, hma, hmf, fun ch hch i hi => ?_⟩
      · by_cases hlt : j + blk.n < n
        · rw [after_goes (show (Phase.fadeIn n j).after blk.n = some (.fadeIn n (j + blk.n)) from if_pos hlt)]
          rw [Nat.min_eq_right hlt.le] at s6
          rw [endFade_running (by show ((new.multiplyBy ops.gains c.sIn).2).isSmoothing = true; rw [s6, ramp_smoothing]; simpa using hlt)]
          exact ⟨h1, hsf, h3, hlt, hO, s6, hs⟩
        · rw [after_over (show (Phase.fadeIn n j).after blk.n = none from if_neg hlt)]
          have hns : ((new.multiplyBy ops.gains c.sIn).2).isSmoothing = false := by rw [s6, ramp_smoothing]; simp; omega
          have := follows_over hV hr hr0 hr1 hR1 hS1 hsf h3 hns
          cases w <;> exact this
      · rw [hI, in_scaled hj.le (by omega) (by omega)]
        exact hK.fadeIn _ _ _ (by omega)
    | stuck k =>
      obtain ⟨⟨_, hIt, hIc, _, hOt, hOc⟩, hs⟩ := h4
      cases k with
      | crossfade =>
        obtain ⟨c1, out, old, new, e, hc, hn, hoc, hon, hnc, hnn, s1, s2, s3, s4, s5, s6, m1, m2, hd⟩ := cross_step hA hM hV hR hs h1 h2 hu hb hfit
        obtain ⟨o1, o2⟩ := still_scaled (g := ops.gains) hOc old
        obtain ⟨i1, i2⟩ := still_scaled (g := ops.gains) hIc new
        refine finish e hc hn (fun hR1 hS1 => ?_) ⟨old, new, m1, m2, fun ch hch i hi => ?_⟩
        · have := follows_over hV hr hr0 hr1 hR1 hS1 s2 (by rw [s3]; exact h3) (by rw [s6, i1]; exact still_not hIc)
          cases w <;> exact this
        · rw [hd ch hch i hi, o2 ch (by omega) i (by omega), i2 ch (by omega) i (by omega), hOt, hIt]
          rfl
      | inOut =>
        obtain ⟨i1, i2⟩ := still_scaled (g := ops.gains) hIc new
        refine finish (inStep hs (still_not hOc)) (kc2.trans hcf) (kn2.trans hnf) (fun hR1 hS1 => ?_) ⟨old, new, hma, hmf, fun ch hch i hi => ?_⟩
        · have := follows_over hV hr hr0 hr1 hR1 hS1 hsf h3 (by show ((new.multiplyBy ops.gains c.sIn).2).isSmoothing = false; rw [i1]; exact still_not hIc)
          cases w <;> exact this
        · rw [i2 ch (by omega) i (by omega), hIt]
          rfl
    | jump k =>
      obtain ⟨⟨hIt, hOt⟩, hIc, hOc, hs⟩ := h4
      cases k with
      | crossfade =>
        obtain ⟨c1, out, old, new, e, hc, hn, hoc, hon, hnc, hnn, s1, s2, s3, s4, s5, s6, m1, m2, hd⟩ := cross_step hA hM hV hR hs h1 h2 hu hb hfit
        obtain ⟨o1, o2⟩ := still_scaled (g := ops.gains) hOc old
        obtain ⟨i1, i2⟩ := still_scaled (g := ops.gains) hIc new
        refine finish e hc hn (fun hR1 hS1 => ?_) ⟨old, new, m1, m2, fun ch hch i hi => ?_⟩
        · have := follows_over hV hr hr0 hr1 hR1 hS1 s2 (by rw [s3]; exact h3) (by rw [s6, i1]; exact still_not hIc)
          cases w <;> exact this
        · rw [hd ch hch i hi, o2 ch (by omega) i (by omega), i2 ch (by omega) i (by omega), hOt, hIt]
          rfl
      | inOut =>
        obtain ⟨i1, i2⟩ := still_scaled (g := ops.gains) hIc new
        refine finish (inStep hs (still_not hOc)) (kc2.trans hcf) (kn2.trans hnf) (fun hR1 hS1 => ?_) ⟨old, new, hma, hmf, fun ch hch i hi => ?_⟩
        · have := follows_over hV hr hr0 hr1 hR1 hS1 hsf h3 (by show ((new.multiplyBy ops.gains c.sIn).2).isSmoothing = false; rw [i1]; exact still_not hIc)
          cases w <;> exact this
        · rw [i2 ch (by omega) i (by omega), hIt]
          rfl

/-- The beginning of `reset`. -/
theorem follows_calm {g : GainArith} {P : ℕ → List Buf → V → Prop} {c : Core V} {s : Stage} (h : Follows g P c s) : Follows g P c.resetFade s.calm := by
  cases s with
  | steady a hs => exact ⟨h.1, h.2.1, h.2.2.1, resetFade_rest c⟩
  | fading a f w p =>
    obtain ⟨h1, h2, h3, h4⟩ := h
    refine ⟨h1, h2, h3, resetFade_rest c, ?_⟩
    cases p with
    | crossfade => exact h4.2.2.2
    | fadeOut => exact h4.2.2.2
    | fadeIn => exact h4.2.2.2
    | stuck => exact h4.2
    | jump => exact h4.2.2.2

/-- The end of `reset`. -/
theorem follows_restart {ops : ConvOps V} {N : ℕ} {Good : V → Prop} {irs : ℕ → Buf} {specs : ℕ → ConvolverSpec} {P : ℕ → List Buf → V → Prop}
    (hV : Voices ops N Good irs specs P) {c : Core V} {s : Stage} (h : Follows ops.gains P c s) : Follows ops.gains P (c.resetBody ops).1 s.restart := by
  cases s with
  | steady a hs =>
    obtain ⟨h1, h2, h3, h4⟩ := h
    rw [resetBody_plain h3 h2]
    refine ⟨?_, h2, h3, ?_⟩
    · cases a with
      | none => show Option.map _ c.active = none; rw [show c.active = none from h1]; rfl
      | some a =>
        obtain ⟨v, e, hv⟩ := h1
        exact ⟨ops.reset v, by show Option.map _ c.active = _; rw [e]; rfl, hV.reset hv⟩
    · cases hs <;> exact h4
  | fading a f w p =>
    obtain ⟨h1, ⟨u, h2, hu⟩, h3, h4⟩ := h
    cases w with
    | none =>
      rw [resetBody_fade h3 h2]
      refine ⟨⟨ops.reset u, rfl, hV.reset hu⟩, rfl, h3, ?_⟩
      cases p with
      | crossfade n j => exact ⟨by show c.sIn.target = 1; rw [h4.2.2.1]; rfl, by show c.sOut.target = 0; rw [h4.2.1]; rfl⟩
      | fadeOut n j => exact ⟨by show c.sIn.target = 1; rw [h4.2.2.1]; rfl, by show c.sOut.target = 0; rw [h4.2.1]; rfl⟩
      | fadeIn n j => exact ⟨by show c.sIn.target = 1; rw [h4.2.2.1]; rfl, by show c.sOut.target = 0; rw [h4.2.1]; rfl⟩
      | stuck k => exact h4.1
      | jump k => exact h4.1
    | some i =>
      obtain ⟨v, e, hv⟩ := h3
      rw [resetBody_pending e]
      refine ⟨⟨ops.reset v, rfl, hV.reset hv⟩, ⟨u, h2, hu⟩, rfl, ?_⟩
      cases p <;> exact h4

/-- The end of `Clear`. -/
theorem follows_drop {ops : ConvOps V} {P : ℕ → List Buf → V → Prop} {c : Core V} {s : Stage} (h : Follows ops.gains P (c.resetBody ops).1 s) :
    Follows ops.gains P (c.clearBody ops).1 s.drop := by
  cases s with
  | steady a hs =>
    obtain ⟨h1, h2, h3, h4⟩ := h
    refine ⟨rfl, h2, rfl, ?_⟩
    cases hs <;> exact h4
  | fading a f w p =>
    obtain ⟨h1, h2, h3, h4⟩ := h
    refine ⟨rfl, h2, rfl, ?_⟩
    cases p <;> exact h4

/-- What is known of the engine when the reference engine is `r`. -/
def Agrees (ops : ConvOps V) (P : ℕ → List Buf → V → Prop) (M : Option ℕ) (c : Core V) (r : Reference) : Prop :=
  match M with
  | none => ∃ h, r.stage = .steady none h
  | some _ => Follows ops.gains P c r.stage ∧ ∃ p, SetFor p c ∧ p.sampleRate = r.rate ∧ 0 < r.rate ∧ r.rate ≤ 200000

/-- The rates a host sets are whole numbers up to 200 kHz. -/
def WholeRates (hist : List (List (Held V) × Call)) : Prop :=
  ∀ b ∈ hist, ∀ p g, b.2 = .prepare p g → ∃ r : ℕ, p.sampleRate = r ∧ r ≤ 200000

/-- What the reference says of a list of outputs. -/
def EmitsAll (K : FadeRule) (ops : ConvOps V) (N : ℕ) (P : ℕ → List Buf → V → Prop) (tr : List (Stage × Buf)) (outs : List Buf) : Prop :=
  List.Forall₂ (fun t out => out.ch = N ∧ t.2.ch = N ∧ out.n = t.2.n ∧ Emits K ops N P t.2 out t.1) tr outs

/-- The three calls that reset; `c` is the engine after `ResetFade`. -/
theorem follows_reset {ops : ConvOps V} {N M : ℕ} {Good : V → Prop} {irs : ℕ → Buf} {specs : ℕ → ConvolverSpec} {P : ℕ → List Buf → V → Prop}
    (hV : Voices ops N Good irs specs P) {p : ProcSpec} {rate : ℕ} (hr : p.sampleRate = rate) (hr0 : 0 < rate) (hr1 : rate ≤ 200000)
    {c : Core V} (hR : Ready N M Good c) (hS : SetFor p c) {s : Stage} (h : Follows ops.gains P c s.calm)
    {batch : List (Held V)} (hg : ∀ g ∈ batch, P g.id [] g.obj) :
    Follows ops.gains P ((c.service ops batch).resetBody ops).1 (s.reset irs specs rate (batch.map Held.id)) :=
  follows_restart hV (follows_service hV hr hr0 hr1 batch hR hS h hg)

/-- `prepare`. -/
theorem agrees_prepare {ops : ConvOps V} {N : ℕ} {Good : V → Prop}
    {irs : ℕ → Buf} {specs : ℕ → ConvolverSpec} {P : ℕ → List Buf → V → Prop} (hV : Voices ops N Good irs specs P) {c : Core V}
    {r : Reference} {p : ProcSpec} {g : ℕ → ℕ → ℝ} (h : Follows ops.gains P (c.callHead (.prepare p g)) r.stage.calm)
    {m : ℕ} (hR : Ready N m Good (c.callHead (.prepare p g)))
    {batch : List (Held V)} (hg : ∀ g ∈ batch, P g.id [] g.obj)
    (hrate : ∃ r : ℕ, p.sampleRate = r ∧ r ≤ 200000) (hp : ValidFormat N p) {q : Core V × Core.Effects V}
    (ec : c.call ops batch (.prepare p g) = some q) {M' : Option ℕ} (hk' : Known N Good M' q.1) :
    Agrees ops P M' q.1 (r.call irs specs (batch.map Held.id) (.prepare p g)).1 := by
  have e : c.call ops batch (.prepare p g) = some (((c.callHead (.prepare p g)).service ops batch).resetBody ops) := rfl
  rw [e] at ec
  cases ec
  obtain ⟨rate, hr0, hr1⟩ := hrate
  have hpos : (0:ℚ) < rate := by rw [← hr0]; exact hp.2.2.1
  have hpos : 0 < rate := by exact_mod_cast hpos
  have hsame : SameSettings (c.callHead (.prepare p g)) (((c.callHead (.prepare p g)).service ops batch).resetBody ops).1 :=
    (settings_service (c.callHead (.prepare p g)) batch).trans (settings_resetBody _)
  have hfl : ⌊p.sampleRate⌋₊ = rate := by rw [hr0, Nat.floor_natCast]
  have hS : SetFor p (c.callHead (.prepare p g)) := ⟨rfl, rfl, rfl, rfl⟩
  cases M' with
  | none => exact absurd (hk'.2.symm.trans hsame.spec) (by simp [Core.callHead, Core.prepareHead, Core.resetFade])
  | some m' =>
    refine ⟨?_, p, hS.same hsame, ?_, ?_, ?_⟩
    · show Follows ops.gains P _ (r.stage.reset irs specs ⌊p.sampleRate⌋₊ (batch.map Held.id))
      rw [hfl]
      exact follows_reset hV hr0 hpos hr1 hR hS h hg
    · show p.sampleRate = ((⌊p.sampleRate⌋₊ : ℕ) : ℚ); rw [hfl, hr0]
    · show 0 < ⌊p.sampleRate⌋₊; rw [hfl]; exact hpos
    · show ⌊p.sampleRate⌋₊ ≤ 200000; rw [hfl]; exact hr1

/-- One call. -/
theorem agrees_call {ops : ConvOps V} {K : FadeRule} (hK : Implements ops.gains K) {N : ℕ} {Good : V → Prop} (hA : Accepts ops N Good)
    {irs : ℕ → Buf} {specs : ℕ → ConvolverSpec} {P : ℕ → List Buf → V → Prop} (hV : Voices ops N Good irs specs P)
    {batch : List (Held V)} {k : Call} {rest : List (List (Held V) × Call)} {M : Option ℕ} {c : Core V} (h : Known N Good M c)
    (hw : WellFormed N Good M ((batch, k) :: rest)) (hg : ∀ g ∈ batch, P g.id [] g.obj)
    (hrate : ∀ p g, k = .prepare p g → ∃ r : ℕ, p.sampleRate = r ∧ r ≤ 200000) {r : Reference} (ha : Agrees ops P M c r) :
    ∃ q M', c.call ops batch k = some q ∧ Known N Good M' q.1 ∧ WellFormed N Good M' rest ∧
      Agrees ops P M' q.1 (r.call irs specs (batch.map Held.id) k).1 ∧ EmitsAll K ops N P (r.call irs specs (batch.map Held.id) k).2 q.2.out.toList := by
  obtain ⟨q, M', ec, hk', hw', _⟩ := call_known hA h hw
  obtain ⟨_, hbatch, hk⟩ := hw
  refine ⟨q, M', ec, hk', hw', ?_⟩
  cases M with
  | none =>
    have hkn := h
    obtain ⟨⟨h1, h2, h3⟩, hsp⟩ := h
    obtain ⟨h0, hst⟩ := ha
    cases k with
    | process blk =>
      have hb := hbatch rfl (fun _ _ hc => by cases hc)
      subst hb
      obtain ⟨hch, _, _⟩ := hk
      have e : c.call ops [] (.process blk) = some (c, { out := some blk }) := by
        show c.processBody ops blk = _
        rw [processBody_none h2, h1]
        show some (({ c with active := none } : Core V), _) = _
        rw [← h1]
      rw [e] at ec
      cases ec
      have he : r.call irs specs (([] : List (Held V)).map Held.id) (.process blk) = ({ r with stage := .steady none h0 }, [(.steady none h0, blk)]) := by
        show (({ r with stage := r.stage.after irs specs r.rate blk } : Reference), [(r.stage, blk)]) = _
        rw [hst]; rfl
      rw [he]
      refine ⟨?_, .cons ⟨hch, hch, rfl, rfl⟩ .nil⟩
      cases M' with
      | none => exact ⟨h0, rfl⟩
      | some m => obtain ⟨_, _, _, p, hp, _⟩ := hk'; rw [show c.spec = none from hsp] at hp; cases hp
    | reset =>
      have hb := hbatch rfl (fun _ _ hc => by cases hc)
      subst hb
      have e : c.call ops [] .reset = some (c.resetFade.resetBody ops) := rfl
      rw [e] at ec
      cases ec
      rw [resetBody_plain (c := c.resetFade) h3 h2] at hk' ⊢
      refine ⟨?_, .nil⟩
      cases M' with
      | none => exact ⟨false, by show r.stage.reset irs specs r.rate [] = _; rw [hst]; rfl⟩
      | some m => obtain ⟨_, _, _, p, hp, _⟩ := hk'; exact absurd (Eq.trans (Eq.symm hsp) hp) (by simp)
    | clear =>
      have hb := hbatch rfl (fun _ _ hc => by cases hc)
      subst hb
      have e : c.call ops [] .clear = some (c.resetFade.clearBody ops) := rfl
      rw [e] at ec
      cases ec
      unfold Core.clearBody at hk' ⊢
      rw [resetBody_plain (c := c.resetFade) h3 h2] at hk' ⊢
      refine ⟨?_, .nil⟩
      cases M' with
      | none => exact ⟨false, by show (r.stage.reset irs specs r.rate []).drop = _; rw [hst]; rfl⟩
      | some m => obtain ⟨_, _, _, p, hp, _⟩ := hk'; exact absurd (Eq.trans (Eq.symm hsp) hp) (by simp)
    | prepare p g =>
      obtain ⟨_, hR, _⟩ := prepare_head hkn hk.1 g
      have hf : Follows ops.gains P (c.callHead (.prepare p g)) r.stage.calm := by
        rw [hst]
        exact ⟨h1, h2, h3, resetFade_rest _⟩
      refine ⟨agrees_prepare hV hf hR hg (hrate p g rfl) hk.1 ec hk', ?_⟩
      have e : c.call ops batch (.prepare p g) = some (((c.callHead (.prepare p g)).service ops batch).resetBody ops) := rfl
      rw [e] at ec
      cases ec
      exact .nil
  | some m =>
    obtain ⟨hf, p0, hS, hr0, hr1, hr2⟩ := ha
    have hkn := h
    obtain ⟨m0, hR, hW, p1, s1, s2, s3, s4⟩ := h
    cases k with
    | prepare p g =>
      obtain ⟨_, hR', _⟩ := prepare_head hkn hk.1 g
      have hf' : Follows ops.gains P (c.callHead (.prepare p g)) r.stage.calm := by
        have := follows_calm hf
        cases hst : r.stage with
        | steady a hs => rw [hst] at this; exact this
        | fading a f w ph => rw [hst] at this; exact this
      refine ⟨agrees_prepare hV hf' hR' hg (hrate p g rfl) hk.1 ec hk', ?_⟩
      have e : c.call ops batch (.prepare p g) = some (((c.callHead (.prepare p g)).service ops batch).resetBody ops) := rfl
      rw [e] at ec
      cases ec
      exact .nil
    | process blk =>
      obtain ⟨hch, hn, _⟩ := hk
      have hfs := follows_service hV hr0 hr1 hr2 batch hR hS hf hg
      have hgood : ∀ g ∈ batch, Good g.obj := fun g hx => hV.good (hg g hx)
      have ss := settings_service (ops := ops) c batch
      obtain ⟨c', e, out, ep, eo, hoc, hon, hf', hem⟩ := follows_process hK hA hV hr0 hr1 hr2 m0 (hR.service hgood) (hS.same ss) hfs hch (hn m rfl)
      have ec' : c.call ops batch (.process blk) = some (c', e) := ep
      rw [ec'] at ec
      cases ec
      obtain ⟨c2, e2, out2, ep2, eo2, _, _, _, _, ss2, _⟩ := process_any hA (hR.service (ops := ops) hgood) (hW.service hR hgood) hch (hn m rfl) m0
      rw [ep] at ep2
      cases ep2
      refine ⟨?_, ?_⟩
      · cases M' with
        | none => exact absurd (hk'.2.symm.trans (ss2.spec.trans (ss.spec.trans s1))) (by simp)
        | some m' => exact ⟨hf', p0, (hS.same ss).same ss2, hr0, hr1, hr2⟩
      · rw [eo]
        exact .cons ⟨hoc, hch, hon, hem⟩ .nil
    | reset =>
      have e : c.call ops batch .reset = some ((c.resetFade.service ops batch).resetBody ops) := rfl
      rw [e] at ec
      cases ec
      have hsame : SameSettings c ((c.resetFade.service ops batch).resetBody ops).1 :=
        SameSettings.trans (b := c.resetFade) ⟨rfl, rfl, rfl, rfl, rfl⟩ ((settings_service c.resetFade batch).trans (settings_resetBody _))
      refine ⟨?_, .nil⟩
      cases M' with
      | none => exact absurd (hk'.2.symm.trans (hsame.spec.trans s1)) (by simp)
      | some m' => exact ⟨follows_reset hV hr0 hr1 hr2 hR.resetFade (hS.same ⟨rfl, rfl, rfl, rfl, rfl⟩) (follows_calm hf) hg, p0, hS.same hsame, hr0, hr1, hr2⟩
    | clear =>
      have e : c.call ops batch .clear = some ((c.resetFade.service ops batch).clearBody ops) := rfl
      rw [e] at ec
      cases ec
      have hsame : SameSettings c ((c.resetFade.service ops batch).resetBody ops).1 :=
        SameSettings.trans (b := c.resetFade) ⟨rfl, rfl, rfl, rfl, rfl⟩ ((settings_service c.resetFade batch).trans (settings_resetBody _))
      have hsame2 : SameSettings c ((c.resetFade.service ops batch).clearBody ops).1 := hsame.trans ⟨rfl, rfl, rfl, rfl, rfl⟩
      refine ⟨?_, .nil⟩
      cases M' with
      | none => exact absurd (hk'.2.symm.trans (hsame2.spec.trans s1)) (by simp)
      | some m' =>
        exact ⟨follows_drop (follows_reset hV hr0 hr1 hr2 hR.resetFade (hS.same ⟨rfl, rfl, rfl, rfl, rfl⟩) (follows_calm hf) hg),
          p0, hS.same hsame2, hr0, hr1, hr2⟩

/-- A history of calls. -/
theorem agrees_run {ops : ConvOps V} {K : FadeRule} (hK : Implements ops.gains K) {N : ℕ} {Good : V → Prop} (hA : Accepts ops N Good)
    {irs : ℕ → Buf} {specs : ℕ → ConvolverSpec} {P : ℕ → List Buf → V → Prop} (hV : Voices ops N Good irs specs P) :
    ∀ (hist : List (List (Held V) × Call)) {M : Option ℕ} {c : Core V} (_ : Known N Good M c) (_ : WellFormed N Good M hist)
      (_ : ∀ b ∈ hist, ∀ g ∈ b.1, P g.id [] g.obj) (_ : WholeRates hist) {r : Reference} (_ : Agrees ops P M c r),
      ∃ c' outs M', perform ops c hist = some (c', outs) ∧ Known N Good M' c' ∧ Agrees ops P M' c' (Reference.run irs specs r (numbered hist)).1 ∧
        EmitsAll K ops N P (Reference.run irs specs r (numbered hist)).2 outs
  | [], M, c, h, _, _, _, r, ha => ⟨c, [], M, rfl, h, ha, .nil⟩
  | (batch, k) :: rest, M, c, h, hw, hP, hr, r, ha => by
    obtain ⟨q, M1, ec, hk1, hw1, ha1, he1⟩ := agrees_call hK hA hV h hw (hP (batch, k) (by simp)) (hr (batch, k) (by simp)) ha
    obtain ⟨c', outs, M', ep, hk', ha', he'⟩ := agrees_run hK hA hV rest hk1 hw1 (fun b hb => hP b (by simp [hb])) (fun b hb => hr b (by simp [hb])) ha1
    refine ⟨c', q.2.out.toList ++ outs, M', ?_, hk', ha', List.rel_append he1 he'⟩
    rw [perform]
    show (c.call ops batch k).bind _ = _
    rw [ec, Option.bind_some, ep]; rfl

end Zones.Props
