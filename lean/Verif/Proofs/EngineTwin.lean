import Verif.Proofs.EngineAge
import Verif.Proofs.EngineHistory
import Verif.Spec.Twins

/-! Two runs of the engine with the same calls. -/

open Zones.Model Zones.Spec

namespace Zones.Proofs

variable {V : Type}

/-- Both slots are empty, or hold convolvers of the same number that are related by `R`. -/
def Both (R : ℕ → V → V → Prop) : Option (Held V) → Option (Held V) → Prop
  | none, none => True
  | some a, some b => a.id = b.id ∧ R a.id a.obj b.obj
  | _, _ => False

theorem Both.mono {R S : ℕ → V → V → Prop} (h : ∀ i v v', R i v v' → S i v v') : ∀ {a b : Option (Held V)}, Both R a b → Both S a b
  | none, none, _ => trivial
  | some _, some _, hb => ⟨hb.1, h _ _ _ hb.2⟩
  | none, some _, hb => hb.elim
  | some _, none, hb => hb.elim

theorem Both.none_iff {R : ℕ → V → V → Prop} : ∀ {a b : Option (Held V)}, Both R a b → (a = none ↔ b = none)
  | none, none, _ => Iff.rfl
  | some _, some _, _ => by simp
  | none, some _, hb => hb.elim
  | some _, none, hb => hb.elim

theorem Both.all {R : ℕ → ℕ → V → V → Prop} : ∀ {a b : Option (Held V)}, (∀ m, Both (R m) a b) → Both (fun i v v' => ∀ m, R m i v v') a b
  | none, none, _ => trivial
  | some _, some _, hb => ⟨(hb 0).1, fun m => (hb m).2⟩
  | none, some _, hb => (hb 0).elim
  | some _, none, hb => (hb 0).elim

theorem Both.some_left {R : ℕ → V → V → Prop} {a : Held V} : ∀ {b : Option (Held V)}, Both R (some a) b → ∃ b', b = some b' ∧ a.id = b'.id ∧ R a.id a.obj b'.obj
  | some b, h => ⟨b, rfl, h⟩
  | none, h => h.elim

theorem Both.none_left {R : ℕ → V → V → Prop} : ∀ {b : Option (Held V)}, Both R none b → b = none
  | none, _ => rfl
  | some _, h => h.elim

/-- Everything but the convolvers and the contents of the fade buffer is equal. -/
structure Alike (c c' : Core V) : Prop where
  sIn : c'.sIn = c.sIn
  sOut : c'.sOut = c.sOut
  strategy : c'.strategy = c.strategy
  lower : c'.lower = c.lower
  upper : c'.upper = c.upper
  maxCrossfade : c'.maxCrossfade = c.maxCrossfade
  inOut : c'.inOut = c.inOut

/-- As `Ages`, for two convolvers. -/
structure Twins (ops : ConvOps V) (N t : ℕ) (Q : Buf → Buf → Prop) (P : ℕ → ℕ → V → V → Prop) : Prop where
  samples : ∀ a b a' b' : Buf, SameBlock N a a' → SameBlock N b b' → Q a b → Q a' b'
  fixed : ∀ n i v v', P n i v v' → ops.numSamples v' = ops.numSamples v ∧ ops.strategy v' = ops.strategy v
  process : ∀ n, (t = 0 → n = 0) → ∀ i v v' blk blk' w w' o o', P n i v v' → blk.ch = N → blk'.ch = N → blk'.n = blk.n → Q blk blk' →
    ops.process v blk = some (w, o) → ops.process v' blk' = some (w', o') →
    P (n + t * blk.n) i w w' ∧ (o.ch = N ∧ o.n = blk.n) ∧ o'.ch = N ∧ o'.n = blk.n
  reset : ∀ n i v v', P n i v v' → ∀ m, P m i (ops.reset v) (ops.reset v')

/-- What the two engines have in common, `n` samples after the beginning. -/
structure Twin (P : ℕ → ℕ → V → V → Prop) (n : ℕ) (c c' : Core V) : Prop where
  alike : Alike c c'
  pending : Both (fun i v v' => ∀ m, P m i v v') c.pending c'.pending
  fade : Both (P n) c.fade c'.fade
  active : Both (fun i v v' => (c.fade = none ∨ c.strategy = .crossfade ∨ c.sOut.isSmoothing = true) → P n i v v') c.active c'.active
  wait : c.strategy = .inOut → c.sOut.isSmoothing = true → Both (fun i v v' => ∀ m, P m i v v') c.fade c'.fade

variable {P : ℕ → ℕ → V → V → Prop} {ops : ConvOps V} {N t : ℕ}

theorem Twin.start : Twin P 0 ({} : Core V) {} :=
  ⟨⟨rfl, rfl, rfl, rfl, rfl, rfl, rfl⟩, trivial, trivial, trivial, fun _ _ => trivial⟩

theorem Twin.mono {P' : ℕ → ℕ → V → V → Prop} (h : ∀ n i v v', P n i v v' → P' n i v v') {n : ℕ} {c c' : Core V} (ht : Twin P n c c') : Twin P' n c c' :=
  ⟨ht.alike, ht.pending.mono fun i v v' hp m => h m i v v' (hp m), ht.fade.mono (h n), ht.active.mono fun i v v' hp hc => h n i v v' (hp hc),
    fun h1 h2 => (ht.wait h1 h2).mono fun i v v' hp m => h m i v v' (hp m)⟩

theorem Twin.all {n : ℕ} {c c' : Core V} (h : ∀ m, Twin P m c c') : Twin (fun _ i v v' => ∀ m, P m i v v') n c c' :=
  ⟨(h 0).alike, (h 0).pending.mono fun _ _ _ hp _ => hp, Both.all fun m => (h m).fade,
    (Both.all (R := fun m i v v' => _ → P m i v v') fun m => (h m).active).mono fun _ _ _ hp hc m => hp m hc, fun h1 h2 => ((h 0).wait h1 h2).mono fun _ _ _ hp _ => hp⟩

theorem Twin.beginFade {n : ℕ} {c c' : Core V} (hc : Alike c c') (ha : Both (P n) c.active c'.active) (hp : Both (fun i v v' => ∀ m, P m i v v') c.pending c'.pending)
    {g g' : Held V} (hid : g.id = g'.id) (hg : ∀ m, P m g.id g.obj g'.obj) (hl : ops.numSamples g'.obj = ops.numSamples g.obj ∧ ops.strategy g'.obj = ops.strategy g.obj) :
    Twin P n (c.beginFade ops g) (c'.beginFade ops g') := by
  have e1 : c'.chooseStrategy ops g'.obj = c.chooseStrategy ops g.obj := by
    unfold Core.chooseStrategy
    rw [hc.maxCrossfade, hl.1, hl.2]
  have e2 : c'.fadeLength ops g'.obj = c.fadeLength ops g.obj := by
    unfold Core.fadeLength
    rw [e1, hc.lower, hc.upper, hc.inOut, hl.1]
  refine ⟨⟨?_, ?_, e1, hc.lower, hc.upper, hc.maxCrossfade, hc.inOut⟩, hp, ⟨hid, hg n⟩, ha.mono fun i v v' h _ => h, fun _ _ => ⟨hid, hg⟩⟩
  · show (c'.sIn.reset (c'.fadeLength ops g'.obj)).setTarget ops.gains 1 = (c.sIn.reset (c.fadeLength ops g.obj)).setTarget ops.gains 1
    rw [hc.sIn, e2]
  · show (c'.sOut.reset (c'.fadeLength ops g'.obj)).setTarget ops.gains 0 = (c.sOut.reset (c.fadeLength ops g.obj)).setTarget ops.gains 0
    rw [hc.sOut, e2]

theorem Twin.handle {Q : Buf → Buf → Prop} (hA : Twins ops N t Q P) {n : ℕ} {c c' : Core V} (h : Twin P n c c') {g g' : Held V} (hid : g.id = g'.id)
    (hg : ∀ m, P m g.id g.obj g'.obj) : Twin P n (c.handle ops g).1 (c'.handle ops g').1 := by
  have hact := h.active
  have hfad := h.fade
  cases ha : c.active with
  | none =>
    rw [ha] at hact
    rw [handle_none ha, handle_none hact.none_left]
    exact ⟨h.alike.1 |> fun _ => ⟨h.alike.1, h.alike.2, h.alike.3, h.alike.4, h.alike.5, h.alike.6, h.alike.7⟩, h.pending, h.fade, ⟨hid, fun _ => hg n⟩, h.wait⟩
  | some a =>
    rw [ha] at hact
    obtain ⟨a', ea, -⟩ := hact.some_left
    cases hf : c.fade with
    | none =>
      rw [hf] at hfad
      rw [handle_begin ha hf, handle_begin ea hfad.none_left]
      refine Twin.beginFade (c := { c with pending := none }) (c' := { c' with pending := none })
        ⟨h.alike.1, h.alike.2, h.alike.3, h.alike.4, h.alike.5, h.alike.6, h.alike.7⟩ (h.active.mono fun i v v' hp => hp (Or.inl hf)) trivial hid hg
        (hA.fixed _ _ _ _ (hg 0))
    | some f =>
      rw [hf] at hfad
      obtain ⟨f', ef, -⟩ := hfad.some_left
      rw [handle_fading ha hf, handle_fading ea ef]
      exact ⟨⟨h.alike.1, h.alike.2, h.alike.3, h.alike.4, h.alike.5, h.alike.6, h.alike.7⟩, ⟨hid, hg⟩, h.fade, h.active, h.wait⟩

theorem Twin.service {Q : Buf → Buf → Prop} (hA : Twins ops N t Q P) {n : ℕ} : ∀ (batch batch' : List (Held V)) {c c' : Core V}, Twin P n c c' →
    List.Forall₂ (fun g g' => g.id = g'.id ∧ ∀ m, P m g.id g.obj g'.obj) batch batch' → Twin P n (c.service ops batch) (c'.service ops batch')
  | [], [], _, _, h, _ => h
  | g :: gs, g' :: gs', _, _, h, hb => by
    obtain ⟨hg, hb⟩ := List.forall₂_cons.mp hb
    exact Twin.service hA gs gs' (h.handle hA hg.1 hg.2) hb
  | [], _ :: _, _, _, _, hb => by cases hb
  | _ :: _, [], _, _, _, hb => by cases hb

theorem Twin.resetFade {n : ℕ} {c c' : Core V} (h : Twin P n c c') : Twin P n c.resetFade c'.resetFade := by
  refine ⟨⟨?_, ?_, h.alike.3, h.alike.4, h.alike.5, h.alike.6, h.alike.7⟩, h.pending, h.fade, h.active.mono fun i v v' hp hc => hp ?_, fun _ hs => (by cases hs)⟩
  · show c'.sIn.setCurrentAndTarget 0 = c.sIn.setCurrentAndTarget 0
    rw [h.alike.sIn]
  · show c'.sOut.setCurrentAndTarget 1 = c.sOut.setCurrentAndTarget 1
    rw [h.alike.sOut]
  · rcases hc with hc | hc | hc
    · exact Or.inl hc
    · exact Or.inr (Or.inl hc)
    · cases hc

theorem Twin.head {R : Buf → Buf → Prop} {n : ℕ} {c c' : Core V} (h : Twin P n c c') {k k' : Call} (hk : SameKind R k k') : Twin P n (c.callHead k) (c'.callHead k') := by
  cases hk with
  | process _ => exact h
  | reset => exact h.resetFade
  | clear => exact h.resetFade
  | prepare p g g' =>
    exact Twin.resetFade (c := c.prepareHead p g) (c' := c'.prepareHead p g') ⟨⟨h.alike.1, h.alike.2, h.alike.3, rfl, rfl, rfl, rfl⟩, h.pending, h.fade, h.active, h.wait⟩

theorem Twin.endFade {Q : Buf → Buf → Prop} (hA : Twins ops N t Q P) {n : ℕ} {c c' : Core V} (h : Twin P n c c') : Twin P n (c.endFade ops).1 (c'.endFade ops).1 := by
  have hal := h.alike
  have hsm : c'.sIn.isSmoothing = c.sIn.isSmoothing := by rw [hal.sIn]
  have hpd := h.pending
  have rf : ∀ d d' : Core V, Alike d d' → Alike d.resetFade d'.resetFade := fun d d' a => by
    refine ⟨?_, ?_, a.3, a.4, a.5, a.6, a.7⟩
    · show d'.sIn.setCurrentAndTarget 0 = d.sIn.setCurrentAndTarget 0
      rw [a.sIn]
    · show d'.sOut.setCurrentAndTarget 1 = d.sOut.setCurrentAndTarget 1
      rw [a.sOut]
  rcases endFade_slots (ops := ops) (c := c) with ⟨s, e⟩ | ⟨s, hp, e⟩ | ⟨p, s, hp, e⟩ <;>
    rcases endFade_slots (ops := ops) (c := c') with ⟨s', e'⟩ | ⟨s', hp', e'⟩ | ⟨p', s', hp', e'⟩ <;> rw [s, s'] at hsm <;> (try cases hsm)
  · rw [e, e']; exact h
  · rw [e, e']
    exact ⟨rf _ _ ⟨hal.1, hal.2, hal.3, hal.4, hal.5, hal.6, hal.7⟩, h.pending, trivial, h.fade.mono fun i v v' hp _ => hp, fun _ _ => trivial⟩
  · rw [hp, hp'] at hpd; exact hpd.elim
  · rw [hp, hp'] at hpd; exact hpd.elim
  · rw [e, e']
    rw [hp, hp'] at hpd
    exact Twin.beginFade (c := ({ c with active := c.fade, fade := none, pending := none } : Core V).resetFade)
      (c' := ({ c' with active := c'.fade, fade := none, pending := none } : Core V).resetFade) (rf _ _ ⟨hal.1, hal.2, hal.3, hal.4, hal.5, hal.6, hal.7⟩) h.fade trivial
      hpd.1 hpd.2 (hA.fixed _ _ _ _ (hpd.2 0))

theorem Twin.resetBody {Q : Buf → Buf → Prop} (hA : Twins ops N t Q P) {n : ℕ} {c c' : Core V} (h : Twin P n c c') : Twin P n (c.resetBody ops).1 (c'.resetBody ops).1 := by
  have hal := h.alike
  have hpd := h.pending
  have hfd := h.fade
  cases hp : c.pending with
  | some p =>
    rw [hp] at hpd
    obtain ⟨p', ep, hid, hpp⟩ := hpd.some_left
    rw [resetBody_pending hp, resetBody_pending ep]
    exact ⟨⟨hal.1, hal.2, hal.3, hal.4, hal.5, hal.6, hal.7⟩, trivial, h.fade, ⟨hid, fun _ => hA.reset _ _ _ _ (hpp 0) n⟩, h.wait⟩
  | none =>
    rw [hp] at hpd
    cases hf : c.fade with
    | some f =>
      rw [hf] at hfd
      obtain ⟨f', ef, hid, hff⟩ := hfd.some_left
      rw [resetBody_fade hp hf, resetBody_fade hpd.none_left ef]
      exact ⟨⟨hal.1, hal.2, hal.3, hal.4, hal.5, hal.6, hal.7⟩, h.pending, trivial, ⟨hid, fun _ => hA.reset _ _ _ _ hff n⟩, fun _ _ => trivial⟩
    | none =>
      rw [hf] at hfd
      rw [resetBody_plain hp hf, resetBody_plain hpd.none_left hfd.none_left]
      refine ⟨⟨hal.1, hal.2, hal.3, hal.4, hal.5, hal.6, hal.7⟩, h.pending, h.fade, ?_, h.wait⟩
      have ha := h.active
      show Both _ (c.active.map _) (c'.active.map _)
      cases hc : c.active with
      | none =>
        rw [hc] at ha
        rw [ha.none_left]
        trivial
      | some a =>
        rw [hc] at ha
        obtain ⟨a', ea, hid, haa⟩ := ha.some_left
        rw [ea]
        exact ⟨hid, fun _ => hA.reset _ _ _ _ (haa (Or.inl hf)) n⟩

/-- After a reset that finds nothing waiting, nothing of the past is left. -/
theorem Twin.resetBody_quiet {Q : Buf → Buf → Prop} (hA : Twins ops N t Q P) {n : ℕ} {c c' : Core V} (h : Twin P n c c') (hq : c.pending = none) (m : ℕ) :
    Twin P m (c.resetBody ops).1 (c'.resetBody ops).1 := by
  have hal := h.alike
  have hpd := h.pending
  have hfd := h.fade
  rw [hq] at hpd
  cases hf : c.fade with
  | some f =>
    rw [hf] at hfd
    obtain ⟨f', ef, hid, hff⟩ := hfd.some_left
    rw [resetBody_fade hq hf, resetBody_fade hpd.none_left ef]
    exact ⟨⟨hal.1, hal.2, hal.3, hal.4, hal.5, hal.6, hal.7⟩, h.pending, trivial, ⟨hid, fun _ => hA.reset _ _ _ _ hff m⟩, fun _ _ => trivial⟩
  | none =>
    rw [hf] at hfd
    rw [resetBody_plain hq hf, resetBody_plain hpd.none_left hfd.none_left]
    have e1 : Both (P m) c.fade c'.fade := by rw [hf, hfd.none_left]; trivial
    refine ⟨⟨hal.1, hal.2, hal.3, hal.4, hal.5, hal.6, hal.7⟩, h.pending, e1, ?_, h.wait⟩
    have ha := h.active
    show Both _ (c.active.map _) (c'.active.map _)
    cases hc : c.active with
    | none =>
      rw [hc] at ha
      rw [ha.none_left]
      trivial
    | some a =>
      rw [hc] at ha
      obtain ⟨a', ea, hid, haa⟩ := ha.some_left
      rw [ea]
      exact ⟨hid, fun _ => hA.reset _ _ _ _ (haa (Or.inl hf)) m⟩

theorem Twin.clear {n : ℕ} {c c' : Core V} (h : Twin P n c c') : Twin P n { c with active := none, pending := none } { c' with active := none, pending := none } :=
  ⟨⟨h.alike.1, h.alike.2, h.alike.3, h.alike.4, h.alike.5, h.alike.6, h.alike.7⟩, trivial, h.fade, trivial, h.wait⟩

/-! ## Blocks -/

/-- After `n` samples the convolvers make the same of the same blocks. -/
def Settles (ops : ConvOps V) (N n : ℕ) (P : ℕ → ℕ → V → V → Prop) : Prop :=
  ∀ i v v' blk blk' w w' o o', P n i v v' → SameBlock N blk blk' → ops.process v blk = some (w, o) → ops.process v' blk' = some (w', o') → SameBlock N o o'

theorem copy_same {fb blk : Buf} (hc : fb.ch = N) (hn : fb.n = blk.n) (hb : blk.ch = N) : SameBlock N blk (fb.copyFrom blk) := by
  refine ⟨hb, hc, hn.symm, fun ch hch i hi => ?_⟩
  show _ = (if ch < min fb.ch blk.ch ∧ i < min fb.n blk.n then blk.data ch i else fb.data ch i)
  rw [if_pos (by rw [hc, hn, hb]; omega)]

theorem SameBlock.symm {a b : Buf} (h : SameBlock N a b) : SameBlock N b a :=
  ⟨h.2.1, h.1, h.2.2.1.symm, fun ch hc i hi => (h.2.2.2 ch hc i (by rw [h.2.2.1]; exact hi)).symm⟩

theorem SameBlock.trans {a b d : Buf} (h : SameBlock N a b) (h' : SameBlock N b d) : SameBlock N a d :=
  ⟨h.1, h'.2.1, h.2.2.1.trans h'.2.2.1, fun ch hc i hi => (h.2.2.2 ch hc i hi).trans (h'.2.2.2 ch hc i (by rw [← h.2.2.1]; exact hi))⟩

theorem scale_same {g : GainArith} {a b : Buf} (h : SameBlock N a b) (x : ℕ → ℝ) : SameBlock N (a.scale g x) (b.scale g x) := by
  refine ⟨h.1, h.2.1, h.2.2.1, fun ch hc i hi => ?_⟩
  show (if ch < a.ch ∧ i < a.n then g.mul (a.data ch i) (x i) else a.data ch i) = (if ch < b.ch ∧ i < b.n then g.mul (b.data ch i) (x i) else b.data ch i)
  rw [h.1, h.2.1, ← h.2.2.1, h.2.2.2 ch hc i hi]

theorem multiplyBy_same {g : GainArith} {a b : Buf} (h : SameBlock N a b) (s : Smooth) : SameBlock N (a.multiplyBy g s).1 (b.multiplyBy g s).1 := by
  unfold Buf.multiplyBy
  split
  · exact scale_same h _
  · exact scale_same h _

theorem multiplyBy_smooth {g : GainArith} {a b : Buf} (h : b.n = a.n) (s : Smooth) : (b.multiplyBy g s).2 = (a.multiplyBy g s).2 := by
  unfold Buf.multiplyBy
  split
  · show s.advance g b.n = s.advance g a.n
    rw [h]
  · rfl

theorem mix_shape {g : GainArith} {a f o : Buf} (e : a.mix g f = some o) : o.ch = a.ch ∧ o.n = a.n := by
  unfold Buf.mix at e
  split at e
  · cases e; exact ⟨rfl, rfl⟩
  · cases e

theorem mix_same {g : GainArith} {a f o a' f' o' : Buf} (ha : SameBlock N a a') (hf : SameBlock N f f') (hn : f.n = a.n) (e : a.mix g f = some o)
    (e' : a'.mix g f' = some o') : SameBlock N o o' := by
  unfold Buf.mix at e e'
  rw [if_pos (by rw [ha.1, hf.1])] at e
  rw [if_pos (by rw [ha.2.1, hf.2.1])] at e'
  cases e; cases e'
  refine ⟨ha.1, ha.2.1, ha.2.2.1, fun ch hc i hi => ?_⟩
  show (if ch < a.ch ∧ i < min a.n f.n then g.add (a.data ch i) (f.data ch i) else a.data ch i) =
    (if ch < a'.ch ∧ i < min a'.n f'.n then g.add (a'.data ch i) (f'.data ch i) else a'.data ch i)
  have hi' : i < a.n := hi
  rw [ha.1, ha.2.1, ← ha.2.2.1, ← hf.2.2.1, ha.2.2.2 ch hc i hi, hf.2.2.2 ch hc i (by rw [hn]; exact hi)]

/-! ## `process` -/

variable {Q : Buf → Buf → Prop}

/-- what two calls of `Process` have in common -/
structure Ran (N n t : ℕ) (ops : ConvOps V) (P : ℕ → ℕ → V → V → Prop) (blk blk' o o' : Buf) : Prop where
  ch : o.ch = N
  len : o.n = blk.n
  ch' : o'.ch = N
  len' : o'.n = blk.n
  same : Settles ops N n P → SameBlock N blk blk' → SameBlock N o o'

theorem runHeld_twin (hA : Twins ops N t Q P) {n : ℕ} (ht : t = 0 → n = 0) {h h' k k' : Held V} {blk blk' o o' : Buf} (hb : blk.ch = N) (hb' : blk'.ch = N)
    (hn : blk'.n = blk.n) (hq : Q blk blk') (hid : h.id = h'.id) (hP : P n h.id h.obj h'.obj) (e : Core.runHeld ops h blk = some (k, o))
    (e' : Core.runHeld ops h' blk' = some (k', o')) : k.id = k'.id ∧ P (n + t * blk.n) k.id k.obj k'.obj ∧ Ran N n t ops P blk blk' o o' := by
  unfold Core.runHeld at e e'
  obtain ⟨r, er, e⟩ := Option.map_eq_some_iff.mp e
  obtain ⟨r', er', e'⟩ := Option.map_eq_some_iff.mp e'
  cases e; cases e'
  obtain ⟨p1, ⟨p2, p3⟩, p4, p5⟩ := hA.process n ht h.id h.obj h'.obj blk blk' r.1 r'.1 r.2 r'.2 hP hb hb' hn hq er er'
  exact ⟨hid, p1, p2, p3, p4, p5, fun hs hsb => hs h.id h.obj h'.obj blk blk' r.1 r'.1 r.2 r'.2 hP hsb er er'⟩

theorem runSlot_twin (hA : Twins ops N t Q P) {n : ℕ} (ht : t = 0 → n = 0) {s s' k k' : Option (Held V)} {blk blk' o o' : Buf} (hb : blk.ch = N) (hb' : blk'.ch = N)
    (hn : blk'.n = blk.n) (hq : Q blk blk') (hP : Both (P n) s s') (e : Core.runSlot ops s blk = some (k, o))
    (e' : Core.runSlot ops s' blk' = some (k', o')) : Both (P (n + t * blk.n)) k k' ∧ Ran N n t ops P blk blk' o o' := by
  cases s with
  | none =>
    have := hP.none_left
    subst this
    cases e; cases e'
    exact ⟨trivial, hb, rfl, hb', hn, fun _ h => h⟩
  | some a =>
    obtain ⟨a', rfl, hid, hpa⟩ := hP.some_left
    unfold Core.runSlot at e e'
    obtain ⟨r, er, e⟩ := Option.map_eq_some_iff.mp e
    obtain ⟨r', er', e'⟩ := Option.map_eq_some_iff.mp e'
    cases e; cases e'
    obtain ⟨h1, h2, h3⟩ := runHeld_twin hA ht hb hb' hn hq hid hpa er er'
    exact ⟨⟨h1, h2⟩, h3⟩

theorem Twin.fadeStep (hA : Twins ops N t Q P) {n : ℕ} (ht : t = 0 → n = 0) {c c' d d' : Core V} (h : Twin P n c c') (hbuf : c.fadeBuf.ch = N) (hbuf' : c'.fadeBuf.ch = N)
    {f f' : Held V} (hf : c.fade = some f) (hf' : c'.fade = some f') {blk blk' o o' : Buf} (hb : blk.ch = N) (hb' : blk'.ch = N) (hn : blk'.n = blk.n) (hq : Q blk blk')
    (e : c.fadeStep ops f blk = some (d, o)) (e' : c'.fadeStep ops f' blk' = some (d', o')) : Twin P (n + t * blk.n) d d' ∧ Ran N n t ops P blk blk' o o' := by
  have hal := h.alike
  have hff := h.fade
  rw [hf, hf'] at hff
  unfold Core.fadeStep at e e'
  rw [hal.strategy] at e'
  cases hs : c.strategy with
  | crossfade =>
    rw [hs] at e e'
    simp only [Core.crossfadeStep, Option.bind_eq_bind, Option.bind_eq_some_iff] at e e'
    obtain ⟨fb, efb, a, ea, k, ef, out, eo, e⟩ := e
    obtain ⟨fb', efb', a', ea', k', ef', out', eo', e'⟩ := e'
    cases e; cases e'
    obtain ⟨s1, s2⟩ := sub_shape efb
    obtain ⟨s1', s2'⟩ := sub_shape efb'
    have c1 := copy_same (s1.trans hbuf) s2 hb
    have c1' := copy_same (s1'.trans hbuf') s2' hb'
    obtain ⟨k1, r1⟩ := runSlot_twin hA ht hb hb' hn hq (h.active.mono fun i v v' hp => hp (Or.inr (Or.inl hs))) ea ea'
    obtain ⟨k2, k3, r2⟩ := runHeld_twin hA ht c1.2.1 c1'.2.1 (by rw [← c1.2.2.1, ← c1'.2.2.1, hn]) (hA.samples _ _ _ _ c1 c1' hq) hff.1 hff.2 ef ef'
    have hfb : (fb.copyFrom blk).n = blk.n := c1.2.2.1.symm
    rw [hfb] at k3
    have l2 : k.2.n = blk.n := r2.len.trans hfb
    have l2' : k'.2.n = blk.n := r2.len'.trans hfb
    have m1 := multiplyBy_shape (g := ops.gains) a.2 c.sOut
    have m1' := multiplyBy_shape (g := ops.gains) a'.2 c'.sOut
    have m2 := multiplyBy_shape (g := ops.gains) k.2 c.sIn
    have x1 := mix_shape eo
    have x1' := mix_shape eo'
    refine ⟨⟨⟨?_, ?_, hal.3, hal.4, hal.5, hal.6, hal.7⟩, h.pending, ⟨k2, k3⟩, k1.mono fun i v v' hp _ => hp,
      fun hc => (by rw [show _ = c.strategy from rfl, hs] at hc; cases hc)⟩, ?_, ?_, ?_, ?_, ?_⟩
    · show (k'.2.multiplyBy ops.gains c'.sIn).2 = (k.2.multiplyBy ops.gains c.sIn).2
      rw [hal.sIn]
      exact multiplyBy_smooth (by rw [l2, l2']) _
    · show (a'.2.multiplyBy ops.gains c'.sOut).2 = (a.2.multiplyBy ops.gains c.sOut).2
      rw [hal.sOut]
      exact multiplyBy_smooth (by rw [r1.len, r1.len']) _
    · rw [x1.1, m1.1, r1.ch]
    · rw [x1.2, m1.2, r1.len]
    · rw [x1'.1, m1'.1, r1.ch']
    · rw [x1'.2, m1'.2, r1.len']
    · intro hS hsb
      have y1 := multiplyBy_same (g := ops.gains) (r1.same hS hsb) c.sOut
      have y2 := multiplyBy_same (g := ops.gains) (r2.same hS (SameBlock.trans (SameBlock.symm c1) (SameBlock.trans hsb c1'))) c.sIn
      rw [hal.sOut, hal.sIn] at eo'
      exact mix_same y1 y2 (by rw [m1.2, m2.2, l2, r1.len]) eo eo'
  | inOut =>
    rw [hs] at e e'
    simp only [Core.inOutStep] at e e'
    rw [hal.sOut] at e'
    by_cases hsm : c.sOut.isSmoothing = true
    · rw [if_pos hsm] at e e'
      simp only [Option.bind_eq_bind, Option.bind_eq_some_iff] at e e'
      obtain ⟨a, ea, e⟩ := e
      obtain ⟨a', ea', e'⟩ := e'
      cases e; cases e'
      obtain ⟨k1, r1⟩ := runSlot_twin hA ht hb hb' hn hq (h.active.mono fun i v v' hp => hp (Or.inr (Or.inr hsm))) ea ea'
      have m1 := multiplyBy_shape (g := ops.gains) a.2 c.sOut
      have m1' := multiplyBy_shape (g := ops.gains) a'.2 c.sOut
      have hw := h.wait hs hsm
      refine ⟨⟨⟨hal.1, multiplyBy_smooth (by rw [r1.len, r1.len']) _, hal.3, hal.4, hal.5, hal.6, hal.7⟩, h.pending, hw.mono fun i v v' hp => hp _,
        k1.mono fun i v v' hp _ => hp, fun _ _ => hw⟩, ?_, ?_, ?_, ?_, fun hS hsb => multiplyBy_same (r1.same hS hsb) _⟩
      · rw [m1.1, r1.ch]
      · rw [m1.2, r1.len]
      · rw [m1'.1, r1.ch']
      · rw [m1'.2, r1.len']
    · rw [if_neg hsm] at e e'
      simp only [Option.bind_eq_bind, Option.bind_eq_some_iff] at e e'
      obtain ⟨a, ea, e⟩ := e
      obtain ⟨a', ea', e'⟩ := e'
      cases e; cases e'
      obtain ⟨k2, k3, r1⟩ := runHeld_twin hA ht hb hb' hn hq hff.1 hff.2 ea ea'
      have m1 := multiplyBy_shape (g := ops.gains) a.2 c.sIn
      have m1' := multiplyBy_shape (g := ops.gains) a'.2 c'.sIn
      refine ⟨⟨⟨?_, rfl, hal.3, hal.4, hal.5, hal.6, hal.7⟩, h.pending, ⟨k2, k3⟩, h.active.mono fun i v v' hp hc => ?_, fun _ hc => absurd hc hsm⟩, ?_, ?_, ?_, ?_, fun hS hsb => ?_⟩
      · show (a'.2.multiplyBy ops.gains c'.sIn).2 = _
        rw [hal.sIn]
        exact multiplyBy_smooth (by rw [r1.len, r1.len']) _
      · rcases hc with hc | hc | hc
        · cases hc
        · rw [show _ = c.strategy from rfl, hs] at hc; cases hc
        · exact absurd hc hsm
      · rw [m1.1, r1.ch]
      · rw [m1.2, r1.len]
      · rw [m1'.1, r1.ch']
      · rw [m1'.2, r1.len']
      · rw [hal.sIn]
        exact multiplyBy_same (r1.same hS hsb) _

/-- Two calls of `process` on a pair of engines. -/
theorem Twin.process (hA : Twins ops N t Q P) {n : ℕ} (ht : t = 0 → n = 0) {c c' d d' : Core V} (h : Twin P n c c') (hbuf : c.fade ≠ none → c.fadeBuf.ch = N)
    (hbuf' : c'.fade ≠ none → c'.fadeBuf.ch = N) {blk blk' : Buf} (hb : blk.ch = N) (hb' : blk'.ch = N) (hn : blk'.n = blk.n) (hq : Q blk blk') {e e' : Core.Effects V}
    (ec : c.processBody ops blk = some (d, e)) (ec' : c'.processBody ops blk' = some (d', e')) :
    Twin P (n + t * blk.n) d d' ∧ ∃ o o', e.out = some o ∧ e'.out = some o' ∧ Ran N n t ops P blk blk' o o' := by
  have hff := h.fade
  have hal := h.alike
  cases hf : c.fade with
  | none =>
    rw [hf] at hff
    have hf' := hff.none_left
    rw [processBody_none hf] at ec
    rw [processBody_none hf'] at ec'
    obtain ⟨r, er, ec⟩ := Option.map_eq_some_iff.mp ec
    obtain ⟨r', er', ec'⟩ := Option.map_eq_some_iff.mp ec'
    cases ec; cases ec'
    obtain ⟨k1, r1⟩ := runSlot_twin hA ht hb hb' hn hq (h.active.mono fun i v v' hp => hp (Or.inl hf)) er er'
    refine ⟨⟨⟨hal.1, hal.2, hal.3, hal.4, hal.5, hal.6, hal.7⟩, h.pending, ?_, k1.mono fun i v v' hp _ => hp, fun _ _ => ?_⟩, r.2, r'.2, rfl, rfl, r1⟩
    · show Both _ c.fade c'.fade
      rw [hf, hf']; trivial
    · show Both _ c.fade c'.fade
      rw [hf, hf']; trivial
  | some f =>
    rw [hf] at hff
    obtain ⟨f', hf', -⟩ := hff.some_left
    rw [processBody_some hf] at ec
    rw [processBody_some hf'] at ec'
    obtain ⟨r, er, ec⟩ := Option.map_eq_some_iff.mp ec
    obtain ⟨r', er', ec'⟩ := Option.map_eq_some_iff.mp ec'
    cases ec; cases ec'
    obtain ⟨k1, r1⟩ := h.fadeStep hA ht (hbuf (by rw [hf]; simp)) (hbuf' (by rw [hf']; simp)) hf hf' hb hb' hn hq er er'
    exact ⟨k1.endFade hA, r.2, r'.2, rfl, rfl, r1⟩

theorem known_buf {Good : V → Prop} {batch : List (Held V)} {blk : Buf} {rest : List (List (Held V) × Call)} {M : Option ℕ}
    {c : Core V} (hk : Known N Good M c) (hw : WellFormed N Good M ((batch, .process blk) :: rest)) :
    (c.service ops batch).fade ≠ none → (c.service ops batch).fadeBuf.ch = N := by
  obtain ⟨hw1, hw2, hw3⟩ := hw
  intro hf
  cases M with
  | none =>
    have hb0 := hw2 rfl (fun _ _ hc => by cases hc)
    subst hb0
    exact absurd hk.1.2.1 hf
  | some m => exact (hk.2.1.service (ops := ops) hw1).bufCh

/-- Two calls on a pair of engines. -/
theorem call_twin {Good : V → Prop} (hA : Twins ops N t Q P) {batch batch' : List (Held V)} {k k' : Call} {rest rest' : List (List (Held V) × Call)} {M M' : Option ℕ}
    {c c' : Core V} (hkn : Known N Good M c) (hkn' : Known N Good M' c') (hw : WellFormed N Good M ((batch, k) :: rest)) (hw' : WellFormed N Good M' ((batch', k') :: rest'))
    {n : ℕ} (ht : t = 0 → n = 0) (h : Twin P n c c') (hb : List.Forall₂ (fun g g' => g.id = g'.id ∧ ∀ m, P m g.id g.obj g'.obj) batch batch')
    {R : Buf → Buf → Prop} (hk : SameKind R k k') (hR : ∀ a b, R a b → a.n = b.n) (hq : ∀ a b, a.ch = N → b.ch = N → R a b → Q a b) {r r' : Core V × Core.Effects V}
    (hc : c.call ops batch k = some r) (hc' : c'.call ops batch' k' = some r') :
    Twin P (n + t * callLength k) r.1 r'.1 ∧
      ∀ blk, k = .process blk → ∃ blk' o o', k' = .process blk' ∧ r.2.out = some o ∧ r'.2.out = some o' ∧ Ran N n t ops P blk blk' o o' := by
  have hs := (h.head hk).service hA batch batch' hb
  cases hk with
  | @process blk blk' hr =>
    obtain ⟨r1, r2⟩ := r
    obtain ⟨r1', r2'⟩ := r'
    obtain ⟨k1, o, o', e1, e2, k2⟩ := hs.process hA ht (known_buf hkn hw) (known_buf hkn' hw') hw.2.2.1 hw'.2.2.1 (hR _ _ hr).symm (hq _ _ hw.2.2.1 hw'.2.2.1 hr) hc hc'
    refine ⟨k1, fun b hb => ?_⟩
    cases hb
    exact ⟨blk', o, o', rfl, e1, e2, k2⟩
  | reset => cases hc; cases hc'; exact ⟨hs.resetBody hA, fun b hb => by cases hb⟩
  | clear => cases hc; cases hc'; exact ⟨(hs.resetBody hA).clear, fun b hb => by cases hb⟩
  | prepare p g g' => cases hc; cases hc'; exact ⟨hs.resetBody hA, fun b hb => by cases hb⟩

/-- A call other than `process` that finds nothing waiting leaves nothing of the past. -/
theorem call_twin_quiet (hA : Twins ops N t Q P) {batch batch' : List (Held V)} {k k' : Call} {c c' : Core V} {n : ℕ} (h : Twin P n c c')
    (hb : List.Forall₂ (fun g g' => g.id = g'.id ∧ ∀ m, P m g.id g.obj g'.obj) batch batch')
    {R : Buf → Buf → Prop} (hk : SameKind R k k') (hp : ∀ blk, k ≠ .process blk) (hq : ((c.callHead k).service ops batch).pending = none) {r r' : Core V × Core.Effects V}
    (hc : c.call ops batch k = some r) (hc' : c'.call ops batch' k' = some r') (m : ℕ) : Twin P m r.1 r'.1 := by
  have hs := (h.head hk).service hA batch batch' hb
  cases hk with
  | process hr => exact absurd rfl (hp _)
  | reset => cases hc; cases hc'; exact hs.resetBody_quiet hA hq m
  | clear => cases hc; cases hc'; exact (hs.resetBody_quiet hA hq m).clear
  | prepare p g g' => cases hc; cases hc'; exact hs.resetBody_quiet hA hq m

/-- Two histories of the same calls. -/
theorem calls_twin {Good : V → Prop} (hAcc : Accepts ops N Good) (hA : Twins ops N t Q P) {R : Buf → Buf → Prop} (hR : ∀ a b, R a b → a.n = b.n)
    (hq : ∀ a b, a.ch = N → b.ch = N → R a b → Q a b) (rest rest' : List (List (Held V) × Call)) :
    ∀ {hist hist' : List (List (Held V) × Call)}, SameCalls R hist hist' → ∀ {M M' : Option ℕ} {c c' : Core V} {n : ℕ}, (t = 0 → n = 0) → Known N Good M c → Known N Good M' c' →
      Twin P n c c' → WellFormed N Good M (hist ++ rest) → WellFormed N Good M' (hist' ++ rest') →
      List.Forall₂ (fun a b : List (Held V) × Call => List.Forall₂ (fun g g' => g.id = g'.id ∧ ∀ m, P m g.id g.obj g'.obj) a.1 b.1) hist hist' →
      ∃ d d' D D', c.calls ops hist = some d ∧ c'.calls ops hist' = some d' ∧ Known N Good D d ∧ Known N Good D' d' ∧ Twin P (n + t * samplesIn hist) d d' ∧
        WellFormed N Good D rest ∧ WellFormed N Good D' rest' := by
  intro hist hist' hs
  induction hs with
  | nil => intro M M' c c' n _ hk hk' h hw hw' _; exact ⟨c, c', M, M', rfl, rfl, hk, hk', by rw [samplesIn, Nat.mul_zero]; exact h, hw, hw'⟩
  | @cons a a' hist hist' hh _ ih =>
    intro M M' c c' n ht hk hk' h hw hw' hd
    obtain ⟨hd1, hd2⟩ := List.forall₂_cons.mp hd
    obtain ⟨r, D, e, hkr, hwr, -⟩ := call_known hAcc hk hw
    obtain ⟨r', D', e', hkr', hwr', -⟩ := call_known hAcc hk' hw'
    obtain ⟨h1, -⟩ := call_twin hA hk hk' hw hw' ht h hd1 hh.2 hR hq e e'
    obtain ⟨d, d', D2, D2', f, f', g1, g2, g3, g4, g5⟩ := ih (n := n + t * callLength a.2) (fun h0 => by rw [ht h0, h0]; simp) hkr hkr' h1 hwr hwr' hd2
    refine ⟨d, d', D2, D2', ?_, ?_, g1, g2, ?_, g4, g5⟩
    · rw [Core.calls, e]; exact f
    · rw [Core.calls, e']; exact f'
    · have e3 : samplesIn (a :: hist) = callLength a.2 + samplesIn hist := by
        obtain ⟨b, k⟩ := a
        cases k with
        | process blk => rfl
        | reset => exact (Nat.zero_add _).symm
        | clear => exact (Nat.zero_add _).symm
        | prepare p g => exact (Nat.zero_add _).symm
      rw [e3, Nat.mul_add, ← Nat.add_assoc]
      exact g3

end Zones.Proofs
