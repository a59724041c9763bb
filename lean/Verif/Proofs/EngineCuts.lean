import Verif.Proofs.EngineTwin
import Verif.Proofs.EngineFade
import Verif.Proofs.EngineOutputs
import Verif.Spec.EngineCuts
import Verif.Props.Splitting

/-! Signals cut into other blocks, in two engines (for C105). -/

open Zones.Model Zones.Spec Zones.Props

namespace Zones.Proofs

variable {V : Type}

/-! ## Settings -/

theorem settings_fadeStep {ops : ConvOps V} {c d : Model.Core V} {f : Held V} {blk o : Buf} (e : c.fadeStep ops f blk = some (d, o)) : SameSettings c d := by
  unfold Model.Core.fadeStep at e
  split at e
  · simp only [Model.Core.crossfadeStep, Option.bind_eq_bind, Option.bind_eq_some_iff] at e
    obtain ⟨_, _, _, _, _, _, _, _, e⟩ := e
    cases e
    exact ⟨rfl, rfl, rfl, rfl, rfl⟩
  · unfold Model.Core.inOutStep at e
    split at e <;> simp only [Option.bind_eq_bind, Option.bind_eq_some_iff] at e <;> obtain ⟨_, _, e⟩ := e <;> cases e <;> exact ⟨rfl, rfl, rfl, rfl, rfl⟩

theorem settings_processBody {ops : ConvOps V} {c d : Model.Core V} {blk : Buf} {x : Model.Core.Effects V} (e : c.processBody ops blk = some (d, x)) : SameSettings c d := by
  cases hf : c.fade with
  | none =>
    rw [processBody_none hf] at e
    obtain ⟨_, _, e⟩ := Option.map_eq_some_iff.mp e
    cases e
    exact ⟨rfl, rfl, rfl, rfl, rfl⟩
  | some f =>
    rw [processBody_some hf] at e
    obtain ⟨r, h, e⟩ := Option.map_eq_some_iff.mp e
    cases e
    refine (settings_fadeStep h).trans ?_
    rcases endFade_slots (ops := ops) (c := r.1) with ⟨_, e⟩ | ⟨_, _, e⟩ | ⟨_, _, _, e⟩ <;> rw [e]
    · exact .refl _
    · exact ⟨rfl, rfl, rfl, rfl, rfl⟩
    · exact ⟨rfl, rfl, rfl, rfl, rfl⟩

theorem settings_play {ops : ConvOps V} : ∀ (bs : List (List (Held V) × Buf)) {c d : Model.Core V} {outs : List Buf}, c.play ops bs = some (d, outs) → SameSettings c d
  | [], c, d, outs, e => by cases e; exact .refl _
  | b :: bs, c, d, outs, e => by
    rw [Model.Core.play] at e
    obtain ⟨r, h, e⟩ := Option.bind_eq_some_iff.mp e
    obtain ⟨q, h', e⟩ := Option.map_eq_some_iff.mp e
    cases e
    exact ((settings_service c b.1).trans (settings_processBody (show (c.service ops b.1).processBody ops b.2 = some (r.1, r.2) from h))).trans (settings_play bs h')

/-! ## Playing -/

/-- No convolver: the signal passes. -/
theorem dry_play {ops : ConvOps V} : ∀ (blocks : List Buf) (c : Model.Core V), c.fade = none → c.active = none →
    c.play ops (blocks.map fun b => ([], b)) = some (c, blocks)
  | [], _, _, _ => rfl
  | b :: bs, c, hf, ha => by
    have e : (c.service ops []).processBody ops b = some (c, { out := some b }) := by
      show c.processBody ops b = _
      rw [processBody_none hf, ha]
      show some _ = _
      rw [← ha]
    exact play_cons (batch := []) e rfl (dry_play bs c hf ha)

/-- Responses that arrive with the first block. -/
theorem play_first {ops : ConvOps V} (c : Model.Core V) (batch : List (Held V)) (b : Buf) (bs : List (List (Held V) × Buf)) :
    c.play ops ((batch, b) :: bs) = (c.service ops batch).play ops (([], b) :: bs) := rfl

/-- Any arithmetic, with the end of the fade in two versions. -/
noncomputable def gainRule (g : GainArith) : FadeRule where
  mix n t old new out := out = g.add (g.mul old (gainAt g 1 0 n t)) (g.mul new (gainAt g 0 1 n t)) ∨ (n ≤ t + 1 ∧ out = new)
  fadeOut n t old out := out = g.mul old (gainAt g 1 0 n t)
  fadeIn n t new out := out = g.mul new (gainAt g 0 1 n t)

theorem gainRule_implements (g : GainArith) : Implements g (gainRule g) :=
  ⟨fun _ _ _ _ _ => .inl rfl, fun _ _ _ _ => rfl, fun _ _ _ _ => rfl, fun _ _ _ _ _ h => .inr ⟨h, rfl⟩⟩

/-- What is asked of pairs of convolvers. -/
structure CutLaw (ops : ConvOps V) (N : ℕ) (Z : ℕ → Prop) (X : ℝ → Prop) (Rel : V → V → Prop) : Prop where
  feed : ∀ {v v' w w' : V} {xs ys os os' : List Buf}, Rel v v' → (∀ b ∈ xs, b.ch = N) → (∀ b ∈ ys, b.ch = N) → SameSignal N xs ys → (∀ B, Z B → cuts B xs = cuts B ys) →
    feed ops.process v xs = some (w, os) → feed ops.process v' ys = some (w', os') → Rel w w' ∧ SameSignal N os os' ∧ ∀ ch < N, ∀ t < totalLen xs, X (stream os ch t)
  reset : ∀ {v v' : V}, Rel v v' → Rel (ops.reset v) (ops.reset v')
  fixed : ∀ {v v' : V}, Rel v v' → ops.numSamples v' = ops.numSamples v ∧ ops.strategy v' = ops.strategy v
  silent : ∀ a, ops.gains.mul a 0 = 0
  full : ∀ a, X a → ops.gains.mul a 1 = a
  alone : ∀ a, X a → ops.gains.add 0 a = a

theorem cuts_lens {B : ℕ} : ∀ {xs ys : List Buf}, xs.map Buf.n = ys.map Buf.n → cuts B xs = cuts B ys
  | [], [], _ => rfl
  | [], _ :: _, h => by simp at h
  | _ :: _, [], h => by simp at h
  | x :: xs, y :: ys, h => by
    rw [List.map_cons, List.map_cons, List.cons.injEq] at h
    unfold cuts
    rw [List.flatMap_cons, List.flatMap_cons, h.1]
    congr 1
    exact cuts_lens h.2

theorem sameSamples_lens {N : ℕ} {xs ys : List Buf} (h : SameSamples N xs ys) : xs.map Buf.n = ys.map Buf.n := by
  induction h with
  | nil => rfl
  | cons h _ ih => rw [List.map_cons, List.map_cons, ih, h.2.2.1]

theorem sameSamples_ch {N : ℕ} {xs ys : List Buf} (h : SameSamples N xs ys) : ∀ b ∈ ys, b.ch = N := by
  induction h with
  | nil => intro b hb; cases hb
  | cons h _ ih =>
    intro b hb
    rcases List.mem_cons.1 hb with rfl | hb
    · exact h.2.1
    · exact ih b hb

/-- The engine plays one response, or none, and is not fading. -/
structure Steady (N M : ℕ) (Good : V → Prop) (p : ProcSpec) (c : Model.Core V) : Prop where
  ready : Ready N M Good c
  set : SetFor p c
  fade : c.fade = none
  pending : c.pending = none
  rest : Rest c

theorem gainRule_mix {ops : ConvOps V} {N : ℕ} {Z : ℕ → Prop} {X : ℝ → Prop} {Rel : V → V → Prop} (hL : CutLaw ops N Z X Rel) {n t : ℕ} {old new out out' : ℝ} (hX : X new)
    (h : (gainRule ops.gains).mix n t old new out) (h' : (gainRule ops.gains).mix n t old new out') : out = out' := by
  have key : ∀ {o : ℝ}, (gainRule ops.gains).mix n t old new o → o = ops.gains.add (ops.gains.mul old (gainAt ops.gains 1 0 n t)) (ops.gains.mul new (gainAt ops.gains 0 1 n t)) := by
    rintro o (h | ⟨hn, rfl⟩)
    · exact h
    · unfold gainAt
      rw [if_neg (by omega), if_neg (by omega), hL.silent, hL.full _ hX, hL.alone _ hX]
  rw [key h, key h']

/-- A signal in two engines, cut in two ways. -/
theorem play_recut {ops : ConvOps V} {N M : ℕ} {Good : V → Prop} (hA : Accepts ops N Good) (hM : 0 < M) {Z : ℕ → Prop} {X : ℝ → Prop} {Rel : V → V → Prop} (hL : CutLaw ops N Z X Rel)
    {p : ProcSpec} {c c' : Model.Core V} (h : Steady N M Good p c) (h' : Steady N M Good p c') (hact : Both (fun _ => Rel) c.active c'.active) {xs ys : List Buf}
    (hx : ∀ b ∈ xs, b.ch = N ∧ b.n ≤ M) (hy : ∀ b ∈ ys, b.ch = N ∧ b.n ≤ M) (hs : SameSignal N xs ys) (hZ : ∀ B, Z B → cuts B xs = cuts B ys) :
    ∃ d outs d' outs', c.play ops (xs.map fun b => ([], b)) = some (d, outs) ∧ c'.play ops (ys.map fun b => ([], b)) = some (d', outs') ∧ SameSignal N outs outs' ∧
      Steady N M Good p d ∧ Steady N M Good p d' ∧ Both (fun _ => Rel) d.active d'.active := by
  cases ha : c.active with
  | none =>
    rw [ha] at hact
    exact ⟨c, xs, c', ys, dry_play _ _ h.fade ha, dry_play _ _ h'.fade hact.none_left, hs, h, h', by rw [ha, hact.none_left]; trivial⟩
  | some a =>
    rw [ha] at hact
    obtain ⟨a', ha', hid, hr⟩ := hact.some_left
    obtain ⟨d, v, o, e, f, sh, r, ed⟩ := idle_play hA xs c a h.ready h.fade ha fun b hb => (hx b hb).1
    obtain ⟨d', v', o', e', f', sh', r', ed'⟩ := idle_play hA ys c' a' h'.ready h'.fade ha' fun b hb => (hy b hb).1
    obtain ⟨q1, q2, _⟩ := hL.feed hr (fun b hb => (hx b hb).1) (fun b hb => (hy b hb).1) hs hZ f f'
    refine ⟨d, o, d', o', e, e', q2, ⟨r, h.set.same (settings_play _ e), ?_, ?_, ?_⟩, ⟨r', h'.set.same (settings_play _ e'), ?_, ?_, ?_⟩, ?_⟩
    · rw [ed]; exact h.fade
    · rw [ed]; exact h.pending
    · rw [ed]; exact h.rest
    · rw [ed']; exact h'.fade
    · rw [ed']; exact h'.pending
    · rw [ed']; exact h'.rest
    · rw [ed, ed']; exact ⟨hid, q1⟩

/-- A response arrives with a crossfade that is over when the signal is. -/
theorem crossfade_recut {ops : ConvOps V} {N M : ℕ} {Good : V → Prop} (hA : Accepts ops N Good) (hM : 0 < M) {Z : ℕ → Prop} {X : ℝ → Prop} {Rel : V → V → Prop} (hL : CutLaw ops N Z X Rel)
    {p : ProcSpec} {c c' : Model.Core V} (h : Steady N M Good p c) (h' : Steady N M Good p c') {a a' g g' : Held V} (ha : c.active = some a) (ha' : c'.active = some a')
    (hid : g.id = g'.id) (hra : Rel a.obj a'.obj) (hrg : Rel g.obj g'.obj) (hg : Good g.obj) (hg' : Good g'.obj) {xs ys : List Buf}
    (hk : c.chooseStrategy ops g.obj = .crossfade) (hl : c.fadeLength ops g.obj ≤ totalLen xs)
    (hx : ∀ b ∈ xs, b.ch = N ∧ b.n ≤ M) (hy : ∀ b ∈ ys, b.ch = N ∧ b.n ≤ M) (hs : SameSignal N xs ys) (hZ : ∀ B, Z B → cuts B xs = cuts B ys) :
    ∃ d outs d' outs', (c.service ops [g]).play ops (xs.map fun b => ([], b)) = some (d, outs) ∧ (c'.service ops [g']).play ops (ys.map fun b => ([], b)) = some (d', outs') ∧
      SameSignal N outs outs' ∧ Steady N M Good p d ∧ Steady N M Good p d' ∧ Both (fun _ => Rel) d.active d'.active := by
  have one : ∀ {c : Model.Core V} {a g : Held V} {xs : List Buf}, Steady N M Good p c → c.active = some a → Good g.obj → c.chooseStrategy ops g.obj = .crossfade →
      c.fadeLength ops g.obj ≤ totalLen xs → (∀ b ∈ xs, b.ch = N ∧ b.n ≤ M) →
      ∃ d outs a' olds blks' f' news, (c.service ops [g]).play ops (xs.map fun b => ([], b)) = some (d, outs) ∧ SameShape xs outs ∧
        feed ops.process a.obj xs = some (a', olds) ∧ SameSamples N xs blks' ∧ feed ops.process g.obj blks' = some (f', news) ∧
        (∀ ch < N, ∀ t < totalLen xs, (gainRule ops.gains).mix (c.fadeLength ops g.obj).toNat t (stream olds ch t) (stream news ch t) (stream outs ch t)) ∧
        Steady N M Good p d ∧ d.active = some ⟨g.id, f'⟩ := by
    intro c a g xs h ha hg hk hl hx
    have hsv : c.service ops [g] = ({ c with pending := none } : Model.Core V).beginFade ops g := by
      show (c.handle ops g).1 = _
      rw [handle_begin ha h.fade]
    have hR : Ready N M Good (c.service ops [g]) := h.ready.service (ops := ops) (by simpa using hg)
    have hR0 : Ready N M Good ({ c with pending := none } : Model.Core V) := ⟨h.ready.1, h.ready.2, fun _ hc => (by cases hc), h.ready.4, h.ready.5, h.ready.6, h.ready.7, h.ready.8⟩
    obtain ⟨hF, hFa, hFp⟩ := beginFade_at (ops := ops) (c := { c with pending := none }) hR0 h.rest (by show c.active ≠ none; rw [ha]; simp) g
    have hlen : ({ c with pending := none } : Model.Core V).fadeLength ops g.obj = c.fadeLength ops g.obj := rfl
    rw [← hsv] at hF hFa hFp
    rw [hlen] at hF
    have hkk : (c.service ops [g]).strategy = .crossfade := by rw [hsv]; exact hk
    obtain ⟨d, outs, a', olds, blks', f', news, e, sh, fa, hsm, ff, hm, r, fin⟩ := crossfade_full (gainRule_implements ops.gains) hA hM xs (c.service ops [g]) g a 0 hR hF hkk
      (by rw [hFa]; exact ha) hFp hx
    obtain ⟨e1, e2, e3, e4⟩ := fin (by omega)
    refine ⟨d, outs, a', olds, blks', f', news, e, sh, fa, hsm, ff, fun ch hc t ht => ?_, ⟨r, (h.set.same (settings_service c [g])).same (settings_play _ e), e2, e3, e4⟩, e1⟩
    have := hm ch hc t ht
    rwa [Nat.zero_add] at this
  have hfx := hL.fixed hrg
  have e1 : c'.chooseStrategy ops g'.obj = c.chooseStrategy ops g.obj := by
    unfold Model.Core.chooseStrategy
    rw [h.set.maxCrossfade, h'.set.maxCrossfade, hfx.1, hfx.2]
  have e2 : c'.fadeLength ops g'.obj = c.fadeLength ops g.obj := by
    unfold Model.Core.fadeLength
    rw [e1, h.set.lower, h'.set.lower, h.set.upper, h'.set.upper, h.set.inOut, h'.set.inOut, hfx.1]
  obtain ⟨d, outs, v, olds, bx, f, news, e, sh, fa, hsm, ff, hm, hd, hda⟩ := one h ha hg hk hl hx
  obtain ⟨d', outs', v', olds', by', f', news', e', sh', fa', hsm', ff', hm', hd', hda'⟩ := one (xs := ys) h' ha' hg' (by rw [e1, hk]) (by rw [e2, ← hs.1]; exact hl) hy
  obtain ⟨_, q2, _⟩ := hL.feed hra (fun b hb => (hx b hb).1) (fun b hb => (hy b hb).1) hs hZ fa fa'
  obtain ⟨k1, k2, k3⟩ := hL.feed hrg (sameSamples_ch hsm) (sameSamples_ch hsm')
    (SameSignal.trans (SameSignal.symm (sameSamples_signal hsm)) (SameSignal.trans hs (sameSamples_signal hsm')))
    (fun B hB => by rw [← cuts_lens (sameSamples_lens hsm), ← cuts_lens (sameSamples_lens hsm')]; exact hZ B hB) ff ff'
  refine ⟨d, outs, d', outs', e, e', ⟨?_, fun ch hc t => ?_⟩, hd, hd', ?_⟩
  · rw [sameShape_totalLen sh, sameShape_totalLen sh', hs.1]
  · by_cases ht : t < totalLen xs
    · have m1 := hm ch hc t ht
      have m2 := hm' ch hc t (by rw [← hs.1]; exact ht)
      rw [e2, ← q2.2 ch hc t, ← k2.2 ch hc t] at m2
      exact gainRule_mix hL (k3 ch hc t (by rw [SameSamples.totalLen hsm]; exact ht)) m1 m2
    · rw [stream_beyond _ _ _ (by rw [sameShape_totalLen sh]; omega), stream_beyond _ _ _ (by rw [sameShape_totalLen sh', ← hs.1]; omega)]
  · rw [hda, hda']
    exact ⟨hid, k1⟩

/-! ## Whole histories -/

/-- The blocks of a piece. -/
def FitsIn (N M : ℕ) : Piece → Prop
  | .play b bs => ∀ x ∈ b :: bs, x.ch = N ∧ x.n ≤ M
  | .other _ => True

/-- Nothing arrives, or a response that is crossfaded to while the signal is played. -/
inductive Arrives (ops : ConvOps V) (p : ProcSpec) (Good : V → Prop) (Rel : V → V → Prop) (x : Piece) : List (Held V) → List (Held V) → Prop
  | nothing : Arrives ops p Good Rel x [] []
  | response {g g' : Held V} {b : Buf} {bs : List Buf} (piece : x = .play b bs) (ids : g.id = g'.id) (rel : Rel g.obj g'.obj) (good : Good g.obj) (good' : Good g'.obj)
      (fade : ∀ c : Model.Core V, SetFor p c → c.chooseStrategy ops g.obj = .crossfade ∧ c.fadeLength ops g.obj ≤ totalLen (b :: bs)) : Arrives ops p Good Rel x [g] [g']

theorem Steady.head {N M : ℕ} {Good : V → Prop} {p : ProcSpec} {c : Model.Core V} (h : Steady N M Good p c) : Steady N M Good p c.resetFade :=
  ⟨h.ready.resetFade, h.set.same ⟨rfl, rfl, rfl, rfl, rfl⟩, h.fade, h.pending, resetFade_rest c⟩

theorem Steady.resetBody {ops : ConvOps V} {N M : ℕ} {Good : V → Prop} (hA : Accepts ops N Good) {p : ProcSpec} {c : Model.Core V} (h : Steady N M Good p c) :
    Steady N M Good p (c.resetBody ops).1 := by
  have hs := h.set.same (settings_resetBody (ops := ops) c)
  have hr := h.ready.resetBody hA
  rw [resetBody_plain h.pending h.fade] at hs hr ⊢
  exact ⟨hr, hs, h.fade, h.pending, h.rest⟩

theorem Steady.clearBody {ops : ConvOps V} {N M : ℕ} {Good : V → Prop} (hA : Accepts ops N Good) {p : ProcSpec} {c : Model.Core V} (h : Steady N M Good p c) :
    Steady N M Good p (c.clearBody ops).1 := by
  have hb := h.resetBody hA
  exact ⟨h.ready.clearBody hA, hb.set.same ⟨rfl, rfl, rfl, rfl, rfl⟩, hb.fade, rfl, hb.rest⟩

theorem perform_piece {ops : ConvOps V} (c : Model.Core V) (batch : List (Held V)) (b : Buf) (bs : List Buf) :
    perform ops c ((Piece.play b bs).calls batch) = (c.service ops batch).play ops ((b :: bs).map fun b => ([], b)) := by
  have e := perform_play ops ((batch, b) :: bs.map fun b => ([], b)) c
  rw [List.map_cons, List.map_map] at e
  exact e

theorem perform_single {ops : ConvOps V} {c d : Model.Core V} {batch : List (Held V)} {k : Call} {x : Model.Core.Effects V} (h : c.call ops batch k = some (d, x)) (ho : x.out = none) :
    perform ops c [(batch, k)] = some (d, []) := by
  rw [perform, h, Option.bind_some]
  simp [perform, ho]

theorem piece_recut {ops : ConvOps V} {N M : ℕ} {Good : V → Prop} (hA : Accepts ops N Good) (hM : 0 < M) {Z : ℕ → Prop} {X : ℝ → Prop} {Rel : V → V → Prop} (hL : CutLaw ops N Z X Rel)
    {p : ProcSpec} {c c' : Model.Core V} (h : Steady N M Good p c) (h' : Steady N M Good p c') (hact : Both (fun _ => Rel) c.active c'.active) {x y : Piece} {batch batch' : List (Held V)}
    (hx : FitsIn N M x) (hy : FitsIn N M y) (hb : Arrives ops p Good Rel x batch batch') (hxy : RecutBits N Z x y) :
    ∃ d outs d' outs', perform ops c (x.calls batch) = some (d, outs) ∧ perform ops c' (y.calls batch') = some (d', outs') ∧ SameSignal N outs outs' ∧
      Steady N M Good p d ∧ Steady N M Good p d' ∧ Both (fun _ => Rel) d.active d'.active := by
  have nil : SameSignal N ([] : List Buf) [] := SameSignal.refl _ _
  have hreset : Both (fun _ => Rel) (c.resetFade.resetBody ops).1.active (c'.resetFade.resetBody ops).1.active := by
    rw [resetBody_plain h.head.pending h.head.fade, resetBody_plain h'.head.pending h'.head.fade]
    show Both _ (c.active.map _) (c'.active.map _)
    cases ha : c.active with
    | none =>
      rw [ha] at hact
      rw [hact.none_left]
      trivial
    | some a =>
      rw [ha] at hact
      obtain ⟨a', ha', hid, hr⟩ := hact.some_left
      rw [ha']
      exact ⟨hid, hL.reset hr⟩
  cases hxy with
  | @play b b' bs bs' same pieces =>
    rw [perform_piece, perform_piece]
    cases hb with
    | nothing => exact play_recut hA hM hL h h' hact hx hy same pieces
    | @response g g' _ _ piece ids rel good good' fade =>
      cases piece
      cases ha : c.active with
      | none =>
        rw [ha] at hact
        have ha' := hact.none_left
        have e : c.service ops [g] = { c with active := some g } := by
          show (c.handle ops g).1 = _
          rw [handle_none ha]
        have e' : c'.service ops [g'] = { c' with active := some g' } := by
          show (c'.handle ops g').1 = _
          rw [handle_none ha']
        have s : Steady N M Good p (c.service ops [g]) :=
          ⟨h.ready.service (ops := ops) (by simpa using good), h.set.same (settings_service c [g]), by rw [e]; exact h.fade, by rw [e]; exact h.pending, by rw [e]; exact h.rest⟩
        have s' : Steady N M Good p (c'.service ops [g']) :=
          ⟨h'.ready.service (ops := ops) (by simpa using good'), h'.set.same (settings_service c' [g']), by rw [e']; exact h'.fade, by rw [e']; exact h'.pending, by rw [e']; exact h'.rest⟩
        exact play_recut hA hM hL s s' (by rw [e, e']; exact ⟨ids, rel⟩) hx hy same pieces
      | some a =>
        rw [ha] at hact
        obtain ⟨a', ha', _, hr⟩ := hact.some_left
        exact crossfade_recut hA hM hL h h' ha ha' ids hr rel good good' (fade c h.set).1 (fade c h.set).2 hx hy same pieces
  | reset =>
    cases hb with
    | nothing => exact ⟨_, [], _, [], perform_single (x := (c.resetFade.resetBody ops).2) rfl rfl, perform_single (x := (c'.resetFade.resetBody ops).2) rfl rfl, nil, h.head.resetBody hA, h'.head.resetBody hA, hreset⟩
    | response piece => cases piece
  | clear =>
    cases hb with
    | nothing => exact ⟨_, [], _, [], perform_single (x := (c.resetFade.clearBody ops).2) rfl rfl, perform_single (x := (c'.resetFade.clearBody ops).2) rfl rfl, nil, h.head.clearBody hA, h'.head.clearBody hA, trivial⟩
    | response piece => cases piece

theorem pieces_recut {ops : ConvOps V} {N M : ℕ} {Good : V → Prop} (hA : Accepts ops N Good) (hM : 0 < M) {Z : ℕ → Prop} {X : ℝ → Prop} {Rel : V → V → Prop} (hL : CutLaw ops N Z X Rel)
    {p : ProcSpec} {ps qs : List (List (Held V) × Piece)}
    (hs : List.Forall₂ (fun x y => FitsIn N M x.2 ∧ FitsIn N M y.2 ∧ Arrives ops p Good Rel x.2 x.1 y.1 ∧ RecutBits N Z x.2 y.2) ps qs) :
    ∀ {c c' : Model.Core V}, Steady N M Good p c → Steady N M Good p c' → Both (fun _ => Rel) c.active c'.active →
    ∃ d outs d' outs', perform ops c (pieced ps) = some (d, outs) ∧ perform ops c' (pieced qs) = some (d', outs') ∧ SameSignal N outs outs' := by
  induction hs with
  | nil => intro c c' _ _ _; exact ⟨c, [], c', [], rfl, rfl, SameSignal.refl _ _⟩
  | @cons x y ps qs hxy _ ih =>
    intro c c' h h' hact
    obtain ⟨d, o, d', o', e, e', s, k, k', ka⟩ := piece_recut hA hM hL h h' hact hxy.1 hxy.2.1 hxy.2.2.1 hxy.2.2.2
    obtain ⟨u, q, u', q', f, f', t⟩ := ih k k' ka
    refine ⟨u, o ++ q, u', o' ++ q', ?_, ?_, SameSignal.append s t⟩
    · rw [show pieced (x :: ps) = x.2.calls x.1 ++ pieced ps from List.flatMap_cons, perform_append, e, Option.bind_some, f]; rfl
    · rw [show pieced (y :: qs) = y.2.calls y.1 ++ pieced qs from List.flatMap_cons, perform_append, e', Option.bind_some, f']; rfl

theorem prepared_steady {ops : ConvOps V} {N : ℕ} {Good : V → Prop} (hA : Accepts ops N Good) {p : ProcSpec} (hp : ValidFormat N p) (g : ℕ → ℕ → ℝ) :
    ∃ c, perform ops {} [([], .prepare p g)] = some (c, []) ∧ Steady N p.maximumBlockSize Good p c ∧ c.active = none := by
  have hk : Known N Good (none : Option ℕ) ({} : Model.Core V) := ⟨⟨rfl, rfl, rfl⟩, rfl⟩
  obtain ⟨_, hr, _, _, hsp, _, _, hset⟩ := prepare_head hk hp g
  cases hsp
  have hst : Steady N p.maximumBlockSize Good p (({} : Model.Core V).callHead (.prepare p g)) := ⟨hr, hset, rfl, rfl, resetFade_rest _⟩
  refine ⟨((({} : Model.Core V).callHead (.prepare p g)).resetBody ops).1, perform_single (x := ((({} : Model.Core V).callHead (.prepare p g)).resetBody ops).2) rfl rfl, hst.resetBody hA, ?_⟩
  rw [resetBody_plain hst.pending hst.fade]
  rfl

end Zones.Proofs
