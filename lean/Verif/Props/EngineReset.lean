import Verif.Props.Engine
import Verif.Proofs.EngineKeeps
import Verif.Proofs.EngineStill

/-!
# Properties of the audio side of `ConvolutionEngine`: C38, C39, C42, C45

Transparency, steady state, `reset`, `prepare` and `Clear`.
-/

open Zones.Spec Zones.Model Zones.Proofs

namespace Zones.Props

variable {V : Type}

/-! ## C42 -/

theorem empty_play (ops : ConvOps V) : ∀ (blocks : List Buf) (c : Core V), c.active = none → c.fade = none →
    c.play ops (quietly blocks) = some (c, blocks)
  | [], c, _, _ => rfl
  | b :: bs, c, ha, hf => by
    have e : c.processBody ops b = some (c, { out := some b }) := by
      rw [processBody_none hf, ha]
      show some (({ c with active := none } : Core V), _) = _
      rw [← ha]
    exact play_cons (batch := []) e rfl (empty_play ops bs c ha hf)

theorem empty_call {ops : ConvOps V} {c : Core V} (h : c.active = none ∧ c.fade = none ∧ c.pending = none) (k : Call) {r : Core V × Core.Effects V}
    (e : c.call ops [] k = some r) : r.1.active = none ∧ r.1.fade = none ∧ r.1.pending = none := by
  cases k with
  | process blk =>
    have : c.processBody ops blk = some r := e
    rw [processBody_none h.2.1, h.1] at this
    cases this
    exact ⟨rfl, h.2⟩
  | reset =>
    cases e
    show (c.resetFade.resetBody ops).1.active = none ∧ (c.resetFade.resetBody ops).1.fade = none ∧ (c.resetFade.resetBody ops).1.pending = none
    rw [resetBody_plain (c := c.resetFade) h.2.2 h.2.1]
    refine ⟨?_, h.2⟩
    show c.active.map _ = none
    rw [h.1]; rfl
  | clear =>
    cases e
    show (c.resetFade.clearBody ops).1.active = none ∧ (c.resetFade.clearBody ops).1.fade = none ∧ (c.resetFade.clearBody ops).1.pending = none
    unfold Core.clearBody
    rw [resetBody_plain (c := c.resetFade) h.2.2 h.2.1]
    exact ⟨rfl, h.2.1, rfl⟩
  | prepare p g =>
    cases e
    show ((c.prepareHead p g).resetFade.resetBody ops).1.active = none ∧ ((c.prepareHead p g).resetFade.resetBody ops).1.fade = none ∧
      ((c.prepareHead p g).resetFade.resetBody ops).1.pending = none
    rw [resetBody_plain (c := (c.prepareHead p g).resetFade) h.2.2 h.2.1]
    refine ⟨?_, h.2⟩
    show c.active.map _ = none
    rw [h.1]; rfl

/-- **C42.** As long as no response has arrived, whatever else was called, the engine leaves every block as it is. -/
theorem C42_transparent_without_response (ops : ConvOps V) {hist : List (List (Held V) × Call)} {c : Core V}
    (h : ({} : Core V).calls ops hist = some c) (hb : ∀ b ∈ hist, b.1 = []) (blocks : List Buf) :
    c.play ops (quietly blocks) = some (c, blocks) := by
  have key : ∀ (hist : List (List (Held V) × Call)) (c0 : Core V), c0.active = none ∧ c0.fade = none ∧ c0.pending = none →
      c0.calls ops hist = some c → (∀ b ∈ hist, b.1 = []) → c.active = none ∧ c.fade = none ∧ c.pending = none := by
    intro hist
    induction hist with
    | nil => intro c0 h0 e _; cases e; exact h0
    | cons b rest ih =>
      intro c0 h0 e hb
      obtain ⟨batch, k⟩ := b
      obtain rfl : batch = [] := hb (batch, k) (by simp)
      unfold Core.calls at e
      cases hc : c0.call ops [] k with
      | none => simp only [hc] at e; cases e
      | some r =>
        simp only [hc, Option.bind_some] at e
        exact ih r.1 (empty_call h0 k hc) e fun b hb' => hb b (by simp [hb'])
  obtain ⟨h1, h2, _⟩ := key hist {} ⟨rfl, rfl, rfl⟩ h hb
  exact empty_play ops blocks c h1 h2

/-! ## C45 -/

/-- **C45.** When nothing is fading and nothing arrives, the engine is its active convolver: same output, whatever the block
sizes, and the convolver has then processed exactly these blocks. -/
theorem C45_steady_state {ops : ConvOps V} {N : ℕ} {Good : V → Prop} (hA : Accepts ops N Good)
    {hist : List (List (Held V) × Call)} {c : Core V} (h : Reaches ops N Good hist c) {p : ProcSpec} (hp : c.spec = some p)
    (hf : c.fade = none) {a : Held V} (ha : c.active = some a) (blocks : List Buf) (hb : ∀ b ∈ blocks, b.ch = N) :
    ∃ c' a' outs, c.play ops (quietly blocks) = some (c', outs) ∧ feed ops.process a.obj blocks = some (a', outs) ∧
      SameShape blocks outs ∧ c'.active = some ⟨a.id, a'⟩ ∧ c'.fade = none := by
  obtain ⟨_, hR, _⟩ := known_of_reaches hA h hp
  obtain ⟨c', a', outs, e1, e2, sh, _, ec⟩ := idle_play hA blocks c a hR hf ha hb
  subst ec
  exact ⟨_, a', outs, e1, e2, sh, rfl, hf⟩

/-- Every response of a history is a new convolver for the impulse response and specification `irs`, `specs` assign to it. -/
def BuiltFor (F : RealFFT) (N : ℕ) (irs : ℕ → Buf) (maxBs : ℕ → ℕ) (specs : ℕ → ConvolverSpec) (hist : List (List (Held Convolver) × Call)) : Prop :=
  ∀ b ∈ hist, ∀ g ∈ b.1, Usable (irs g.id) (maxBs g.id) (specs g.id) N ∧ Fresh F (irs g.id) (maxBs g.id) (specs g.id) N g.obj

/-- A convolver for response `i`, whatever it has heard. -/
def InUse (F : RealFFT) (N : ℕ) (irs : ℕ → Buf) (maxBs : ℕ → ℕ) (specs : ℕ → ConvolverSpec) (i : ℕ) (v : Convolver) : Prop :=
  Usable (irs i) (maxBs i) (specs i) N ∧ ∃ past, Heard F (irs i) (maxBs i) (specs i) N past v

theorem inUse_lasting {F : RealFFT} (hF : Lawful F) (N : ℕ) (irs : ℕ → Buf) (maxBs : ℕ → ℕ) (specs : ℕ → ConvolverSpec) :
    Lasting (convolverOps F) N (InUse F N irs maxBs specs) := by
  constructor
  · rintro i v blk v' o ⟨hU, past, hH⟩ hb e
    obtain ⟨v2, outs, e2, _, hh, _⟩ := Heard_feed hF hU hH [blk] (by simpa using hb)
    have e' : Convolver.process F v blk = some (v', o) := e
    rw [Spec.feed, e', Option.bind_some, Spec.feed] at e2
    cases e2
    exact ⟨hU, _, hh⟩
  · rintro i v ⟨hU, past, hH⟩
    exact ⟨hU, [], Heard_fresh (Heard_reset hH)⟩

theorem keeps_of_reaches {F : RealFFT} (hF : Lawful F) {N : ℕ} {irs : ℕ → Buf} {maxBs : ℕ → ℕ} {specs : ℕ → ConvolverSpec}
    {hist : List (List (Held Convolver) × Call)} (hB : BuiltFor F N irs maxBs specs hist) {c : Core Convolver}
    (h : Reaches (convolverOps F) N (Serves F N) hist c) : Keeps (InUse F N irs maxBs specs) c :=
  calls_keeps (accepts_convolver hF N) (inUse_lasting hF N irs maxBs specs) hist none {} c (start_known N _) h.1
    ⟨fun x hx => (by cases hx), fun x hx => (by cases hx), fun x hx => (by cases hx)⟩
    (fun b hb g hg => ⟨(hB b hb g hg).1, [], Heard_fresh (hB b hb g hg).2⟩) h.2

theorem play_calls {ops : ConvOps V} : ∀ (bs : List (List (Held V) × Buf)) {c c' : Core V} {outs : List Buf}, c.play ops bs = some (c', outs) →
    c.calls ops (bs.map fun b => (b.1, .process b.2)) = some c'
  | [], c, c', outs, e => by cases e; rfl
  | b :: bs, c, c', outs, e => by
    unfold Core.play at e
    rw [List.map_cons, Core.calls]
    cases hc : c.call ops b.1 (.process b.2) with
    | none => rw [hc] at e; cases e
    | some r =>
      rw [hc, Option.bind_some] at e
      rw [Option.bind_some]
      cases hq : r.1.play ops bs with
      | none => rw [hq] at e; cases e
      | some q =>
        rw [hq] at e
        cases e
        exact play_calls bs hq

theorem calls_append {ops : ConvOps V} : ∀ (xs ys : List (List (Held V) × Call)) (c : Core V),
    c.calls ops (xs ++ ys) = (c.calls ops xs).bind fun c' => c'.calls ops ys
  | [], ys, c => rfl
  | x :: xs, ys, c => by
    rw [List.cons_append, Core.calls, Core.calls]
    cases c.call ops x.1 x.2 with
    | none => rfl
    | some r => simp only [Option.bind_some]; exact calls_append xs ys r.1

theorem play_append {ops : ConvOps V} : ∀ (xs ys : List (List (Held V) × Buf)) {c c1 c2 : Core V} {o1 o2 : List Buf},
    c.play ops xs = some (c1, o1) → c1.play ops ys = some (c2, o2) → c.play ops (xs ++ ys) = some (c2, o1 ++ o2)
  | [], ys, c, c1, c2, o1, o2, e1, e2 => by cases e1; exact e2
  | x :: xs, ys, c, c1, c2, o1, o2, e1, e2 => by
    rw [List.cons_append]
    unfold Core.play at e1 ⊢
    cases hc : c.call ops x.1 (.process x.2) with
    | none => rw [hc] at e1; cases e1
    | some r =>
      rw [hc, Option.bind_some] at e1
      rw [Option.bind_some]
      cases hq : r.1.play ops xs with
      | none => rw [hq] at e1; cases e1
      | some q =>
        rw [hq] at e1
        simp only [Option.map_some, Option.some.injEq, Prod.mk.injEq] at e1
        obtain ⟨rfl, rfl⟩ := e1
        rw [play_append xs ys hq e2]
        simp only [Option.map_some, List.append_assoc]

theorem totalLen_append (xs ys : List Buf) : totalLen (xs ++ ys) = totalLen xs + totalLen ys := by
  induction xs with
  | nil => simp [totalLen]
  | cons x xs ih => simp only [List.cons_append, totalLen, ih]; omega

theorem stream_append_right (xs ys : List Buf) (ch t : ℕ) : stream (xs ++ ys) ch (totalLen xs + t) = stream ys ch t := by
  induction xs with
  | nil => simp [totalLen]
  | cons x xs ih =>
    simp only [List.cons_append, stream, totalLen]
    rw [if_neg (by omega), show x.n + totalLen xs + t - x.n = totalLen xs + t by omega]
    exact ih

theorem sameShape_totalLen {xs ys : List Buf} (h : SameShape xs ys) : totalLen ys = totalLen xs := by
  induction h with
  | nil => rfl
  | cons h _ ih => simp only [totalLen, ih, h.2]

/-- A response of `ir.n` samples only remembers the last `ir.n` samples. -/
theorem routedConv_tail {ir : Buf} {a b : List ℤ} {x y : ℕ → ℕ → ℝ} {o T S t : ℕ} (h : ∀ ch m, x ch (T + m) = y ch (S + m)) (ht : ir.n ≤ t + 1) :
    routedConv ir a b x o (T + t) = routedConv ir a b y o (S + t) := by
  unfold routedConv linConv
  refine Finset.sum_congr rfl fun c _ => ?_
  split
  · refine Finset.sum_congr rfl fun k hk => ?_
    rw [Finset.mem_range] at hk
    rw [if_pos (by omega), if_pos (by omega), show T + t - k = T + (t - k) by omega, show S + t - k = S + (t - k) by omega, h]
  · rfl

/-- **C45.** The end-to-end guarantee. Whatever happened before (any number of responses, resets, prepares, clears, as long as
no reset hit a waiting response): if response `i` was the last to arrive, then after the fades and one more length of the response,
every output sample is exactly the convolution of the input with impulse response `i`, whatever the block sizes. -/
theorem C45_converges_to_newest {F : RealFFT} (hF : Lawful F) {N : ℕ} {irs : ℕ → Buf} {maxBs : ℕ → ℕ} {specs : ℕ → ConvolverSpec}
    {hist : List (List (Held Convolver) × Call)} (hB : BuiltFor F N irs maxBs specs hist) {c : Core Convolver}
    (h : Reaches (convolverOps F) N (Serves F N) hist c) (hq : NoResetWhileQueued (convolverOps F) {} hist)
    {p : ProcSpec} (hp : c.spec = some p) {i : ℕ} (hi : lastDelivered none hist = some i)
    (blocks more : List Buf) (hb : ∀ b ∈ blocks ++ more, b.ch = N ∧ b.n ≤ p.maximumBlockSize)
    (hlen : 4 * ((ceilTimes kUpperFadeTimeS p.sampleRate).toNat + p.maximumBlockSize) ≤ totalLen blocks) :
    ∃ c' outs, c.play (convolverOps F) (quietly (blocks ++ more)) = some (c', outs) ∧ SameShape more (outs.drop blocks.length) ∧
      ∀ o < N, ∀ t, t < totalLen more → (irs i).n ≤ t + 1 →
        stream (outs.drop blocks.length) o t =
          routedConv (irs i) (specs i).inputRouting (specs i).outputRouting (stream (blocks ++ more)) o (totalLen blocks + t) := by
  have hA := accepts_convolver hF N
  have hb1 : ∀ b ∈ blocks, b.ch = N ∧ b.n ≤ p.maximumBlockSize := fun b hb' => hb b (by simp [hb'])
  obtain ⟨h1, h2, h3, h4, h5⟩ := known_of_reaches hA h hp
  obtain ⟨c0, M0, e0, hk0, ht⟩ := calls_known hA hist none {} (start_known N (Serves F N)) h.1
  rw [h.2] at e0
  cases e0
  have ht := ht none start_tracks hq
  have hrem := remaining_within (ops := convolverOps F) h2 h3
  rw [h5.upper] at hrem
  obtain ⟨c1, o1, e1, hr1, hw1, hn1, hf1, hp1⟩ := settle hA h1 blocks c h2 h3 hb1 (by omega)
  have hk1 := keeps_of_reaches hF hB h
  have hk : Known N (Serves F N) (some p.maximumBlockSize) c := ⟨h1, h2, h3, p, hp, rfl, h4, h5⟩
  have hwf : ∀ bl : List Buf, (∀ b ∈ bl, b.ch = N ∧ b.n ≤ p.maximumBlockSize) →
      WellFormed N (Serves F N) (some p.maximumBlockSize) ((quietly bl).map fun b => (b.1, Call.process b.2)) := by
    intro bl
    induction bl with
    | nil => intro _; trivial
    | cons b bl ih =>
      intro hb
      refine ⟨fun _ hg => (by cases hg), fun hm => (by cases hm), (hb b (by simp)).1, ?_, ih fun b' hb' => hb b' (by simp [hb'])⟩
      intro m hm
      cases hm
      exact (hb b (by simp)).2
  have hk2 := calls_keeps hA (inUse_lasting hF N irs maxBs specs) _ (some p.maximumBlockSize) c c1 hk (hwf blocks hb1) hk1 (by
    intro b hb' g hg
    rw [List.mem_map] at hb'
    obtain ⟨x, hx, rfl⟩ := hb'
    rw [List.mem_map] at hx
    obtain ⟨y, _, rfl⟩ := hx
    cases hg) (play_calls _ e1)
  have hact : c1.active.map Held.id = some i := by
    have h0 : newest c = some i := by rw [ht.1, hi]
    rw [← hn1] at h0
    unfold newest at h0
    rw [hf1, hp1] at h0
    exact h0
  cases ha : c1.active with
  | none => rw [ha] at hact; cases hact
  | some a =>
    rw [ha] at hact
    cases hact
    obtain ⟨hU, past, hH⟩ := hk2.1 a ha
    have hb2 : ∀ b ∈ more, b.ch = N := fun b hb' => (hb b (by simp [hb'])).1
    obtain ⟨c2, a2, o2, e2, ef, sh, _, _⟩ := idle_play hA more c1 a hr1 hf1 ha hb2
    obtain ⟨v', outs', ef', _, _, hd⟩ := Heard_feed hF hU hH more hb2
    have ef0 : Spec.feed (Convolver.process F) a.obj more = some (a2, o2) := ef
    rw [ef0] at ef'
    cases ef'
    have hl1 : o1.length = blocks.length := by
      have : ∀ (bl : List Buf) (c c' : Core Convolver) (o : List Buf), (∀ b ∈ bl, b.ch = N ∧ b.n ≤ p.maximumBlockSize) →
          Ready N p.maximumBlockSize (Serves F N) c → Within c → c.play (convolverOps F) (quietly bl) = some (c', o) → o.length = bl.length := by
        intro bl
        induction bl with
        | nil => intro c c' o _ _ _ e; cases e; rfl
        | cons b bl ih =>
          intro c c' o hbb hr hw e
          obtain ⟨c3, e3, out, ep, eo, _, _, r3, w3, _⟩ := process_any hA hr hw (hbb b (by simp)).1 (hbb b (by simp)).2 h1
          have e' : ((c.processBody (convolverOps F) b).bind fun r =>
            (r.1.play (convolverOps F) (quietly bl)).map fun q => (q.1, r.2.out.toList ++ q.2)) = some (c', o) := e
          rw [ep, Option.bind_some] at e'
          cases hq : c3.play (convolverOps F) (quietly bl) with
          | none => simp only [hq] at e'; cases e'
          | some q =>
            simp only [hq, eo, Option.map_some, Option.some.injEq, Prod.mk.injEq] at e'
            rw [← e'.2]
            have := ih c3 q.1 q.2 (fun b' hb' => hbb b' (by simp [hb'])) r3 w3 hq
            simp [this]
      exact this blocks c c1 o1 hb1 h2 h3 e1
    refine ⟨c2, o1 ++ o2, ?_, ?_, ?_⟩
    · rw [show quietly (blocks ++ more) = quietly blocks ++ quietly more from List.map_append]
      exact play_append _ _ e1 e2
    · rw [← hl1, List.drop_left]
      exact sh
    · intro o ho t ht' hn
      rw [← hl1, List.drop_left, hd o ho t ht']
      exact routedConv_tail (fun ch m => by rw [stream_append_right, stream_append_right]) hn

/-! ## C38 -/

/-- The last call of a history, if it is a `reset` or a `prepare` that doesn't find a response waiting. -/
theorem reset_split {ops : ConvOps V} {hist : List (List (Held V) × Call)} {batch : List (Held V)} {k : Call}
    (hk : ∀ blk, k ≠ .process blk) (hk' : k ≠ .clear) {c : Core V} (h : ({} : Core V).calls ops (hist ++ [(batch, k)]) = some c)
    (hq : NoResetWhileQueued ops {} (hist ++ [(batch, k)])) :
    ∃ c1, ({} : Core V).calls ops hist = some c1 ∧ c = (((c1.callHead k).service ops batch).resetBody ops).1 ∧ c.fade = none ∧ c.pending = none ∧
      ∀ a, c.active = some a → ∃ x, (((c1.callHead k).service ops batch).active = some x ∨ ((c1.callHead k).service ops batch).fade = some x) ∧
        a.id = x.id ∧ a.obj = ops.reset x.obj := by
  rw [calls_append] at h
  cases hc : ({} : Core V).calls ops hist with
  | none => rw [hc] at h; cases h
  | some c1 =>
    rw [hc, Option.bind_some, Core.calls] at h
    have hpend : ((c1.callHead k).service ops batch).pending = none := by
      have key : ∀ (hist : List (List (Held V) × Call)) (c0 : Core V), NoResetWhileQueued ops c0 (hist ++ [(batch, k)]) →
          c0.calls ops hist = some c1 → ((c1.callHead k).service ops batch).pending = none := by
        intro hist
        induction hist with
        | nil => intro c0 hn e; cases e; exact hn.1 hk
        | cons b rest ih =>
          intro c0 hn e
          rw [Core.calls] at e
          cases hr : c0.call ops b.1 b.2 with
          | none => rw [hr] at e; cases e
          | some r =>
            rw [hr, Option.bind_some] at e
            exact ih r.1 (hn.2 r hr) e
      exact key hist {} hq hc
    have eb : c = (((c1.callHead k).service ops batch).resetBody ops).1 := by
      cases k with
      | process blk => exact absurd rfl (hk blk)
      | clear => exact absurd rfl hk'
      | reset => cases h; rfl
      | prepare p g => cases h; rfl
    refine ⟨c1, rfl, eb, ?_⟩
    generalize (c1.callHead k).service ops batch = s at eb hpend
    cases hf : s.fade with
    | some f =>
      rw [resetBody_fade hpend hf] at eb
      subst eb
      exact ⟨rfl, hpend, fun a ha => by cases ha; exact ⟨f, Or.inr rfl, rfl, rfl⟩⟩
    | none =>
      rw [resetBody_plain hpend hf] at eb
      subst eb
      refine ⟨hf, hpend, fun a ha => ?_⟩
      cases hsa : s.active with
      | none => simp only [hsa] at ha; cases ha
      | some x =>
        simp only [hsa, Option.map_some, Option.some.injEq] at ha
        subst ha
        exact ⟨x, Or.inl rfl, rfl, rfl⟩

/-- **C38.** After `reset` or `prepare` the response delivered last plays alone, and its convolver has been reset. (If the call did
not find one response fading in and another one waiting; see `C38_reset_while_queued`.) -/
theorem C38_reset_restarts_newest {ops : ConvOps V} {N : ℕ} {Good : V → Prop} (hA : Accepts ops N Good)
    {hist : List (List (Held V) × Call)} {batch : List (Held V)} {k : Call} (hk : ∀ blk, k ≠ .process blk) (hk' : k ≠ .clear) {c : Core V}
    (h : Reaches ops N Good (hist ++ [(batch, k)]) c) (hq : NoResetWhileQueued ops {} (hist ++ [(batch, k)])) :
    slotIds c = (lastDelivered none (hist ++ [(batch, k)]), none, none) ∧ ∀ a, c.active = some a → ∃ v, a.obj = ops.reset v := by
  obtain ⟨c0, M0, e0, hk0, ht⟩ := calls_known hA _ none {} (start_known N Good) h.1
  rw [h.2] at e0
  cases e0
  have ht := ht none start_tracks hq
  obtain ⟨c1, _, _, hf, hp, hx⟩ := reset_split hk hk' h.2 hq
  refine ⟨?_, fun a ha => ?_⟩
  · have := ht.1
    unfold newest at this
    unfold slotIds
    rw [hf, hp] at this ⊢
    rw [← this]
    rfl
  · obtain ⟨x, _, _, e⟩ := hx a ha
    exact ⟨_, e⟩

theorem wellFormed_prefix {N : ℕ} {Good : V → Prop} : ∀ (xs ys : List (List (Held V) × Call)) (M : Option ℕ),
    WellFormed N Good M (xs ++ ys) → WellFormed N Good M xs
  | [], _, _, _ => trivial
  | (batch, k) :: xs, ys, M, h => by
    obtain ⟨h1, h2, h3⟩ := h
    refine ⟨h1, h2, ?_⟩
    cases k with
    | process blk => exact ⟨h3.1, h3.2.1, wellFormed_prefix xs ys M h3.2.2⟩
    | reset => exact wellFormed_prefix xs ys M h3
    | clear => exact wellFormed_prefix xs ys M h3
    | prepare p g => exact ⟨h3.1, wellFormed_prefix xs ys _ h3.2⟩

/-- **C38.** For the real convolver: from then on the output is exactly the convolution of the input since the `reset` with the
newest impulse response, as if nothing had been played before. -/
theorem C38_reset_exact {F : RealFFT} (hF : Lawful F) {N : ℕ} {irs : ℕ → Buf} {maxBs : ℕ → ℕ} {specs : ℕ → ConvolverSpec}
    {hist : List (List (Held Convolver) × Call)} {batch : List (Held Convolver)} {k : Call} (hk : ∀ blk, k ≠ .process blk) (hk' : k ≠ .clear)
    (hB : BuiltFor F N irs maxBs specs (hist ++ [(batch, k)])) {c : Core Convolver}
    (h : Reaches (convolverOps F) N (Serves F N) (hist ++ [(batch, k)]) c) (hq : NoResetWhileQueued (convolverOps F) {} (hist ++ [(batch, k)]))
    {p : ProcSpec} (hp : c.spec = some p) {i : ℕ} (hi : lastDelivered none (hist ++ [(batch, k)]) = some i) (blocks : List Buf) (hb : ∀ b ∈ blocks, b.ch = N) :
    ∃ c' outs, c.play (convolverOps F) (quietly blocks) = some (c', outs) ∧ SameShape blocks outs ∧
      ∀ o < N, ∀ t < totalLen blocks, stream outs o t =
        routedConv (irs i) (specs i).inputRouting (specs i).outputRouting (stream blocks) o t := by
  have hA := accepts_convolver hF N
  obtain ⟨hsl, hres⟩ := C38_reset_restarts_newest hA hk hk' h hq
  rw [hi] at hsl
  have hsl' := hsl
  unfold slotIds at hsl'
  simp only [Prod.mk.injEq, Option.map_eq_none_iff] at hsl'
  obtain ⟨h1, h2, h3⟩ := hsl'
  obtain ⟨c1, ec1, _, _, _, hx⟩ := reset_split hk hk' h.2 hq
  cases ha : c.active with
  | none => rw [ha] at h1; cases h1
  | some a =>
    rw [ha] at h1
    cases h1
    obtain ⟨x, hxs, hid, hobj⟩ := hx a ha
    have hk1 : Keeps (InUse F N irs maxBs specs) c1 :=
      keeps_of_reaches hF (fun b hb' => hB b (by simp [hb'])) ⟨wellFormed_prefix hist [(batch, k)] none h.1, ec1⟩
    have hk2 : Keeps (InUse F N irs maxBs specs) ((c1.callHead k).service (convolverOps F) batch) := by
      refine Keeps.service batch ?_ fun g hg => ?_
      · cases k <;> exact hk1
      · have := hB (batch, k) (by simp) g hg
        exact ⟨this.1, [], Heard_fresh this.2⟩
    have hP : InUse F N irs maxBs specs x.id x.obj := by
      rcases hxs with hxs | hxs
      · exact hk2.1 x hxs
      · exact hk2.2.1 x hxs
    obtain ⟨hU, past, hH⟩ := hP
    rw [← hid] at hU hH
    obtain ⟨c', a', outs, e1, e2, sh, _⟩ := C45_steady_state hA h hp h2 ha blocks hb
    have hfresh : Fresh F (irs a.id) (maxBs a.id) (specs a.id) N a.obj := by
      rw [hobj]
      exact Heard_reset hH
    obtain ⟨v', outs', ef', _, _, hd⟩ := Heard_feed hF hU (Heard_fresh hfresh) blocks hb
    have e3 : Spec.feed (Convolver.process F) a.obj blocks = some (a', outs) := e2
    rw [e3] at ef'
    cases ef'
    exact ⟨c', outs, e1, sh, fun o ho t ht => by
      have := hd o ho t ht
      simpa [totalLen] using this⟩

/-- **C38, what the code does otherwise.** If `reset` finds `f` fading in and `q` waiting, it makes `q` the playing response but
leaves `f` in place: the very next block ends that "fade", disposes of the newest response `q`, and the older `f` plays from then on.
That block contains what `q` makes of it, or silence if the fade was an in/out fade. -/
theorem C38_reset_while_queued {ops : ConvOps V} (hgain : ops.gains = .exact) {N : ℕ} {Good : V → Prop} (hA : Accepts ops N Good)
    {hist : List (List (Held V) × Call)} {c : Core V} (h : Reaches ops N Good hist c) {p : ProcSpec} (hp : c.spec = some p)
    {f q : Held V} (hf : c.fade = some f) (hq : c.pending = some q) {blk : Buf} (hb : blk.ch = N) (hn : blk.n ≤ p.maximumBlockSize) :
    ∃ c1 e1 c2 e2 out, c.call ops [] .reset = some (c1, e1) ∧ slotIds c1 = (some q.id, some f.id, none) ∧
      c1.call ops [] (.process blk) = some (c2, e2) ∧ slotIds c2 = (some f.id, none, none) ∧ e2.out = some out ∧
      (c.strategy = .crossfade → ∃ q' o, ops.process (ops.reset q.obj) blk = some (q', o) ∧ ∀ ch < N, ∀ i < blk.n, out.data ch i = o.data ch i) ∧
      (c.strategy = .inOut → ∀ ch < N, ∀ i < blk.n, out.data ch i = 0) := by
  obtain ⟨hM, hR, _⟩ := known_of_reaches hA h hp
  have e : c.call ops [] .reset = some (c.resetFade.resetBody ops) := rfl
  have hR1 := hR.resetFade.resetBody hA
  rw [resetBody_pending (c := c.resetFade) hq] at e hR1
  obtain ⟨c2, e2, out, f', ep, eo, oc, on, _, _, ha, hid, hf2, hp2, _, hx, hy⟩ :=
    still_block hA hM hR1 (f := f) hf (resetFade_rest c).2.2.1 (resetFade_rest c).2.2.2.2.2 rfl hb hn
  refine ⟨_, _, c2, e2, out, e, ?_, ep, ?_, eo, ?_, ?_⟩
  · show (some q.id, c.fade.map Held.id, none) = _
    rw [hf]; rfl
  · unfold slotIds
    rw [ha, hf2, hp2]
    simp [hid]
  · intro hs
    obtain ⟨a', old, fb, new, er, _, _, hd⟩ := hx hs
    have er' : (Core.runHeld ops ⟨q.id, ops.reset q.obj⟩ blk).map (fun r => (some r.1, r.2)) = some (a', old) := er
    unfold Core.runHeld at er'
    cases hpr : ops.process (ops.reset q.obj) blk with
    | none => simp only [hpr] at er'; cases er'
    | some r =>
      simp only [hpr] at er'
      cases er'
      refine ⟨r.1, r.2, rfl, fun ch hc i hi => ?_⟩
      rw [hd ch hc i hi]
      rw [hgain]
      show _ * (1 : ℝ) + _ * (0 : ℝ) = _
      simp
  · intro hs ch hc i hi
    obtain ⟨new, _, hd⟩ := hy hs
    rw [hd ch hc i hi]
    rw [hgain]
    show _ * (0 : ℝ) = _
    simp

/-- **C33, what the code does after a `reset` that picks up a response.** If `reset` finds a response `h` in the queue while another
one is playing, then `h` plays, but the next response `g` replaces it within one block, without any fade: that block
is exactly what `g` makes of it. -/
theorem C33_hard_switch_after_reset {ops : ConvOps V} (hgain : ops.gains = .exact) {N : ℕ} {Good : V → Prop} (hA : Accepts ops N Good)
    {hist : List (List (Held V) × Call)} {c : Core V} (h : Reaches ops N Good hist c) {p : ProcSpec} (hp : c.spec = some p)
    {a x g : Held V} (ha : c.active = some a) (hf : c.fade = none) (hx : Good x.obj) (hg : Good g.obj)
    {blk : Buf} (hb : blk.ch = N) (hn : blk.n ≤ p.maximumBlockSize) :
    ∃ c1 e1 c2 e2 out g' new blk', c.call ops [x] .reset = some (c1, e1) ∧ slotIds c1 = (some x.id, none, none) ∧
      c1.call ops [g] (.process blk) = some (c2, e2) ∧ slotIds c2 = (some g.id, none, none) ∧ e2.out = some out ∧
      SameSamples N [blk] [blk'] ∧ ops.process g.obj blk' = some (g', new) ∧ ∀ ch < N, ∀ i < blk.n, out.data ch i = new.data ch i := by
  obtain ⟨hM, hR, hW, _⟩ := known_of_reaches hA h hp
  have hpd : c.pending = none := by
    cases hc : c.pending with
    | none => rfl
    | some y => exact absurd hf (hW.waiting (by rw [hc]; simp))
  obtain ⟨h1, h2, h3, h4, _⟩ := first_fade (ops := ops) hR.resetFade (resetFade_rest c) hf hpd ha hx
  have e : c.call ops [x] .reset = some ((c.resetFade.service ops [x]).resetBody ops) := rfl
  have hR1 := h1.resetBody hA
  rw [resetBody_fade h4 h2.slot] at e hR1
  generalize hs : c.resetFade.service ops [x] = s at *
  generalize hc1 : ({ s with
      fadeBuf := s.fadeBuf.clear
      active := some ⟨x.id, ops.reset x.obj⟩
      fade := none } : Core V) = c1 at *
  have ha1 : c1.active = some ⟨x.id, ops.reset x.obj⟩ := by rw [← hc1]
  have hf1 : c1.fade = none := by rw [← hc1]
  have hp1 : c1.pending = none := by rw [← hc1]; exact h4
  have hi1 : c1.sIn.target = 1 := by rw [← hc1]; show s.sIn.target = 1; rw [h2.sIn]; rfl
  have ho1 : c1.sOut.target = 0 := by rw [← hc1]; show s.sOut.target = 0; rw [h2.sOut]; rfl
  have e2 : c1.service ops [g] = ({ c1 with pending := none } : Core V).beginFade ops g := by
    show (c1.handle ops g).1 = _
    rw [handle_begin ha1 hf1]
  have hsame : ∀ (s : Smooth) (n : ℤ) (v : ℝ), s.target = v → ((s.reset n).setTarget ops.gains v).countdown = 0 ∧ ((s.reset n).setTarget ops.gains v).target = v := by
    intro s n v hv
    have : (s.reset n).target = s.target := rfl
    unfold Smooth.setTarget
    rw [if_pos (by rw [this, hv])]
    exact ⟨rfl, hv⟩
  have hR2 : Ready N p.maximumBlockSize Good (c1.service ops [g]) := hR1.service (by simpa using hg)
  have hi2 : (c1.service ops [g]).sIn.countdown = 0 ∧ (c1.service ops [g]).sIn.target = 1 := by
    rw [e2]
    exact hsame c1.sIn _ 1 hi1
  have ho2 : (c1.service ops [g]).sOut.countdown = 0 ∧ (c1.service ops [g]).sOut.target = 0 := by
    rw [e2]
    exact hsame c1.sOut _ 0 ho1
  obtain ⟨c2, e3, out, f', ep, eo, oc, on, _, _, ha2, hid, hf2, hp2, _, hcr, hio⟩ :=
    still_block hA hM hR2 (f := g) (by rw [e2]; rfl) hi2.1 ho2.1 (by rw [e2]; rfl) hb hn
  have key : ∃ new blk', SameSamples N [blk] [blk'] ∧ ops.process g.obj blk' = some (f'.obj, new) ∧
      ∀ ch < N, ∀ i < blk.n, out.data ch i = new.data ch i := by
    cases hst : (c1.service ops [g]).strategy with
    | crossfade =>
      obtain ⟨a', old, fb, new, _, hsm, en, hd⟩ := hcr hst
      refine ⟨new, fb, hsm, en, fun ch hc i hi => ?_⟩
      rw [hd ch hc i hi, hi2.2, ho2.2, hgain]
      show _ * (0 : ℝ) + _ * (1 : ℝ) = _
      simp
    | inOut =>
      obtain ⟨new, en, hd⟩ := hio hst
      refine ⟨new, blk, SameSamples.refl (by simpa using hb), en, fun ch hc i hi => ?_⟩
      rw [hd ch hc i hi, hi2.2, hgain]
      show _ * (1 : ℝ) = _
      simp
  obtain ⟨new, blk', k1, k2, k3⟩ := key
  refine ⟨c1, _, c2, e3, out, f'.obj, new, blk', e, ?_, ep, ?_, eo, k1, k2, k3⟩
  · unfold slotIds
    rw [ha1, hf1, hp1]; rfl
  · unfold slotIds
    rw [ha2, hf2, hp2]
    simp [hid]

/-- **C38.** For `C38_reset_restarts_newest` it is enough that no `reset`, `prepare` or `Clear` comes between the arrival of a
response during a fade and the end of that fade, and that responses (except the first) arrive through `process`. -/
theorem C38_quiet_resets_suffice {ops : ConvOps V} {N : ℕ} {Good : V → Prop} (hA : Accepts ops N Good)
    {hist : List (List (Held V) × Call)} (h : WellFormed N Good none hist) (hq : QuietResets ops {} hist) : NoResetWhileQueued ops {} hist :=
  (calls_playing hA hist none {} (start_known N Good) (Or.inr rfl) h hq).1

/-! ## C39 -/

theorem lastDelivered_clear : ∀ (hist : List (List (Held V) × Call)) (last : Option ℕ) (batch : List (Held V)),
    lastDelivered last (hist ++ [(batch, .clear)]) = none
  | [], _, _ => rfl
  | (b, .process blk) :: rest, last, batch => lastDelivered_clear rest _ batch
  | (b, .reset) :: rest, last, batch => lastDelivered_clear rest _ batch
  | (b, .clear) :: rest, last, batch => lastDelivered_clear rest _ batch
  | (b, .prepare p g) :: rest, last, batch => lastDelivered_clear rest _ batch

/-- **C39.** After `Clear` (unless it found one response fading in and another one waiting) the engine holds no response and leaves
every block as it is, until a response arrives. -/
theorem C39_clear_makes_transparent {ops : ConvOps V} {N : ℕ} {Good : V → Prop} (hA : Accepts ops N Good)
    {hist : List (List (Held V) × Call)} {batch : List (Held V)} {c : Core V} (h : Reaches ops N Good (hist ++ [(batch, .clear)]) c)
    (hq : NoResetWhileQueued ops {} (hist ++ [(batch, .clear)])) :
    slotIds c = (none, none, none) ∧ ∀ blocks, c.play ops (quietly blocks) = some (c, blocks) := by
  obtain ⟨c0, M0, e0, hk0, ht⟩ := calls_known hA _ none {} (start_known N Good) h.1
  rw [h.2] at e0
  cases e0
  have ht := (ht none start_tracks hq).1
  rw [lastDelivered_clear] at ht
  unfold newest at ht
  have h3 : c.pending = none := by
    cases hc : c.pending with
    | none => rfl
    | some x => rw [hc] at ht; cases ht
  rw [h3] at ht
  have h2 : c.fade = none := by
    cases hc : c.fade with
    | none => rfl
    | some x => rw [hc] at ht; cases ht
  rw [h2] at ht
  have h1 : c.active = none := by
    cases hc : c.active with
    | none => rfl
    | some x => rw [hc] at ht; cases ht
  refine ⟨?_, fun blocks => empty_play ops blocks c h1 h2⟩
  unfold slotIds
  rw [h1, h2, h3]; rfl

/-- **C39, what the code does otherwise.** If `Clear` finds `f` fading in and another response waiting, `f` survives: the next block
passes unchanged (crossfade) or is silenced (in/out fade), and from then on `f` plays. -/
theorem C39_clear_while_queued {ops : ConvOps V} (hgain : ops.gains = .exact) {N : ℕ} {Good : V → Prop} (hA : Accepts ops N Good)
    {hist : List (List (Held V) × Call)} {c : Core V} (h : Reaches ops N Good hist c) {p : ProcSpec} (hp : c.spec = some p)
    {f q : Held V} (hf : c.fade = some f) (hq : c.pending = some q) {blk : Buf} (hb : blk.ch = N) (hn : blk.n ≤ p.maximumBlockSize) :
    ∃ c1 e1 c2 e2 out, c.call ops [] .clear = some (c1, e1) ∧ slotIds c1 = (none, some f.id, none) ∧
      c1.call ops [] (.process blk) = some (c2, e2) ∧ slotIds c2 = (some f.id, none, none) ∧ e2.out = some out ∧
      (c.strategy = .crossfade → ∀ ch < N, ∀ i < blk.n, out.data ch i = blk.data ch i) ∧
      (c.strategy = .inOut → ∀ ch < N, ∀ i < blk.n, out.data ch i = 0) := by
  obtain ⟨hM, hR, _⟩ := known_of_reaches hA h hp
  have e : c.call ops [] .clear = some (c.resetFade.clearBody ops) := rfl
  have hR1 := hR.resetFade.clearBody hA
  unfold Core.clearBody at e hR1
  rw [resetBody_pending (c := c.resetFade) hq] at e hR1
  obtain ⟨c2, e2, out, f', ep, eo, oc, on, _, _, ha, hid, hf2, hp2, _, hx, hy⟩ :=
    still_block hA hM hR1 (f := f) hf (resetFade_rest c).2.2.1 (resetFade_rest c).2.2.2.2.2 rfl hb hn
  refine ⟨_, _, c2, e2, out, e, ?_, ep, ?_, eo, ?_, ?_⟩
  · show (none, c.fade.map Held.id, none) = _
    rw [hf]; rfl
  · unfold slotIds
    rw [ha, hf2, hp2]
    simp [hid]
  · intro hs ch hc i hi
    obtain ⟨a', old, fb, new, er, _, _, hd⟩ := hx hs
    have er' : (some ((none : Option (Held V)), blk)) = some (a', old) := er
    cases er'
    rw [hd ch hc i hi]
    rw [hgain]
    show _ * (1 : ℝ) + _ * (0 : ℝ) = _
    simp
  · intro hs ch hc i hi
    obtain ⟨new, _, hd⟩ := hy hs
    rw [hd ch hc i hi]
    rw [hgain]
    show _ * (0 : ℝ) = _
    simp

/-- **C42.** The first response (the first ever, or the first after `Clear`) plays at once, without a fade: the block it arrives
with and all that follow are what its convolver makes of them. -/
theorem C42_first_response_plays_at_once {ops : ConvOps V} {N : ℕ} {Good : V → Prop} (hA : Accepts ops N Good)
    {hist : List (List (Held V) × Call)} {c : Core V} (h : Reaches ops N Good hist c) {p : ProcSpec} (hp : c.spec = some p)
    (ha : c.active = none) (hf : c.fade = none) {g : Held V} (hg : Good g.obj) (b : Buf) (bs : List Buf) (hb : ∀ x ∈ b :: bs, x.ch = N) :
    ∃ c' g' outs, c.play ops (([g], b) :: quietly bs) = some (c', outs) ∧ feed ops.process g.obj (b :: bs) = some (g', outs) ∧
      SameShape (b :: bs) outs ∧ c'.active = some ⟨g.id, g'⟩ ∧ c'.fade = none := by
  obtain ⟨_, hR, _⟩ := known_of_reaches hA h hp
  have es : c.service ops [g] = { c with active := some g } := by
    show (c.handle ops g).1 = _
    rw [handle_none ha]
  have hR1 : Ready N p.maximumBlockSize Good (c.service ops [g]) := hR.service (by simpa using hg)
  obtain ⟨c', g', outs, e1, e2, sh, _, ec⟩ := idle_play hA (b :: bs) (c.service ops [g]) g hR1 (by rw [es]; exact hf) (by rw [es]) hb
  refine ⟨c', g', outs, e1, e2, sh, by rw [ec], by rw [ec, es]; exact hf⟩

end Zones.Props
