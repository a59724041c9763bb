import Verif.Props.EngineReset

/-!
# Exact output during fades, for the real convolver: C33, C34; and concrete histories that meet the hypotheses
-/

open Zones.Spec Zones.Model Zones.Proofs

namespace Zones.Props

variable {V : Type}

theorem create_fixed {F : RealFFT} {ir : Buf} {maxB : ℕ} {spec : ConvolverSpec} {g : Garbage} {r0 : ℕ → ℕ → ℝ} {c : Convolver}
    (h : Convolver.create F ir maxB spec g r0 = some c) : c.numSamples = ir.n ∧ c.spec = spec := by
  unfold Convolver.create at h
  simp only [Option.bind_eq_bind, Option.bind_eq_some_iff] at h
  obtain ⟨_, _, _, _, h⟩ := h
  cases h
  exact ⟨rfl, rfl⟩

theorem history_fixed {F : RealFFT} : ∀ (ops : List Op) {s s' : Convolver}, history (Convolver.process F) Convolver.reset s ops = some s' →
    s'.numSamples = s.numSamples ∧ s'.spec = s.spec
  | [], s, s', h => by cases h; exact ⟨rfl, rfl⟩
  | .process b :: ops, s, s', h => by
    rw [history] at h
    cases hp : Convolver.process F s b with
    | none => rw [hp] at h; cases h
    | some r =>
      rw [hp, Option.bind_some] at h
      obtain ⟨h1, h2⟩ := history_fixed ops h
      obtain ⟨h3, h4⟩ := process_fixed (s' := r.1) (blk' := r.2) hp
      exact ⟨h1.trans h4, h2.trans h3⟩
  | .reset :: ops, s, s', h => by
    rw [history] at h
    obtain ⟨h1, h2⟩ := history_fixed ops (s := s.reset) h
    exact ⟨h1, h2⟩

theorem fresh_fixed {F : RealFFT} {ir : Buf} {maxB N : ℕ} {spec : ConvolverSpec} {v : Convolver} (h : Fresh F ir maxB spec N v) :
    v.numSamples = ir.n ∧ v.spec = spec := by
  obtain ⟨g, r0, c0, e, h⟩ := h
  obtain ⟨h1, h2⟩ := create_fixed e
  rcases h with rfl | ⟨ops, s, _, hs, rfl⟩
  · exact ⟨h1, h2⟩
  · obtain ⟨h3, h4⟩ := history_fixed ops hs
    exact ⟨h3.trans h1, h4.trans h2⟩

theorem SameSamples_ch {N : ℕ} {xs ys : List Buf} (h : SameSamples N xs ys) : ∀ b ∈ ys, b.ch = N := by
  induction h with
  | nil => intro b hb; cases hb
  | cons h _ ih =>
    intro b hb
    rcases List.mem_cons.1 hb with rfl | hb
    · exact h.2.1
    · exact ih b hb

/-- What a new convolver makes of blocks that have the same samples as `blocks`. -/
theorem fresh_same {F : RealFFT} (hF : Lawful F) {ir : Buf} {maxB N : ℕ} {spec : ConvolverSpec} (hU : Usable ir maxB spec N) {v v' : Convolver}
    (h : Fresh F ir maxB spec N v) {blocks blocks' outs : List Buf} (hs : SameSamples N blocks blocks')
    (e : Spec.feed (Convolver.process F) v blocks' = some (v', outs)) :
    ∀ o < N, ∀ t < totalLen blocks, stream outs o t = routedConv ir spec.inputRouting spec.outputRouting (stream blocks) o t := by
  intro o ho t ht
  obtain ⟨v2, outs2, e2, _, _, hd⟩ := Heard_feed hF hU (Heard_fresh h) blocks' (SameSamples_ch hs)
  rw [e] at e2
  cases e2
  rw [hd o ho t (by rw [Proofs.SameSamples.totalLen hs]; exact ht)]
  simp only [totalLen, List.nil_append, Nat.zero_add]
  refine routedConv_congr fun c hc _ m hm => ?_
  exact Proofs.SameSamples.stream hs _ (route_of_valid hU.inputs c hc).2 m (by omega)

/-- **C33.** The exact output of a crossfade. `a`, a convolver for `irA` that has heard `past`, plays alone; a new response `g`
for `irG` arrives with the next block. If it is to be crossfaded, over `n` samples, and nothing else arrives, then from that block on and
for ever the output is `(1 − g(t)) · (irA ∗ input) + g(t) · (irG ∗ input)` with `g(t) = min 1 ((t+1)/n)`: the old response goes on as if
nothing had happened and the new one hears the input from the first sample of the fade on. -/
theorem C33_exact {F : RealFFT} (hF : Lawful F) {N : ℕ} {hist : List (List (Held Convolver) × Call)} {c : Core Convolver}
    (h : Reaches (convolverOps F) N (Serves F N) hist c) (hq : QuietResets (convolverOps F) {} hist)
    {p : ProcSpec} (hp : c.spec = some p) {r : ℕ} (hr : p.sampleRate = r) (hr1 : r ≤ 200000) (hf : c.fade = none)
    {a : Held Convolver} (ha : c.active = some a) {irA : Buf} {mA : ℕ} {specA : ConvolverSpec} (hUA : Usable irA mA specA N)
    {past : List Buf} (hHA : Heard F irA mA specA N past a.obj)
    {g : Held Convolver} {irG : Buf} {mG : ℕ} {specG : ConvolverSpec} (hUG : Usable irG mG specG N) (hHG : Fresh F irG mG specG N g.obj)
    {n : ℕ} (hfade : expectedFade r irG.n specG.fadeStrategy = (.crossfade, (n : ℤ)))
    (b : Buf) (bs : List Buf) (hb : ∀ x ∈ b :: bs, x.ch = N ∧ x.n ≤ p.maximumBlockSize) :
    ∃ c' outs, c.play (convolverOps F) (([g], b) :: quietly bs) = some (c', outs) ∧ SameShape (b :: bs) outs ∧
      (n ≤ totalLen (b :: bs) → slotIds c' = (some g.id, none, none)) ∧
      ∀ o < N, ∀ t < totalLen (b :: bs), stream outs o t =
        (1 - fadeGain n t) * routedConv irA specA.inputRouting specA.outputRouting (stream (past ++ b :: bs)) o (totalLen past + t) +
        fadeGain n t * routedConv irG specG.inputRouting specG.outputRouting (stream (b :: bs)) o t := by
  have hA := accepts_convolver hF N
  obtain ⟨hM, hR, _⟩ := known_of_reaches hA h hp
  obtain ⟨en, es⟩ := fresh_fixed hHG
  have hg : Serves F N g.obj := ⟨irG, mG, specG, [], hUG, Heard_fresh hHG⟩
  rcases playing_of_reaches hA h hq hp with ⟨_, hpd, hrest⟩ | ⟨f, n', j, j', hfa⟩
  · obtain ⟨h1, h2, h3, h4, h5⟩ := first_fade (ops := convolverOps F) hR hrest hf hpd ha hg
    have hc := fade_choice hA h hp hr hr1 g.obj
    have e1 : (convolverOps F).numSamples g.obj = irG.n := en
    have e2 : (convolverOps F).strategy g.obj = specG.fadeStrategy := by
      show g.obj.spec.fadeStrategy = _
      rw [es]
    rw [e1, e2, hfade] at hc
    have k1 : c.chooseStrategy (convolverOps F) g.obj = .crossfade := congrArg Prod.fst hc
    have k2 : c.fadeLength (convolverOps F) g.obj = n := congrArg Prod.snd hc
    rw [k2] at h2
    have h2' : FadingAt (convolverOps F) (c.service (convolverOps F) [g]) g n 0 0 := h2
    obtain ⟨c', outs, a', olds, blks', f', news, ep, sh, fa, hsm, ff, hd, _, hend⟩ :=
      crossfade_full (ops := convolverOps F) implements_exact hA hM (b :: bs) (c.service (convolverOps F) [g]) g a 0 h1 h2' (h5.trans k1) h3 h4 hb
    have ep' : c.play (convolverOps F) (([g], b) :: quietly bs) = some (c', outs) := ep
    refine ⟨c', outs, ep', sh, fun hn => ?_, fun o ho t ht => ?_⟩
    · obtain ⟨q1, q2, q3, _⟩ := hend (by omega)
      unfold slotIds
      rw [q1, q2, q3]; rfl
    · have hbc : ∀ x ∈ b :: bs, x.ch = N := fun x hx => (hb x hx).1
      obtain ⟨v', olds', fa', _, _, hda⟩ := Heard_feed hF hUA hHA (b :: bs) hbc
      have fa0 : Spec.feed (Convolver.process F) a.obj (b :: bs) = some (a', olds) := fa
      rw [fa0] at fa'
      cases fa'
      have hdg := fresh_same hF hUG hHG hsm ff o ho t ht
      have := hd o ho t ht
      rw [Nat.zero_add] at this
      rw [this, hdg, hda o ho t ht]
  · rw [hfa.slot] at hf
    cases hf

/-- **C34.** The exact output of an in/out fade. As `C33_exact`, but `g` is to be faded in after the old response has been faded out,
over `n` samples each. `first` are the blocks up to the one the first half ends in, `second` those up to the one the second half ends in:
the first are `(1 − g(t)) · (irA ∗ input)`, the second `g(t) · (irG ∗ input)`, where the new response hears the input from the
beginning of the second half only. -/
theorem C34_exact {F : RealFFT} (hF : Lawful F) {N : ℕ} {hist : List (List (Held Convolver) × Call)} {c : Core Convolver}
    (h : Reaches (convolverOps F) N (Serves F N) hist c) (hq : QuietResets (convolverOps F) {} hist)
    {p : ProcSpec} (hp : c.spec = some p) {r : ℕ} (hr : p.sampleRate = r) (hr1 : r ≤ 200000) (hf : c.fade = none)
    {a : Held Convolver} (ha : c.active = some a) {irA : Buf} {mA : ℕ} {specA : ConvolverSpec} (hUA : Usable irA mA specA N)
    {past : List Buf} (hHA : Heard F irA mA specA N past a.obj)
    {g : Held Convolver} {irG : Buf} {mG : ℕ} {specG : ConvolverSpec} (hUG : Usable irG mG specG N) (hHG : Fresh F irG mG specG N g.obj)
    {n : ℕ} (hfade : expectedFade r irG.n specG.fadeStrategy = (.inOut, (n : ℤ)))
    (b : Buf) (bs second : List Buf) (hb : ∀ x ∈ b :: bs ++ second, x.ch = N ∧ x.n ≤ p.maximumBlockSize)
    (hfirst : totalLen (b :: bs).dropLast < n ∧ n ≤ totalLen (b :: bs)) (hsecond : totalLen second.dropLast < n) :
    ∃ c' outs1 outs2, c.play (convolverOps F) (([g], b) :: quietly (bs ++ second)) = some (c', outs1 ++ outs2) ∧
      SameShape (b :: bs) outs1 ∧ SameShape second outs2 ∧ (n ≤ totalLen second → slotIds c' = (some g.id, none, none)) ∧
      (∀ o < N, ∀ t < totalLen (b :: bs), stream outs1 o t =
        (1 - fadeGain n t) * routedConv irA specA.inputRouting specA.outputRouting (stream (past ++ b :: bs)) o (totalLen past + t)) ∧
      ∀ o < N, ∀ t < totalLen second, stream outs2 o t =
        fadeGain n t * routedConv irG specG.inputRouting specG.outputRouting (stream second) o t := by
  have hA := accepts_convolver hF N
  obtain ⟨en, es⟩ := fresh_fixed hHG
  have hg : Serves F N g.obj := ⟨irG, mG, specG, [], hUG, Heard_fresh hHG⟩
  have key := C35_fade_choice (ops := convolverOps F) rfl hA h hq hp hr hr1 hf ha hg
  have e1 : (convolverOps F).numSamples g.obj = irG.n := en
  have e2 : (convolverOps F).strategy g.obj = specG.fadeStrategy := by
    show g.obj.spec.fadeStrategy = _
    rw [es]
  rw [e1, e2, hfade] at key
  have key : InOutFades linearFades (convolverOps F) N p.maximumBlockSize (Serves F N) n 0 a g [g] c := key
  have hpd : c.pending = none := by
    rcases playing_of_reaches hA h hq hp with ⟨_, hpd, _⟩ | ⟨f, n', j, j', hfa⟩
    · exact hpd
    · rw [hfa.slot] at hf; cases hf
  have hbl : ∀ xs : List Buf, blocksOf (quietly (V := Convolver) xs) = xs := by
    intro xs
    induction xs with
    | nil => rfl
    | cons x xs ih =>
      show x :: blocksOf (quietly (V := Convolver) xs) = _
      rw [ih]
  have hfit : ∀ xs : List Buf, (∀ x ∈ xs, x ∈ b :: bs ++ second) → Fits N p.maximumBlockSize (Serves F N) (quietly (V := Convolver) xs) := by
    intro xs hxs y hy
    rw [List.mem_map] at hy
    obtain ⟨x, hx, rfl⟩ := hy
    exact ⟨(hb x (hxs x hx)).1, (hb x (hxs x hx)).2, fun g hg => by cases hg⟩
  have hquiet : ∀ xs : List Buf, queuedAfter (none : Option (Held Convolver)) (quietly xs) = none := by
    intro xs
    have : (quietly (V := Convolver) xs).flatMap Prod.fst = [] := by
      induction xs with
      | nil => rfl
      | cons x xs ih => exact ih
    unfold queuedAfter
    rw [this]; rfl
  obtain ⟨c1, o1, a1, olds, ep, sh1, fa, hd1, hon, hsec⟩ := key (quietly (b :: bs)) (hfit (b :: bs) (fun x hx => by
    rw [List.mem_append]; exact Or.inl hx)) (by simp) (by rw [hbl]; omega)
  rw [hbl] at sh1 fa hd1 hsec
  rw [hpd, hquiet] at hon
  obtain ⟨c2, o2, g2, news, ep2, sh2, fg, hd2, _, hover⟩ := hsec (by omega) (quietly second) (hfit second (fun x hx => by
    rw [List.mem_append]; exact Or.inr hx)) (by rw [hbl]; omega)
  rw [hbl] at sh2 fg hd2 hover
  rw [hon.2.2, hquiet] at hover
  refine ⟨c2, o1, o2, ?_, sh1, sh2, fun hn => ?_, fun o ho t ht => ?_, fun o ho t ht => ?_⟩
  · have := play_append _ _ ep ep2
    rw [← this]
    congr 1
    show _ = ([g], b) :: (quietly bs ++ quietly second)
    rw [← List.map_append]
  · obtain ⟨q1, q2, q3⟩ := hover (by omega)
    unfold slotIds
    rw [q1, q2, q3]; rfl
  · have hbc : ∀ x ∈ b :: bs, x.ch = N := fun x hx => (hb x (by rw [List.mem_append]; exact Or.inl hx)).1
    obtain ⟨v', olds', fa', _, _, hda⟩ := Heard_feed hF hUA hHA (b :: bs) hbc
    have fa0 : Spec.feed (Convolver.process F) a.obj (b :: bs) = some (a1, olds) := fa
    rw [fa0] at fa'
    cases fa'
    have := hd1 o ho t ht
    rw [Nat.zero_add] at this
    rw [this, hda o ho t ht]
  · have hbc : ∀ x ∈ second, x.ch = N := fun x hx => (hb x (by rw [List.mem_append]; exact Or.inr hx)).1
    have hdg := fresh_same hF hUG hHG (SameSamples.refl hbc) fg o ho t ht
    have := hd2 o ho t ht
    rw [Nat.zero_add] at this
    rw [this, hdg]

/-! ## Concrete histories -/

/-- After `prepare`, a block with which `a` arrives, and a block with which `f` and `q` arrive: `a` plays, then `a` is being faded to `f`
and `q` waits. -/
theorem reachable_states {ops : ConvOps V} {N : ℕ} {Good : V → Prop} (hA : Accepts ops N Good) {a f q : Held V} (ha : Good a.obj)
    (hf : Good f.obj) (hq : Good q.obj) {p : ProcSpec} (hp : ValidFormat N p) (m : ℕ → ℕ → ℝ) {z : Buf} (hz : z.ch = N)
    (hzn : z.n ≤ p.maximumBlockSize) (hzl : (z.n : ℤ) < ceilTimes kLowerFadeTimeS p.sampleRate) (hzi : (z.n : ℤ) < ceilTimes kInOutFadeTimeS p.sampleRate) :
    ∃ c1 c2, Reaches ops N Good [([], .prepare p m), ([a], .process z)] c1 ∧ QuietResets ops {} [([], .prepare p m), ([a], .process z)] ∧
      c1.spec = some p ∧ c1.active.map Held.id = some a.id ∧ c1.fade = none ∧
      Reaches ops N Good [([], .prepare p m), ([a], .process z), ([f, q], .process z)] c2 ∧
      QuietResets ops {} [([], .prepare p m), ([a], .process z), ([f, q], .process z)] ∧
      c2.spec = some p ∧ c2.active.map Held.id = some a.id ∧ c2.fade.map Held.id = some f.id ∧ c2.pending = some q := by
  have hw2 : WellFormed N Good none [([], .prepare p m), ([a], .process z), ([f, q], .process z)] := by
    refine ⟨by simp, fun _ _ => rfl, hp, by simpa using ha, fun h => (by cases h), hz, fun k hk => by cases hk; exact hzn, ?_⟩
    exact ⟨by simpa using ⟨hf, hq⟩, fun h => (by cases h), hz, fun k hk => by cases hk; exact hzn, trivial⟩
  have hw1 : WellFormed N Good none [([], .prepare p m), ([a], .process z)] := wellFormed_prefix _ [([f, q], .process z)] none hw2
  have e0 : ({} : Core V).call ops [] (.prepare p m) = some (((({} : Core V).prepareHead p m).resetFade).resetBody ops) := rfl
  have hk0 := (prepare_head (c := ({} : Core V)) (start_known N Good) hp m).resetBody (ops := ops) hA
  have hk0 : Known N Good (some p.maximumBlockSize) (((({} : Core V).prepareHead p m).resetFade).resetBody ops).1 := hk0
  rw [resetBody_plain (c := (({} : Core V).prepareHead p m).resetFade) rfl rfl] at e0 hk0
  generalize hx : (({ ((({} : Core V).prepareHead p m).resetFade) with
      fadeBuf := ((({} : Core V).prepareHead p m).resetFade).fadeBuf.clear
      active := ((({} : Core V).prepareHead p m).resetFade).active.map fun h => ⟨h.id, ops.reset h.obj⟩ }) : Core V) = x at e0 hk0
  have hx1 : x.active = none ∧ x.fade = none ∧ x.pending = none ∧ Rest x ∧ x.spec = some p := by
    rw [← hx]
    exact ⟨rfl, rfl, rfl, resetFade_rest _, rfl⟩
  obtain ⟨x1, x2, x3, x4, x5⟩ := hx1
  obtain ⟨hM, hR, _, q0, hq0, _, _, hset⟩ := hk0
  rw [x5] at hq0
  cases hq0
  have es : x.service ops [a] = { x with active := some a } := by
    show (x.handle ops a).1 = _
    rw [handle_none x1]
  have hR1 : Ready N p.maximumBlockSize Good (x.service ops [a]) := hR.service (by simpa using ha)
  obtain ⟨a', out, ep, _, _, _, hid, hga⟩ := process_idle hA hR1 (by rw [es]; exact x2) hz
  have e1 : x.call ops [a] (.process z) = some ({ x.service ops [a] with active := a' }, { out := some out }) := ep
  rw [es] at e1 hid
  generalize hc1 : (({ ({ x with active := some a } : Core V) with active := a' }) : Core V) = c1 at e1
  have y1 : c1.active = a' ∧ c1.fade = none ∧ c1.pending = none ∧ Rest c1 ∧ c1.spec = some p := by
    rw [← hc1]
    exact ⟨rfl, x2, x3, x4, x5⟩
  obtain ⟨y1, y2, y3, y4, y5⟩ := y1
  have hR2 : Ready N p.maximumBlockSize Good c1 := by
    rw [← hc1]
    exact ⟨hga, hR.fade, hR.pending, hR.bufCh, hR.bufN, hR.lower, hR.le, hR.inOut⟩
  have hset1 : SetFor p c1 := by
    rw [← hc1]
    exact ⟨hset.lower, hset.upper, hset.maxCrossfade, hset.inOut⟩
  cases ha' : a' with
  | none => rw [ha'] at hid; cases hid
  | some a1 =>
    rw [ha'] at hid y1
    have hida : a1.id = a.id := Option.some.inj hid
    obtain ⟨g1, g2, g3, g4, g5⟩ := first_fade (ops := ops) hR2 y4 y2 y3 y1 hf
    obtain ⟨k1, k2, k3, k4, k5⟩ := service_fading g1 g2 (batch := [q]) (by simpa using hq)
    have hlen : (z.n : ℤ) < c1.fadeLength ops f.obj := by
      unfold Core.fadeLength
      split
      · have := (clamp_bounds (v := ceilTimes kFadeRatio (ops.numSamples f.obj)) hR2.le).1
        rw [hset1.lower] at this
        rw [hset1.lower]
        omega
      · rw [hset1.inOut]; exact hzi
    obtain ⟨c2, e2, out2, f', ep2, _, _, _, _, _, hidf, s1, s2, s3, s4, s5, hcase⟩ := process_fading hA k1 k2 hz (fun _ => ⟨hzn, hM⟩)
    have ec2 : c1.call ops [f, q] (.process z) = some (c2, e2) := ep2
    have hnext : nextIn ((c1.service ops [f]).service ops [q]).strategy (c1.fadeLength ops f.obj).toNat 0 0 z.n < (c1.fadeLength ops f.obj).toNat := by
      have : (z.n : ℤ) < (c1.fadeLength ops f.obj).toNat := by omega
      unfold nextIn
      split <;> (try split) <;> omega
    rcases hcase with ⟨_, _, hfa, hpd, hact, _⟩ | ⟨hbad, _⟩
    · refine ⟨c1, c2, ⟨hw1, ?_⟩, ?_, y5, ?_, y2, ⟨hw2, ?_⟩, ?_, ?_, ?_, ?_, ?_⟩
      · simp only [Core.calls, e0, e1, Option.bind_some]
      · exact ⟨fun _ => ⟨rfl, Or.inl rfl⟩, fun _ _ => ⟨fun h => absurd rfl (h z), fun _ _ => trivial⟩⟩
      · rw [y1]; show some a1.id = _; rw [hida]
      · simp only [Core.calls, e0, e1, ec2, Option.bind_some]
      · exact ⟨fun _ => ⟨rfl, Or.inl rfl⟩, fun _ _ => ⟨fun h => absurd rfl (h z), fun _ _ => ⟨fun h => absurd rfl (h z), fun _ _ => trivial⟩⟩⟩
      · rw [s5, (settings_service _ _).spec, (settings_service _ _).spec, y5]
      · rw [hact, k3, g3]; show some a1.id = _; rw [hida]
      · rw [hfa.slot]; show some f'.id = _; rw [hidf]
      · rw [hpd, k5]; rfl
    · omega

/-- 48 kHz, 64 samples, stereo. -/
def exampleFormat : ProcSpec := ⟨48000, 64, 2⟩

theorem exampleFormat_valid : ValidFormat 2 exampleFormat := ⟨rfl, by decide, by norm_num [exampleFormat], by norm_num [exampleFormat]⟩

noncomputable def exampleBlock : Buf := ⟨2, 64, fun ch i => (ch + i : ℝ)⟩

theorem example_lengths : ((exampleBlock.n : ℕ) : ℤ) < ceilTimes kLowerFadeTimeS exampleFormat.sampleRate ∧
    ((exampleBlock.n : ℕ) : ℤ) < ceilTimes kInOutFadeTimeS exampleFormat.sampleRate := by
  have h1 := lower_exact (r := 48000) (by norm_num) (by norm_num)
  have h2 := inOut_exact (r := 48000) (by norm_num) (by norm_num)
  have e : exampleFormat.sampleRate = ((48000 : ℕ) : ℚ) := by norm_num [exampleFormat]
  rw [e, h1, h2]
  constructor
  · rw [Int.lt_ceil]; norm_num [exampleBlock]
  · rw [Int.lt_ceil]; norm_num [exampleBlock]

/-- A new convolver for the example response. -/
theorem example_convolver : ∃ v, Fresh referenceFFT exampleIR 64 exampleSpec 2 v ∧ Serves referenceFFT 2 v := by
  obtain ⟨c, e, _⟩ := C01_exact_convolution referenceFFT_lawful exampleUsable
    ⟨fun _ _ => 7, fun _ _ _ _ => 7, fun _ _ => 7, fun _ _ => 7, fun _ _ => 7⟩ (fun _ _ => 7)
  have h : Fresh referenceFFT exampleIR 64 exampleSpec 2 c := ⟨_, _, c, e, Or.inl rfl⟩
  exact ⟨c, h, exampleIR, 64, exampleSpec, [], exampleUsable, Heard_fresh h⟩

/-- The states of `reachable_states`, with real convolvers: they meet the hypotheses of the theorems above (C32, C33, C34, C35, C38, C39,
C45, C49). -/
example : ∃ v c1 c2, Fresh referenceFFT exampleIR 64 exampleSpec 2 v ∧
    Reaches (convolverOps referenceFFT) 2 (Serves referenceFFT 2) [([], .prepare exampleFormat fun _ _ => 7), ([⟨1, v⟩], .process exampleBlock)] c1 ∧
    c1.spec = some exampleFormat ∧ c1.active.map Held.id = some 1 ∧ c1.fade = none ∧
    Reaches (convolverOps referenceFFT) 2 (Serves referenceFFT 2)
      [([], .prepare exampleFormat fun _ _ => 7), ([⟨1, v⟩], .process exampleBlock), ([⟨2, v⟩, ⟨3, v⟩], .process exampleBlock)] c2 ∧
    QuietResets (convolverOps referenceFFT) {}
      [([], .prepare exampleFormat fun _ _ => 7), ([⟨1, v⟩], .process exampleBlock), ([⟨2, v⟩, ⟨3, v⟩], .process exampleBlock)] ∧
    c2.spec = some exampleFormat ∧ slotIds c2 = (some 1, some 2, some 3) := by
  obtain ⟨v, hv, hs⟩ := example_convolver
  obtain ⟨h1, h2⟩ := example_lengths
  obtain ⟨c1, c2, q1, q2, q3, q4, q5, q6, q7, q8, q9, q10, q11⟩ := reachable_states (accepts_convolver referenceFFT_lawful 2)
    (a := ⟨1, v⟩) (f := ⟨2, v⟩) (q := ⟨3, v⟩) hs hs hs exampleFormat_valid (fun _ _ => 7) (z := exampleBlock) rfl (by decide) h1 h2
  refine ⟨v, c1, c2, hv, q1, q3, q4, q5, q6, q7, q8, ?_⟩
  unfold slotIds
  rw [q9, q10, q11]
  rfl

/-- The fades to expect at 48 kHz: the example response (5000 samples, crossfade) takes the minimal 0.1 s; one of ten seconds is faded
in and out. -/
example : expectedFade 48000 5000 .crossfade = (.crossfade, 4800) ∧ expectedFade 48000 480000 .crossfade = (.inOut, 19200) ∧
    expectedFade 48000 100000 .crossfade = (.crossfade, 14000) ∧ expectedFade 48000 100 .inOut = (.inOut, 19200) := by
  have c1 : ⌈((48000 : ℕ) : ℚ) / 10⌉ = 4800 := by rw [Int.ceil_eq_iff]; norm_num
  have c2 : ⌈(14 * ((5000 : ℕ) : ℚ)) / 100⌉ = 700 := by rw [Int.ceil_eq_iff]; norm_num
  have c3 : ⌈(14 * ((100000 : ℕ) : ℚ)) / 100⌉ = 14000 := by rw [Int.ceil_eq_iff]; norm_num
  have c4 : ⌈(4 * ((48000 : ℕ) : ℚ)) / 10⌉ = 19200 := by rw [Int.ceil_eq_iff]; norm_num
  refine ⟨?_, ?_, ?_, ?_⟩
  · rw [expectedFade, if_pos ⟨rfl, by norm_num⟩, c1, c2]; norm_num
  · rw [expectedFade, if_neg (by norm_num), c4]
  · rw [expectedFade, if_pos ⟨rfl, by norm_num⟩, c1, c3]; norm_num
  · rw [expectedFade, if_neg (by simp), c4]

end Zones.Props
