import Verif.Proofs.EngineConvolver
import Verif.Proofs.EngineFadeSpec
import Verif.Proofs.FadeLength

/-!
# Properties of the audio side of `ConvolutionEngine`: C32, C33, C34, C35, C38, C39, C42, C45, C49

The convolvers are arbitrary objects (`ops`) that accept blocks of `N` channels (`Accepts`); `accepts_convolver` shows that
the real `Convolver` is one of them. How responses get from `LoadIR` to the `Service` at the start of a call is the subject
of `Props/EngineSys.lean`; here any call may find any number of them.
-/

open Zones.Spec Zones.Model Zones.Proofs

namespace Zones.Props

variable {V : Type}

theorem start_known (N : ℕ) (Good : V → Prop) : Known N Good none ({} : Core V) := ⟨⟨rfl, rfl, rfl⟩, rfl⟩

theorem start_tracks : Tracks none ({} : Core V) := ⟨rfl, fun h => absurd rfl h⟩

theorem known_of_reaches {ops : ConvOps V} {N : ℕ} {Good : V → Prop} (hA : Accepts ops N Good) {hist : List (List (Held V) × Call)} {c : Core V}
    (h : Reaches ops N Good hist c) {p : ProcSpec} (hp : c.spec = some p) :
    0 < p.maximumBlockSize ∧ Ready N p.maximumBlockSize Good c ∧ Within c ∧ ValidFormat N p ∧ SetFor p c := by
  obtain ⟨c', M', e, hk, _⟩ := calls_known hA hist none {} (start_known N Good) h.1
  rw [h.2] at e
  cases e
  cases M' with
  | none => rw [hk.2] at hp; cases hp
  | some m =>
    obtain ⟨h1, h2, h3, q, h4, h5, h6, h7⟩ := hk
    rw [h4] at hp
    cases hp
    subst h5
    exact ⟨h1, h2, h3, h6, h7⟩

theorem playing_of_reaches {ops : ConvOps V} {N : ℕ} {Good : V → Prop} (hA : Accepts ops N Good) {hist : List (List (Held V) × Call)} {c : Core V}
    (h : Reaches ops N Good hist c) (hq : QuietResets ops {} hist) {p : ProcSpec} (hp : c.spec = some p) : Playing ops c := by
  obtain ⟨_, c', M', e, hk, hpl⟩ := calls_playing hA hist none {} (start_known N Good) (Or.inr rfl) h.1 hq
  rw [h.2] at e
  cases e
  rcases hpl with h | rfl
  · exact h
  · rw [hk.2] at hp; cases hp

/-! ## C49 -/

/-- **C49.** Every well-behaved history is defined: `process` accepts every block of the prepared channel count and at
most the prepared block size, whatever fades are in progress, however often and whenever the engine is reset, prepared again or
cleared. -/
theorem C49_defined {ops : ConvOps V} {N : ℕ} {Good : V → Prop} (hA : Accepts ops N Good) {hist : List (List (Held V) × Call)}
    (h : WellFormed N Good none hist) : ∃ c, Reaches ops N Good hist c := by
  obtain ⟨c, _, e, _⟩ := calls_known hA hist none {} (start_known N Good) h
  exact ⟨c, h, e⟩

/-- **C49.** A block larger than the prepared one is undefined behaviour during a crossfade: `getSubBlock` of the fade buffer
is out of range. -/
theorem C49_large_block_during_crossfade {ops : ConvOps V} {N : ℕ} {Good : V → Prop} (hA : Accepts ops N Good)
    {hist : List (List (Held V) × Call)} {c : Core V} (h : Reaches ops N Good hist c) {p : ProcSpec} (hp : c.spec = some p) {f : Held V}
    (hf : c.fade = some f) (hs : c.strategy = .crossfade) {blk : Buf} (hb : p.maximumBlockSize < blk.n) :
    c.call ops [] (.process blk) = none := by
  obtain ⟨_, hr, _⟩ := known_of_reaches hA h hp
  show c.processBody ops blk = none
  rw [processBody_some hf, fadeStep_cross hs]
  unfold Core.crossfadeStep
  have : c.fadeBuf.sub 0 blk.n = none := by
    unfold Buf.sub
    rw [if_neg]
    rw [hr.bufN]
    omega
  rw [this]
  rfl

/-- **C49.** Outside of a fade a block of any size is fine. -/
theorem C49_large_block_otherwise {ops : ConvOps V} {N : ℕ} {Good : V → Prop} (hA : Accepts ops N Good)
    {hist : List (List (Held V) × Call)} {c : Core V} (h : Reaches ops N Good hist c) (hf : c.fade = none) {blk : Buf} (hb : blk.ch = N) :
    ∃ r out, c.call ops [] (.process blk) = some r ∧ r.2.out = some out ∧ out.ch = N ∧ out.n = blk.n := by
  obtain ⟨c', M', e, hk, _⟩ := calls_known hA hist none {} (start_known N Good) h.1
  rw [h.2] at e
  cases e
  cases M' with
  | none =>
    refine ⟨(c, { out := some blk }), blk, ?_, rfl, hb, rfl⟩
    show c.processBody ops blk = _
    rw [processBody_none hf, hk.1.1]
    show some (({ c with active := none } : Core V), _) = _
    rw [← hk.1.1]
  | some m =>
    obtain ⟨a', out, e, hc, hn, _⟩ := process_idle hA hk.2.1 hf hb
    exact ⟨_, out, e, rfl, hc, hn⟩

/-! ## C32 -/

/-- **C32.** Whatever happened before, once no more responses arrive and enough samples have been processed, the response
delivered last is the one that plays, and nothing is fading or waiting — provided no reset, prepare or clear was made while one
response was fading in and another one waiting (see C38 for what happens then). "Enough" is four times the longest fade
plus the largest block. -/
theorem C32_newest_finally_plays {ops : ConvOps V} {N : ℕ} {Good : V → Prop} (hA : Accepts ops N Good)
    {hist : List (List (Held V) × Call)} {c : Core V} (h : Reaches ops N Good hist c) (hq : NoResetWhileQueued ops {} hist)
    {p : ProcSpec} (hp : c.spec = some p) (blocks : List Buf) (hb : ∀ b ∈ blocks, b.ch = N ∧ b.n ≤ p.maximumBlockSize)
    (hlen : 4 * ((ceilTimes kUpperFadeTimeS p.sampleRate).toNat + p.maximumBlockSize) ≤ totalLen blocks) :
    ∃ c' outs, c.play ops (quietly blocks) = some (c', outs) ∧ slotIds c' = (lastDelivered none hist, none, none) := by
  obtain ⟨h1, h2, h3, h4, h5⟩ := known_of_reaches hA h hp
  obtain ⟨c0, M0, e0, _, ht⟩ := calls_known hA hist none {} (start_known N Good) h.1
  rw [h.2] at e0
  cases e0
  have ht := ht none start_tracks hq
  have hrem := remaining_within (ops := ops) h2 h3
  rw [h5.upper] at hrem
  obtain ⟨c', outs, e, hr, hw, hn, hf, hpd⟩ := settle hA h1 blocks c h2 h3 hb (by omega)
  refine ⟨c', outs, e, ?_⟩
  unfold slotIds
  rw [hf, hpd]
  have : c'.active.map Held.id = lastDelivered none hist := by
    rw [← ht.1, ← hn]
    unfold newest
    rw [hf, hpd]
    rfl
  rw [this]
  rfl

/-! ## C35 -/

/-- The strategy and the length `BeginFade` would choose. -/
theorem fade_choice_set {ops : ConvOps V} {c : Core V} {p : ProcSpec} (h5 : SetFor p c)
    {r : ℕ} (hr : p.sampleRate = r) (hr0 : 0 < r) (hr1 : r ≤ 200000) (v : V) :
    (c.chooseStrategy ops v, c.fadeLength ops v) = expectedFade r (ops.numSamples v) (ops.strategy v) := by
  have h4 : (0:ℚ) < r := by exact_mod_cast hr0
  have hm : c.maxCrossfade = ((10 * r : ℕ) : ℤ) := by rw [h5.maxCrossfade, hr, max_exact (by omega)]
  have hu : c.upper = ((4 * r : ℕ) : ℤ) := by rw [h5.upper, hr, upper_exact (by omega)]
  have hl : c.lower = ⌈(r : ℚ) / 10⌉ := by rw [h5.lower, hr, lower_exact hr0 (by omega)]
  have hi : c.inOut = ⌈(4 * r : ℚ) / 10⌉ := by
    rw [h5.inOut, hr, inOut_exact hr0 (by omega)]
    congr 1
    ring
  have hlu : ⌈(r : ℚ) / 10⌉ ≤ ((4 * r : ℕ) : ℤ) := by
    rw [Int.ceil_le]
    push_cast
    have : (0:ℚ) < r := h4
    linarith
  have hL : ops.numSamples v < 10 * r → ceilTimes kFadeRatio (ops.numSamples v) = ⌈(14 * (ops.numSamples v) : ℚ) / 100⌉ := by
    intro hlt
    rcases Nat.eq_zero_or_pos (ops.numSamples v) with h0 | h0
    · rw [h0]
      have := ratio_zero
      rw [Nat.cast_zero, this]
      norm_num
    · rw [ratio_exact h0 (by omega)]
      congr 1
      ring
  have hch : c.chooseStrategy ops v = if 10 * r ≤ ops.numSamples v then .inOut else ops.strategy v := by
    unfold Core.chooseStrategy
    rw [hm]
    by_cases h : 10 * r ≤ ops.numSamples v
    · rw [if_pos h, if_pos (by exact_mod_cast h)]
    · rw [if_neg h, if_neg (by push Not at h ⊢; exact_mod_cast h)]
  unfold expectedFade Core.fadeLength
  rw [hch]
  generalize ops.numSamples v = L at hL ⊢
  by_cases hlt : L < 10 * r
  · rw [if_neg (by omega)]
    cases hst : ops.strategy v with
    | crossfade =>
      rw [if_pos rfl, if_pos ⟨rfl, hlt⟩, hL hlt, hl, hu]
      congr 1
      unfold clampInt
      push_cast at hlu ⊢
      generalize ⌈(r : ℚ) / 10⌉ = lo at hlu ⊢
      generalize ⌈(14 * L : ℚ) / 100⌉ = m
      split_ifs <;> omega
    | inOut =>
      rw [if_neg (by simp), if_neg (by simp), hi]
  · rw [if_pos (by omega), if_neg (by simp), if_neg (by tauto), hi]

theorem fade_choice {ops : ConvOps V} {N : ℕ} {Good : V → Prop} (hA : Accepts ops N Good)
    {hist : List (List (Held V) × Call)} {c : Core V} (h : Reaches ops N Good hist c) {p : ProcSpec} (hp : c.spec = some p)
    {r : ℕ} (hr : p.sampleRate = r) (hr1 : r ≤ 200000) (v : V) :
    (c.chooseStrategy ops v, c.fadeLength ops v) = expectedFade r (ops.numSamples v) (ops.strategy v) := by
  obtain ⟨_, _, _, ⟨_, _, h4, _⟩, h5⟩ := known_of_reaches hA h hp
  rw [hr] at h4
  exact fade_choice_set h5 hr (by exact_mod_cast h4) hr1 v

/-- A fade that is just beginning is heard as `expectedFade` says. -/
theorem expected_of {ops : ConvOps V} {K : FadeRule} (hK : Implements ops.gains K) {N : ℕ} {Good : V → Prop} (hA : Accepts ops N Good)
    {hist : List (List (Held V) × Call)} {c : Core V} (h : Reaches ops N Good hist c) {p : ProcSpec} (hp : c.spec = some p)
    {r : ℕ} (hr : p.sampleRate = r) (hr1 : r ≤ 200000) {c' : Core V} (hr' : Ready N p.maximumBlockSize Good c') (ss : SameSettings c c')
    {a f : Held V} (hf : FadingAt ops c' f (c.fadeLength ops f.obj).toNat 0 0) (ha : c'.active = some a) :
    FadesAsExpected K ops N p.maximumBlockSize Good (expectedFade r (ops.numSamples f.obj) (ops.strategy f.obj)) a f [] c' := by
  rw [← fade_choice hA h hp hr hr1 f.obj]
  obtain ⟨hM, _⟩ := known_of_reaches hA h hp
  have hst : c'.strategy = c.chooseStrategy ops f.obj := by
    rw [hf.strategy]
    unfold Core.chooseStrategy
    rw [ss.maxCrossfade]
  unfold FadesAsExpected
  cases hc : c.chooseStrategy ops f.obj with
  | crossfade => exact crossfades_of hK hA hM hr' hf (hst.trans hc) ha
  | inOut => exact inOutFades_of hK hA hr' hf (hst.trans hc) ha

/-- When a response arrives while another one plays alone: a fade of the expected kind and length begins. -/
theorem fade_choice_of {ops : ConvOps V} {K : FadeRule} (hK : Implements ops.gains K) {N : ℕ} {Good : V → Prop} (hA : Accepts ops N Good)
    {hist : List (List (Held V) × Call)} {c : Core V} (h : Reaches ops N Good hist c) (hq : QuietResets ops {} hist)
    {p : ProcSpec} (hp : c.spec = some p) {r : ℕ} (hr : p.sampleRate = r) (hr1 : r ≤ 200000)
    (hf : c.fade = none) {a : Held V} (ha : c.active = some a) {g : Held V} (hg : Good g.obj) :
    FadesAsExpected K ops N p.maximumBlockSize Good (expectedFade r (ops.numSamples g.obj) (ops.strategy g.obj)) a g [g] c := by
  obtain ⟨hM, hR, _⟩ := known_of_reaches hA h hp
  rcases playing_of_reaches hA h hq hp with ⟨_, hpd, hrest⟩ | ⟨f, n, j, j', hfa⟩
  · obtain ⟨h1, h2, h3, h4, h5⟩ := first_fade (ops := ops) hR hrest hf hpd ha hg
    have := expected_of hK hA h hp hr hr1 h1 (settings_service c [g]) h2 h3
    unfold FadesAsExpected at this ⊢
    generalize expectedFade r (ops.numSamples g.obj) (ops.strategy g.obj) = k at this ⊢
    obtain ⟨k, m⟩ := k
    cases k with
    | crossfade => exact crossfades_first (by rw [h4, hpd]) this
    | inOut => exact inOutFades_first (by rw [h4, hpd]) this
  · rw [hfa.slot] at hf
    cases hf

/-- **C35.** When a response arrives while another one is playing alone, a fade to it begins with that very block, and its
kind and length are the expected ones: crossfade of `clamp (0.14 · length, 0.1 s, 4 s)`, or in/out of 0.4 s each way for
responses of ten seconds and more or on request. What the two kinds of fades sound like: C33, C34. -/
theorem C35_fade_choice {ops : ConvOps V} (hx : ops.gains = .exact) {N : ℕ} {Good : V → Prop} (hA : Accepts ops N Good)
    {hist : List (List (Held V) × Call)} {c : Core V} (h : Reaches ops N Good hist c) (hq : QuietResets ops {} hist)
    {p : ProcSpec} (hp : c.spec = some p) {r : ℕ} (hr : p.sampleRate = r) (hr1 : r ≤ 200000)
    (hf : c.fade = none) {a : Held V} (ha : c.active = some a) {g : Held V} (hg : Good g.obj) :
    FadesAsExpected linearFades ops N p.maximumBlockSize Good (expectedFade r (ops.numSamples g.obj) (ops.strategy g.obj)) a g [g] c :=
  fade_choice_of (hx ▸ implements_exact) hA h hq hp hr hr1 hf ha hg

/-- When a fade ends and another response waits: a fade of the expected kind and length begins. -/
theorem next_fade_of {ops : ConvOps V} {K : FadeRule} (hK : Implements ops.gains K) {N : ℕ} {Good : V → Prop} (hA : Accepts ops N Good)
    {hist : List (List (Held V) × Call)} {c : Core V} (h : Reaches ops N Good hist c) (hq : QuietResets ops {} hist)
    {p : ProcSpec} (hp : c.spec = some p) {r : ℕ} (hr : p.sampleRate = r) (hr1 : r ≤ 200000)
    {a f : Held V} (ha : c.active = some a) (hf : c.fade = some f) (hne : a.id ≠ f.id)
    {batch : List (Held V)} {blk : Buf} (hfit : Fits N p.maximumBlockSize Good [(batch, blk)]) {c' : Core V} {e : Core.Effects V}
    (ec : c.call ops batch (.process blk) = some (c', e)) {f' g : Held V} (hf' : c'.active = some f') (hid : f'.id = f.id)
    (hg : c'.fade = some g) :
    FadesAsExpected K ops N p.maximumBlockSize Good (expectedFade r (ops.numSamples g.obj) (ops.strategy g.obj)) f' g [] c' := by
  obtain ⟨hM, hR, _⟩ := known_of_reaches hA h hp
  obtain ⟨hb, hbn, hgood⟩ := hfit _ (List.mem_singleton.2 rfl)
  rcases playing_of_reaches hA h hq hp with ⟨hf0, _⟩ | ⟨f0, n, j, j', hfa⟩
  · rw [hf0] at hf
    cases hf
  · obtain ⟨h1, h2, h3, h4, h5⟩ := service_fading hR hfa hgood
    obtain ⟨c1, e1, out, f1, ep, _, _, _, _, r1, hid1, s1, s2, s3, s4, s5, hcase⟩ := process_fading hA h1 h2 hb (fun _ => ⟨hbn, hM⟩)
    have ec' : (c.service ops batch).processBody ops blk = some (c', e) := ec
    rw [ep] at ec'
    cases ec'
    have ss : SameSettings c c' := (settings_service c batch).trans ⟨s1, s2, s3, s4, s5⟩
    rcases hcase with ⟨_, _, _, _, hact, _⟩ | ⟨_, hact, _, _, hc⟩
    · rw [hf', h3, ha] at hact
      simp only [Option.map_some, Option.some.injEq] at hact
      exact absurd (hact.symm.trans hid) hne
    · rcases hc with ⟨_, hn, _⟩ | ⟨q, _, hq⟩
      · rw [hn] at hg
        cases hg
      · have := hq.slot
        rw [hg] at this
        cases this
        rw [(settings_service c batch).fadeLength] at hq
        exact expected_of hK hA h hp hr hr1 r1 ss hq hf'

/-- **C35.** The same for a response that had to wait: when the fade to `f` ends and `g` is next, the fade from `f` to `g`
begins with the next block, and is the expected one for `g`. -/
theorem C35_next_fade {ops : ConvOps V} (hx : ops.gains = .exact) {N : ℕ} {Good : V → Prop} (hA : Accepts ops N Good)
    {hist : List (List (Held V) × Call)} {c : Core V} (h : Reaches ops N Good hist c) (hq : QuietResets ops {} hist)
    {p : ProcSpec} (hp : c.spec = some p) {r : ℕ} (hr : p.sampleRate = r) (hr1 : r ≤ 200000)
    {a f : Held V} (ha : c.active = some a) (hf : c.fade = some f) (hne : a.id ≠ f.id)
    {batch : List (Held V)} {blk : Buf} (hfit : Fits N p.maximumBlockSize Good [(batch, blk)]) {c' : Core V} {e : Core.Effects V}
    (ec : c.call ops batch (.process blk) = some (c', e)) {f' g : Held V} (hf' : c'.active = some f') (hid : f'.id = f.id)
    (hg : c'.fade = some g) :
    FadesAsExpected linearFades ops N p.maximumBlockSize Good (expectedFade r (ops.numSamples g.obj) (ops.strategy g.obj)) f' g [] c' :=
  next_fade_of (hx ▸ implements_exact) hA h hq hp hr hr1 ha hf hne hfit ec hf' hid hg

/-! ## C33, C34: fades at any time -/

/-- The fade in progress at any moment. -/
theorem fade_position {ops : ConvOps V} {N : ℕ} {Good : V → Prop} (hA : Accepts ops N Good)
    {hist : List (List (Held V) × Call)} {c : Core V} (h : Reaches ops N Good hist c) (hq : QuietResets ops {} hist)
    {p : ProcSpec} (hp : c.spec = some p) {r : ℕ} (hr : p.sampleRate = r) (hr1 : r ≤ 200000) {f : Held V} (hf : c.fade = some f)
    {st : FadeStrategy} {n : ℕ} (hfade : expectedFade r (ops.numSamples f.obj) (ops.strategy f.obj) = (st, (n : ℤ))) :
    ∃ j j', FadingAt ops c f n j j' ∧ c.strategy = st := by
  rcases playing_of_reaches hA h hq hp with ⟨hf0, _⟩ | ⟨f0, n', j, j', hfa⟩
  · rw [hf0] at hf
    cases hf
  · have := hfa.slot
    rw [hf] at this
    cases this
    have hc := fade_choice hA h hp hr hr1 f.obj
    rw [hfade] at hc
    have h1 : c.chooseStrategy ops f.obj = st := congrArg Prod.fst hc
    have h2 : c.fadeLength ops f.obj = n := congrArg Prod.snd hc
    have : n' = n := by
      have := hfa.length
      omega
    subst this
    exact ⟨j, j', hfa, hfa.strategy.trans h1⟩

/-- A crossfade in progress. -/
theorem crossfade_in_progress {ops : ConvOps V} {K : FadeRule} (hK : Implements ops.gains K) {N : ℕ} {Good : V → Prop} (hA : Accepts ops N Good)
    {hist : List (List (Held V) × Call)} {c : Core V} (h : Reaches ops N Good hist c) (hq : QuietResets ops {} hist)
    {p : ProcSpec} (hp : c.spec = some p) {r : ℕ} (hr : p.sampleRate = r) (hr1 : r ≤ 200000) {f : Held V} (hf : c.fade = some f)
    {n : ℕ} (hfade : expectedFade r (ops.numSamples f.obj) (ops.strategy f.obj) = (.crossfade, (n : ℤ))) :
    ∃ a j, c.active = some a ∧ j < n ∧ Crossfades K ops N p.maximumBlockSize Good n j a f [] c := by
  obtain ⟨hM, hR, _⟩ := known_of_reaches hA h hp
  obtain ⟨j, j', hfa, hs⟩ := fade_position hA h hq hp hr hr1 hf hfade
  cases hfa.cross hs
  obtain ⟨a, ha⟩ := Option.ne_none_iff_exists'.1 hfa.active
  exact ⟨a, j, ha, hfa.hj', crossfades_of hK hA hM hR hfa hs ha⟩

/-- **C33.** Whenever a crossfade is in progress, the output is the mix `(1 − g) · old + g · new` with `g` rising by `1/n` per
sample up to 1, where `old` and `new` process the same input; afterwards the new response plays and the response that arrived
last in the meantime is next. Responses that arrive meanwhile don't disturb it. -/
theorem C33_crossfade {ops : ConvOps V} (hx : ops.gains = .exact) {N : ℕ} {Good : V → Prop} (hA : Accepts ops N Good)
    {hist : List (List (Held V) × Call)} {c : Core V} (h : Reaches ops N Good hist c) (hq : QuietResets ops {} hist)
    {p : ProcSpec} (hp : c.spec = some p) {r : ℕ} (hr : p.sampleRate = r) (hr1 : r ≤ 200000) {f : Held V} (hf : c.fade = some f)
    {n : ℕ} (hfade : expectedFade r (ops.numSamples f.obj) (ops.strategy f.obj) = (.crossfade, (n : ℤ))) :
    ∃ a j, c.active = some a ∧ j < n ∧ Crossfades linearFades ops N p.maximumBlockSize Good n j a f [] c :=
  crossfade_in_progress (hx ▸ implements_exact) hA h hq hp hr hr1 hf hfade

/-- An in/out fade in progress. -/
theorem in_out_in_progress {ops : ConvOps V} {K : FadeRule} (hK : Implements ops.gains K) {N : ℕ} {Good : V → Prop} (hA : Accepts ops N Good)
    {hist : List (List (Held V) × Call)} {c : Core V} (h : Reaches ops N Good hist c) (hq : QuietResets ops {} hist)
    {p : ProcSpec} (hp : c.spec = some p) {r : ℕ} (hr : p.sampleRate = r) (hr1 : r ≤ 200000) {f : Held V} (hf : c.fade = some f)
    {n : ℕ} (hfade : expectedFade r (ops.numSamples f.obj) (ops.strategy f.obj) = (.inOut, (n : ℤ))) :
    ∃ a j, c.active = some a ∧ j < n ∧
      (InOutFades K ops N p.maximumBlockSize Good n j a f [] c ∨ SecondHalf K ops N p.maximumBlockSize Good n j a f c) := by
  obtain ⟨hM, hR, _⟩ := known_of_reaches hA h hp
  obtain ⟨j, j', hfa, hs⟩ := fade_position hA h hq hp hr hr1 hf hfade
  obtain ⟨a, ha⟩ := Option.ne_none_iff_exists'.1 hfa.active
  rcases Nat.lt_or_ge j n with hj | hj
  · cases hfa.inout hs hj
    exact ⟨a, j, ha, hj, Or.inl (inOutFades_of hK hA hR hfa hs ha)⟩
  · have := hfa.hj
    obtain rfl : j = n := by omega
    exact ⟨a, j', ha, hfa.hj', Or.inr (secondHalf_of hK hA hR hfa hs ha)⟩

/-- **C34.** Whenever an in/out fade is in progress, it is either in its first half, in which the old response alone processes
the input and is faded out, or in its second half, in which the new response alone processes the input and is faded in. -/
theorem C34_in_out_fade {ops : ConvOps V} (hx : ops.gains = .exact) {N : ℕ} {Good : V → Prop} (hA : Accepts ops N Good)
    {hist : List (List (Held V) × Call)} {c : Core V} (h : Reaches ops N Good hist c) (hq : QuietResets ops {} hist)
    {p : ProcSpec} (hp : c.spec = some p) {r : ℕ} (hr : p.sampleRate = r) (hr1 : r ≤ 200000) {f : Held V} (hf : c.fade = some f)
    {n : ℕ} (hfade : expectedFade r (ops.numSamples f.obj) (ops.strategy f.obj) = (.inOut, (n : ℤ))) :
    ∃ a j, c.active = some a ∧ j < n ∧
      (InOutFades linearFades ops N p.maximumBlockSize Good n j a f [] c ∨ SecondHalf linearFades ops N p.maximumBlockSize Good n j a f c) :=
  in_out_in_progress (hx ▸ implements_exact) hA h hq hp hr hr1 hf hfade

end Zones.Props
