import Verif.Props.FloatEngine
import Verif.Props.IeeeError

/-!
# The engine recovers from a NaN or an infinity (C97)
-/

open Zones.Model Zones.Spec Zones.Proofs Zones.Proofs.R

namespace Zones.Props

section generic

variable [Arith] {F : RealFFT} {N : ℕ} {ok : Buf → ℕ → ConvolverSpec → Prop}
  {R : Buf → ℕ → ConvolverSpec → (ℕ → ℕ → ℝ) → ℕ → ℕ → ℝ → Prop}

/-- A new or reset convolver of a response that is `ok` processes any blocks, and its output is related to its input by `R`. -/
def Feeds (F : RealFFT) (N : ℕ) (ok : Buf → ℕ → ConvolverSpec → Prop)
    (R : Buf → ℕ → ConvolverSpec → (ℕ → ℕ → ℝ) → ℕ → ℕ → ℝ → Prop) : Prop :=
  ∀ {ir : Buf} {maxB : ℕ} {spec : ConvolverSpec}, ok ir maxB spec → ∀ {c : Convolver}, FreshR F ir maxB spec N c →
    ∀ blocks : List Buf, (∀ b ∈ blocks, b.ch = N) →
      ∃ c' outs, Spec.feed (Convolver.processR F) c blocks = some (c', outs) ∧ SameShape blocks outs ∧
        ∀ o < N, ∀ n < totalLen blocks, R ir maxB spec (stream blocks) o n (stream outs o n)

/-- A convolver for a response that is `ok`, in any state of use. -/
def ServesOk (F : RealFFT) (N : ℕ) (ok : Buf → ℕ → ConvolverSpec → Prop) (v : Convolver) : Prop :=
  ∃ ir maxB spec past, ok ir maxB spec ∧ HeardR F ir maxB spec N past v

/-- A convolver for response `i`, whatever it has heard. -/
def InUseOk (F : RealFFT) (N : ℕ) (ok : Buf → ℕ → ConvolverSpec → Prop) (irs : ℕ → Buf) (maxBs : ℕ → ℕ) (specs : ℕ → ConvolverSpec)
    (i : ℕ) (v : Convolver) : Prop :=
  ok (irs i) (maxBs i) (specs i) ∧ ∃ past, HeardR F (irs i) (maxBs i) (specs i) N past v

theorem heardOk_feed (hf : Feeds F N ok R) {ir : Buf} {maxB : ℕ} {spec : ConvolverSpec} (hok : ok ir maxB spec) {past : List Buf}
    {v : Convolver} (h : HeardR F ir maxB spec N past v) (blocks : List Buf) (hb : ∀ b ∈ blocks, b.ch = N) :
    ∃ v' outs, Spec.feed (Convolver.processR F) v blocks = some (v', outs) ∧ SameShape blocks outs ∧ HeardR F ir maxB spec N (past ++ blocks) v' ∧
      ∀ o < N, ∀ t < totalLen blocks, R ir maxB spec (stream (past ++ blocks)) o (totalLen past + t) (stream outs o t) := by
  obtain ⟨hp, c, o1, hfr, e1⟩ := h
  have hall : ∀ b ∈ past ++ blocks, b.ch = N := by
    intro b hb'
    rcases List.mem_append.mp hb' with h | h
    · exact hp b h
    · exact hb b h
  obtain ⟨c', o2, e2, sh2, d2⟩ := hf hok hfr (past ++ blocks) hall
  obtain ⟨c1, o1', e1', sh1, _⟩ := hf hok hfr past hp
  rw [e1] at e1'
  cases e1'
  have e3 := e2
  rw [feed_append, e1, Option.bind_some] at e3
  cases hv : Spec.feed (Convolver.processR F) v blocks with
  | none => simp only [hv] at e3; cases e3
  | some q =>
    simp only [hv, Option.map_some, Option.some.injEq, Prod.mk.injEq] at e3
    obtain ⟨e4, e5⟩ := e3
    have hlen : past.length = o1.length := sh1.length_eq
    have sh3 : SameShape blocks q.2 := by
      have := sh2
      rw [← e5] at this
      have h2 := List.forall₂_drop past.length this
      rw [List.drop_left, hlen, List.drop_left] at h2
      exact h2
    have hst : ∀ (xs ys zs : List Buf), SameShape xs ys → ∀ ch t, stream (ys ++ zs) ch (totalLen xs + t) = stream zs ch t := by
      intro xs ys zs hxy ch t
      induction hxy with
      | nil => simp [totalLen]
      | @cons x y xs ys h _ ih =>
        simp only [List.cons_append, stream, totalLen, ← h.2]
        rw [if_neg (by omega), show x.n + totalLen xs + t - x.n = totalLen xs + t by omega]
        exact ih
    refine ⟨q.1, q.2, rfl, sh3, ⟨hall, c, o2, hfr, by rw [e2, e4]⟩, fun o ho t ht => ?_⟩
    have := d2 o ho (totalLen past + t) (by rw [totalLen_append]; omega)
    rwa [← e5, hst past o1 q.2 sh1] at this

theorem accepts_ok (hf : Feeds F N ok R) (g : GainArith) : Accepts (convolverOpsR F g) N (ServesOk F N ok) := by
  constructor
  · rintro v blk ⟨ir, maxB, spec, past, hok, hH⟩ hb
    obtain ⟨v', outs, e, sh, hh, _⟩ := heardOk_feed hf hok hH [blk] (by simpa using hb)
    rw [Spec.feed] at e
    cases hp : Convolver.processR F v blk with
    | none => rw [hp] at e; cases e
    | some r =>
      rw [hp, Option.bind_some, Spec.feed] at e
      simp only [Option.map_some, Option.some.injEq, Prod.mk.injEq] at e
      obtain ⟨e1, e2⟩ := e
      subst e1
      rw [← e2] at sh
      have hs := (List.forall₂_cons.mp sh).1
      obtain ⟨f1, f2⟩ := processR_fixed hp
      exact ⟨r.1, r.2, hp, by rw [← hs.1, hb], hs.2.symm, ⟨ir, maxB, spec, _, hok, hh⟩, f2,
        by show r.1.spec.fadeStrategy = _; rw [f1]; rfl⟩
  · rintro v ⟨ir, maxB, spec, past, hok, hH⟩
    exact ⟨⟨ir, maxB, spec, [], hok, HeardR_fresh (HeardR_reset hH)⟩, rfl, rfl⟩

theorem inUseOk_lasting (hf : Feeds F N ok R) (G : GainArith) (irs : ℕ → Buf) (maxBs : ℕ → ℕ) (specs : ℕ → ConvolverSpec) :
    Lasting (convolverOpsR F G) N (InUseOk F N ok irs maxBs specs) := by
  constructor
  · rintro i v blk v' o ⟨hok, past, hH⟩ hb e
    obtain ⟨v2, outs, e2, _, hh, _⟩ := heardOk_feed hf hok hH [blk] (by simpa using hb)
    have e' : Convolver.processR F v blk = some (v', o) := e
    rw [Spec.feed, e', Option.bind_some, Spec.feed] at e2
    cases e2
    exact ⟨hok, _, hh⟩
  · rintro i v ⟨hok, past, hH⟩
    exact ⟨hok, [], HeardR_fresh (HeardR_reset hH)⟩

/-- After the fades the newest response plays alone. -/
theorem settles_ok (hf : Feeds F N ok R) {G : GainArith} {irs : ℕ → Buf} {maxBs : ℕ → ℕ} {specs : ℕ → ConvolverSpec}
    {hist : List (List (Held Convolver) × Call)}
    (hB : ∀ b ∈ hist, ∀ g ∈ b.1, ok (irs g.id) (maxBs g.id) (specs g.id) ∧ FreshR F (irs g.id) (maxBs g.id) (specs g.id) N g.obj)
    {c : Core Convolver} (h : Reaches (convolverOpsR F G) N (ServesOk F N ok) hist c) (hq : NoResetWhileQueued (convolverOpsR F G) {} hist)
    {p : ProcSpec} (hp : c.spec = some p) {i : ℕ} (hi : lastDelivered none hist = some i)
    (blocks more : List Buf) (hb : ∀ b ∈ blocks ++ more, b.ch = N ∧ b.n ≤ p.maximumBlockSize)
    (hlen : 4 * ((ceilTimes kUpperFadeTimeS p.sampleRate).toNat + p.maximumBlockSize) ≤ totalLen blocks) :
    ∃ c' outs past, c.play (convolverOpsR F G) (quietly (blocks ++ more)) = some (c', outs) ∧ SameShape more (outs.drop blocks.length) ∧
      ok (irs i) (maxBs i) (specs i) ∧
      ∀ o < N, ∀ t, t < totalLen more →
        R (irs i) (maxBs i) (specs i) (stream (past ++ more)) o (totalLen past + t) (stream (outs.drop blocks.length) o t) := by
  have hAcc := accepts_ok hf G
  have hb1 : ∀ b ∈ blocks, b.ch = N ∧ b.n ≤ p.maximumBlockSize := fun b hb' => hb b (by simp [hb'])
  obtain ⟨h1, h2, h3, h4, h5⟩ := known_of_reaches hAcc h hp
  obtain ⟨c0, M0, e0, hk0, ht⟩ := calls_known hAcc hist none {} (start_known N (ServesOk F N ok)) h.1
  rw [h.2] at e0
  cases e0
  have ht := ht none start_tracks hq
  have hrem := remaining_within (ops := convolverOpsR F G) h2 h3
  rw [h5.upper] at hrem
  obtain ⟨c1, o1, e1, hr1, hw1, hn1, hf1, hp1⟩ := settle hAcc h1 blocks c h2 h3 hb1 (by omega)
  have hk1 : Keeps (InUseOk F N ok irs maxBs specs) c :=
    calls_keeps hAcc (inUseOk_lasting hf G irs maxBs specs) hist none {} c (start_known N _) h.1
      ⟨fun x hx => (by cases hx), fun x hx => (by cases hx), fun x hx => (by cases hx)⟩
      (fun b hb g hg => ⟨(hB b hb g hg).1, [], HeardR_fresh (hB b hb g hg).2⟩) h.2
  have hk : Known N (ServesOk F N ok) (some p.maximumBlockSize) c := ⟨h1, h2, h3, p, hp, rfl, h4, h5⟩
  have hwf : ∀ bl : List Buf, (∀ b ∈ bl, b.ch = N ∧ b.n ≤ p.maximumBlockSize) →
      WellFormed N (ServesOk F N ok) (some p.maximumBlockSize) ((quietly bl).map fun b => (b.1, Call.process b.2)) := by
    intro bl
    induction bl with
    | nil => intro _; trivial
    | cons b bl ih =>
      intro hb
      refine ⟨fun _ hg => (by cases hg), fun hm => (by cases hm), (hb b (by simp)).1, ?_, ih fun b' hb' => hb b' (by simp [hb'])⟩
      intro m hm
      cases hm
      exact (hb b (by simp)).2
  have hk2 := calls_keeps hAcc (inUseOk_lasting hf G irs maxBs specs) _ (some p.maximumBlockSize) c c1 hk (hwf blocks hb1) hk1 (by
    intro b hb' g hg
    rw [List.mem_map] at hb'
    obtain ⟨x, hx, rfl⟩ := hb'
    rw [List.mem_map] at hx
    obtain ⟨y, _, rfl⟩ := hx
    cases hg) (play_calls _ e1)
  have hact : c1.active.map Held.id = some i := by
    have h0 : newest c = some i := by rw [ht.1, hi]
    rw [← hn1] at h0
    unfold newest at h0
    rw [hf1, hp1] at h0
    exact h0
  cases ha : c1.active with
  | none => rw [ha] at hact; cases hact
  | some a =>
    rw [ha] at hact
    cases hact
    obtain ⟨hok, past, hH⟩ := hk2.1 a ha
    have hb2 : ∀ b ∈ more, b.ch = N := fun b hb' => (hb b (by simp [hb'])).1
    obtain ⟨c2, a2, o2, e2, ef, sh, _, _⟩ := idle_play hAcc more c1 a hr1 hf1 ha hb2
    obtain ⟨v', outs', ef', _, _, hd⟩ := heardOk_feed hf hok hH more hb2
    have ef0 : Spec.feed (Convolver.processR F) a.obj more = some (a2, o2) := ef
    rw [ef0] at ef'
    cases ef'
    have hl1 : o1.length = blocks.length := by
      have : ∀ (bl : List Buf) (c c' : Core Convolver) (o : List Buf), (∀ b ∈ bl, b.ch = N ∧ b.n ≤ p.maximumBlockSize) →
          Ready N p.maximumBlockSize (ServesOk F N ok) c → Within c → c.play (convolverOpsR F G) (quietly bl) = some (c', o) → o.length = bl.length := by
        intro bl
        induction bl with
        | nil => intro c c' o _ _ _ e; cases e; rfl
        | cons b bl ih =>
          intro c c' o hbb hr hw e
          obtain ⟨c3, e3, out, ep, eo, _, _, r3, w3, _⟩ := process_any hAcc hr hw (hbb b (by simp)).1 (hbb b (by simp)).2 h1
          have e' : ((c.processBody (convolverOpsR F G) b).bind fun r =>
            (r.1.play (convolverOpsR F G) (quietly bl)).map fun q => (q.1, r.2.out.toList ++ q.2)) = some (c', o) := e
          rw [ep, Option.bind_some] at e'
          cases hq : c3.play (convolverOpsR F G) (quietly bl) with
          | none => simp only [hq] at e'; cases e'
          | some q =>
            simp only [hq, eo, Option.map_some, Option.some.injEq, Prod.mk.injEq] at e'
            rw [← e'.2]
            have := ih c3 q.1 q.2 (fun b' hb' => hbb b' (by simp [hb'])) r3 w3 hq
            simp [this]
      exact this blocks c c1 o1 hb1 h2 h3 e1
    refine ⟨c2, o1 ++ o2, past, ?_, ?_, hok, ?_⟩
    · rw [show quietly (blocks ++ more) = quietly blocks ++ quietly more from List.map_append]
      exact play_append _ _ e1 e2
    · rw [← hl1, List.drop_left]
      exact sh
    · intro o ho t ht'
      rw [← hl1, List.drop_left]
      exact hd o ho t ht'

end generic

/-- The conditions of C96 on a response: it is usable, its convolver has the internal block size `B` and the partitions `sch`, transforms of at
most `2^L` points and stages of at most `K` partitions, its error factor is at most 1, and no number gets out of range when the level of the
input is at most `Xmax`. -/
structure Tame (ε Xmax : ℝ) (N L K B : ℕ) (sch : List Layout) (ir : Buf) (maxB : ℕ) (spec : ConvolverSpec) : Prop where
  usable : Usable ir maxB spec N
  cut : Cut ir maxB spec L K B sch
  factor : errorFactor (2⁻¹ ^ 22) (2⁻¹ ^ 23) ε L K sch.length ir.ch ≤ 1
  room : headroom (2⁻¹ ^ 49) B ir sch L Xmax ≤ 2 ^ 124

/-- `Tame` for some block size and partitions. -/
def SomeTame (ε Xmax : ℝ) (N L : ℕ) (ir : Buf) (maxB : ℕ) (spec : ConvolverSpec) : Prop := ∃ K B sch, Tame ε Xmax N L K B sch ir maxB spec

/-- the response delivered last was delivered -/
theorem lastDelivered_mem {V : Type} : ∀ (hist : List (List (Held V) × Call)) (last : Option ℕ) {i : ℕ}, lastDelivered last hist = some i →
    last = some i ∨ ∃ b ∈ hist, ∃ g ∈ b.1, g.id = i
  | [], last, i, h => Or.inl h
  | (batch, k) :: rest, last, i, h => by
    have key : ∀ last', (last' = some i → last = some i ∨ ∃ g ∈ batch, g.id = i) → lastDelivered last' rest = some i →
        last = some i ∨ ∃ b ∈ (batch, k) :: rest, ∃ g ∈ b.1, g.id = i := by
      intro last' hl h
      rcases lastDelivered_mem rest last' h with h | ⟨b, hb, g, hg, e⟩
      · rcases hl h with h | ⟨g, hg, e⟩
        · exact Or.inl h
        · exact Or.inr ⟨(batch, k), by simp, g, hg, e⟩
      · exact Or.inr ⟨b, by simp [hb], g, hg, e⟩
    have other : (batch.getLast?.map Held.id <|> last) = some i → last = some i ∨ ∃ g ∈ batch, g.id = i := by
      intro h
      cases hl : batch.getLast? with
      | none => rw [hl] at h; exact Or.inl h
      | some g =>
        rw [hl] at h
        exact Or.inr ⟨g, List.mem_of_getLast? hl, Option.some.inj h⟩
    cases k with
    | clear => exact key none (by simp) h
    | process b => exact key _ other h
    | reset => exact key _ other h
    | prepare p m => exact key _ other h

section C97

variable {flush : Bool} {repair : ℂ → ℂ → ℂ} {twF twI : ℕ → ℕ → ℂ} {L : ℕ} {ε Xmax : ℝ} {N : ℕ} {F : RealFFT}

/-- the conclusion of C96, for every way to read the scheme -/
def RightIf (ε Xmax : ℝ) (N L : ℕ) (ir : Buf) (maxB : ℕ) (spec : ConvolverSpec) (x : ℕ → ℕ → ℝ) (o n : ℕ) (y : ℝ) : Prop :=
  ∀ K B sch, Tame ε Xmax N L K B sch ir maxB spec → ∀ X : ℕ → ℝ,
    (∀ c < ir.ch, channelAt spec.outputRouting c = o → 2⁻¹ ^ 49 ≤ X c ∧ X c ≤ Xmax ∧
      LevelAround (x (channelAt spec.inputRouting c)) (ir.n + 2^L + B) B n (X c)) →
    IsFinite y ∧ |y - routedConv ir spec.inputRouting spec.outputRouting x o n| ≤
      errorFactor (2⁻¹ ^ 22) (2⁻¹ ^ 23) ε L K sch.length ir.ch * outputWeightF (2⁻¹ ^ 49) B ir sch spec.outputRouting X o

theorem feeds_ieee (hTF : TwiddlesBounded twF) (hTI : TwiddlesBounded twI)
    (hTF' : ∀ k < L, ∀ e < 2 ^ k, ‖twF (2 * 2 ^ k) e - omega (2 * 2 ^ k) ^ e‖ ≤ 2⁻¹ ^ 23)
    (hTI' : ∀ k < L, ∀ e < 2 ^ k, ‖twI (2 * 2 ^ k) e - (omega (2 * 2 ^ k))⁻¹ ^ e‖ ≤ 2⁻¹ ^ 23)
    (hF : ApproxIn F ε (2⁻¹ ^ 99) (2 ^ 125)) (hX : 1 ≤ Xmax) :
    @Feeds (Arith.ieee flush repair twF twI) F N (SomeTame ε Xmax N L) (RightIf ε Xmax N L) := by
  let inst := Arith.ieee flush repair twF twI
  rintro ir maxB spec ⟨K, B, sch, hT⟩ c ⟨g, r0, c0, e0, hc⟩ blocks hN
  obtain ⟨c1, e1, _, hall⟩ := C96_right_after_bad_values flush repair hTF hTI hTF' hTI' hF hT.usable hT.cut.block hT.cut.scheme hT.cut.sizes hX
    hT.factor hT.room g r0
  rw [e0] at e1
  cases e1
  obtain ⟨c', outs, e2, sh, _⟩ := hall c hc blocks hN
  refine ⟨c', outs, e2, sh, fun o ho n hn K' B' sch' hT' X hX' => ?_⟩
  obtain ⟨c1, e1, _, hall'⟩ := C96_right_after_bad_values flush repair hTF hTI hTF' hTI' hF hT'.usable hT'.cut.block hT'.cut.scheme hT'.cut.sizes hX
    hT'.factor hT'.room g r0
  rw [e0] at e1
  cases e1
  obtain ⟨c'', outs', e3, _, d⟩ := hall' c hc blocks hN
  rw [e2] at e3
  cases e3
  exact d o ho n hn X hX'

/-- **C97.** The engine recovers from a NaN or an infinity. Whatever it was given before — any values of the input, any number of responses,
also while responses faded, resets, prepares, clears, as long as no reset hit a waiting response — and whatever the gains of the fades are
computed with: if response `i` was the last to arrive, then after the fades (`blocks`) and once the input of the channels routed to an output
has been at most `Xmax` for as long as the response and two of its largest partitions take, the output is finite and within the error
bound of C93 of the exact convolution of the input with impulse response `i`. -/
theorem C97_engine_recovers (flush : Bool) (repair : ℂ → ℂ → ℂ) {twF twI : ℕ → ℕ → ℂ} (hTF : TwiddlesBounded twF) (hTI : TwiddlesBounded twI)
    {L : ℕ} {ε : ℝ}
    (hTF' : ∀ k < L, ∀ e < 2 ^ k, ‖twF (2 * 2 ^ k) e - omega (2 * 2 ^ k) ^ e‖ ≤ 2⁻¹ ^ 23)
    (hTI' : ∀ k < L, ∀ e < 2 ^ k, ‖twI (2 * 2 ^ k) e - (omega (2 * 2 ^ k))⁻¹ ^ e‖ ≤ 2⁻¹ ^ 23)
    {F : RealFFT} (hF : ApproxIn F ε (2⁻¹ ^ 99) (2 ^ 125)) {Xmax : ℝ} (hX : 1 ≤ Xmax) {G : GainArith} {N : ℕ}
    {irs : ℕ → Buf} {maxBs : ℕ → ℕ} {specs : ℕ → ConvolverSpec} {Ks Bs : ℕ → ℕ} {schs : ℕ → List Layout} :
    letI := Arith.ieee flush repair twF twI
    ∀ {hist : List (List (Held Convolver) × Call)},
    (∀ b ∈ hist, ∀ g ∈ b.1, Tame ε Xmax N L (Ks g.id) (Bs g.id) (schs g.id) (irs g.id) (maxBs g.id) (specs g.id) ∧
      FreshR F (irs g.id) (maxBs g.id) (specs g.id) N g.obj) →
    ∀ {c : Core Convolver}, Reaches (convolverOpsR F G) N (ServesOk F N (SomeTame ε Xmax N L)) hist c →
    NoResetWhileQueued (convolverOpsR F G) {} hist → ∀ {p : ProcSpec}, c.spec = some p → ∀ {i : ℕ}, lastDelivered none hist = some i →
    ∀ blocks more : List Buf, (∀ b ∈ blocks ++ more, b.ch = N ∧ b.n ≤ p.maximumBlockSize) →
    4 * ((ceilTimes kUpperFadeTimeS p.sampleRate).toNat + p.maximumBlockSize) ≤ totalLen blocks →
    ∃ c' outs, c.play (convolverOpsR F G) (quietly (blocks ++ more)) = some (c', outs) ∧ SameShape more (outs.drop blocks.length) ∧
      ∀ o < N, ∀ t, t < totalLen more → (irs i).n + 2 ^ L + Bs i ≤ t + 1 → ∀ X : ℕ → ℝ,
        (∀ k < (irs i).ch, channelAt (specs i).outputRouting k = o → 2⁻¹ ^ 49 ≤ X k ∧ X k ≤ Xmax ∧
          LevelAround (stream (blocks ++ more) (channelAt (specs i).inputRouting k)) ((irs i).n + 2^L + Bs i) (Bs i) (totalLen blocks + t) (X k)) →
        IsFinite (stream (outs.drop blocks.length) o t) ∧
        |stream (outs.drop blocks.length) o t -
          routedConv (irs i) (specs i).inputRouting (specs i).outputRouting (stream (blocks ++ more)) o (totalLen blocks + t)| ≤
          errorFactor (2⁻¹ ^ 22) (2⁻¹ ^ 23) ε L (Ks i) (schs i).length (irs i).ch *
            outputWeightF (2⁻¹ ^ 49) (Bs i) (irs i) (schs i) (specs i).outputRouting X o := by
  let inst := Arith.ieee flush repair twF twI
  intro hist hB c h hq p hp i hi blocks more hb hlen
  obtain ⟨b, hb', g, hg, rfl⟩ := (lastDelivered_mem hist none hi).resolve_left (by simp)
  have hT := (hB b hb' g hg).1
  obtain ⟨c', outs, past, e1, sh, _, hd⟩ := settles_ok (feeds_ieee (N := N) (flush := flush) (repair := repair) hTF hTI hTF' hTI' hF hX) (G := G)
    (irs := irs) (maxBs := maxBs) (specs := specs)
    (fun b hb g hg => ⟨⟨_, _, _, (hB b hb g hg).1⟩, (hB b hb g hg).2⟩) h hq hp hi blocks more hb hlen
  refine ⟨c', outs, e1, sh, fun o ho t ht hn X hX' => ?_⟩
  have hpos := hT.usable.nonempty
  have h2L : 0 < 2 ^ L := by positivity
  have := hd o ho t ht _ _ _ hT X fun k hk hko => by
    obtain ⟨q1, q2, q3, q4⟩ := hX' k hk hko
    refine ⟨q1, q2, q3, fun m' k1 k2 => ?_⟩
    have q5 := q4 (totalLen blocks + (m' - totalLen past)) (by omega) (by omega)
    rw [stream_append_right] at q5
    have e : m' = totalLen past + (m' - totalLen past) := by omega
    rw [e, stream_append_right]
    exact q5
  rwa [routedConv_tail (y := stream (blocks ++ more)) (S := totalLen blocks)
    (fun ch m => by rw [stream_append_right, stream_append_right]) (by omega)] at this

end C97

end Zones.Props
