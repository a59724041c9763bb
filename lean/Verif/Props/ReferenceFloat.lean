import Verif.Props.ReferenceProof
import Verif.Props.FloatEngine
import Verif.Props.FloatEngineExamples
import Verif.Props.EngineExamples
import Verif.Props.Reference
import Verif.Proofs.EngineFormats
import Verif.Spec.ReferenceFloat

/-!
# In floating point the engine does what the reference engine does, up to rounding: C86
-/

open Zones.Spec Zones.Model Zones.Proofs Zones.Proofs.R

namespace Zones.Props

section

/-! ## Fades are at most 24 bit numbers long -/

def Phase.Short : Phase → Prop
  | .crossfade n _ | .fadeOut n _ | .fadeIn n _ => n ≤ 2 ^ 24
  | _ => True

def Stage.Short : Stage → Prop
  | .steady _ _ => True
  | .fading _ _ _ p => Phase.Short p

theorem short_first (irs : ℕ → Buf) (specs : ℕ → ConvolverSpec) {rate : ℕ} (hr : rate ≤ 200000) (i : ℕ) : Phase.Short (firstPhase irs specs rate i) := by
  have key : ∀ {k : FadeStrategy} {n : ℤ}, expectedFade rate (irs i).n (specs i).fadeStrategy = (k, n) → n.toNat ≤ 2 ^ 24 := by
    intro k n h
    rcases Int.eq_nat_or_neg n with ⟨m, rfl | rfl⟩
    · exact expectedFade_length hr h
    · simp
  unfold firstPhase
  cases h : expectedFade rate (irs i).n (specs i).fadeStrategy with
  | mk k n => cases k <;> exact key h

theorem short_arrive (irs : ℕ → Buf) (specs : ℕ → ConvolverSpec) {rate : ℕ} (hr : rate ≤ 200000) {s : Stage} (h : Stage.Short s) (i : ℕ) : Stage.Short (s.arrive irs specs rate i) := by
  cases s with
  | steady a hs =>
    cases a with
    | none => trivial
    | some a => cases hs with
      | false => exact short_first irs specs hr i
      | true => trivial
  | fading a f w p => cases a <;> exact h

theorem short_batch (irs : ℕ → Buf) (specs : ℕ → ConvolverSpec) {rate : ℕ} (hr : rate ≤ 200000) : ∀ (batch : List ℕ) {s : Stage}, Stage.Short s →
    Stage.Short (batch.foldl (Stage.arrive irs specs rate) s)
  | [], _, h => h
  | i :: batch, _, h => short_batch irs specs hr batch (short_arrive irs specs hr h i)

theorem short_phase {p p' : Phase} (h : Phase.Short p) {n : ℕ} (e : p.after n = some p') : Phase.Short p' := by
  cases p with
  | crossfade n' j =>
    unfold Phase.after at e
    simp only at e
    split at e
    · cases e; exact h
    · cases e
  | fadeOut n' j =>
    unfold Phase.after at e
    simp only at e
    split at e <;> (cases e; exact h)
  | fadeIn n' j =>
    unfold Phase.after at e
    simp only at e
    split at e
    · cases e; exact h
    · cases e
  | stuck k => cases e
  | jump k => cases e

theorem short_after (irs : ℕ → Buf) (specs : ℕ → ConvolverSpec) {rate : ℕ} (hr : rate ≤ 200000) {s : Stage} (h : Stage.Short s) (b : Buf) : Stage.Short (s.after irs specs rate b) := by
  cases s with
  | steady a hs => trivial
  | fading a f w p =>
    cases e : p.after b.n with
    | some p' =>
      rw [after_goes e]
      exact short_phase h e
    | none =>
      rw [after_over e]
      cases w with
      | none => trivial
      | some i => exact short_first irs specs hr i

theorem short_reset (irs : ℕ → Buf) (specs : ℕ → ConvolverSpec) {rate : ℕ} (hr : rate ≤ 200000) {s : Stage} (batch : List ℕ) : Stage.Short (s.reset irs specs rate batch) := by
  have h0 : Stage.Short s.calm := by cases s <;> trivial
  have h1 := short_batch irs specs hr batch h0
  unfold Stage.reset
  generalize batch.foldl (Stage.arrive irs specs rate) s.calm = q at h1
  cases q with
  | steady a h => trivial
  | fading a f w p => cases w with
    | none => trivial
    | some i => exact h1

theorem short_drop {s : Stage} (h : Stage.Short s) : Stage.Short s.drop := by
  cases s with
  | steady a hs => trivial
  | fading a f w p => exact h

theorem short_run (irs : ℕ → Buf) (specs : ℕ → ConvolverSpec) : ∀ (hist : List (List ℕ × Call)) {r : Reference},
    (∀ b ∈ hist, ∀ p g, b.2 = .prepare p g → ∃ r : ℕ, p.sampleRate = r ∧ r ≤ 200000) → r.rate ≤ 200000 → Stage.Short r.stage →
    ∀ t ∈ (Reference.run irs specs r hist).2, Stage.Short t.1
  | [], _, _, _, _ => fun t ht => by cases ht
  | (batch, k) :: rest, r, hr, hrate, hs => by
    intro t ht
    have hstep : (r.call irs specs batch k).1.rate ≤ 200000 ∧ Stage.Short (r.call irs specs batch k).1.stage ∧ ∀ t ∈ (r.call irs specs batch k).2, Stage.Short t.1 := by
      cases k with
      | process b =>
        have := short_batch irs specs hrate batch hs
        refine ⟨hrate, short_after irs specs hrate this b, fun t ht => ?_⟩
        rw [show (r.call irs specs batch (.process b)).2 = [(batch.foldl (Stage.arrive irs specs r.rate) r.stage, b)] from rfl, List.mem_singleton] at ht
        rw [ht]; exact this
      | reset => exact ⟨hrate, short_reset irs specs hrate batch, fun t ht => (by cases ht)⟩
      | prepare p g =>
        obtain ⟨q, hq, hq1⟩ := hr (batch, .prepare p g) (by simp) p g rfl
        have hfl : ⌊p.sampleRate⌋₊ ≤ 200000 := by rw [hq, Nat.floor_natCast]; exact hq1
        exact ⟨hfl, short_reset irs specs hfl batch, fun t ht => (by cases ht)⟩
      | clear => exact ⟨hrate, short_drop (short_reset irs specs hrate batch), fun t ht => (by cases ht)⟩
    rw [Reference.run] at ht
    rcases List.mem_append.mp ht with ht | ht
    · exact hstep.2.2 t ht
    · exact short_run irs specs rest (fun b hb => hr b (by simp [hb])) hstep.1 hstep.2.1 t ht

end

section

variable [Arith] {u τ ε w : ℝ} {L : ℕ}

/-- A convolver for response `i` that has heard `h` (or blocks with the same samples). -/
def HeardAsR (F : RealFFT) (N L : ℕ) (irs : ℕ → Buf) (maxBs : ℕ → ℕ) (specs : ℕ → ConvolverSpec) (Ks Bs : ℕ → ℕ) (schs : ℕ → List Layout) (i : ℕ) (h : List Buf) (v : Convolver) : Prop :=
  Usable (irs i) (maxBs i) (specs i) N ∧ Cut (irs i) (maxBs i) (specs i) L (Ks i) (Bs i) (schs i) ∧
    ∃ past, HeardR F (irs i) (maxBs i) (specs i) N past v ∧ SameSamples N h past

theorem feed_historyR {F : RealFFT} : ∀ (blocks : List Buf) {c v : Convolver} {outs : List Buf}, Spec.feed (Convolver.processR F) c blocks = some (v, outs) →
    v.numSamples = c.numSamples ∧ v.spec = c.spec
  | [], c, v, outs, e => by cases e; exact ⟨rfl, rfl⟩
  | b :: bs, c, v, outs, e => by
    rw [Spec.feed] at e
    obtain ⟨⟨c1, o⟩, e1, e2⟩ := Option.bind_eq_some_iff.mp e
    obtain ⟨⟨q, os⟩, e3, e4⟩ := Option.map_eq_some_iff.mp e2
    cases e4
    obtain ⟨h1, h2⟩ := feed_historyR bs e3
    obtain ⟨h3, h4⟩ := processR_fixed (s' := c1) (blk' := o) e1
    exact ⟨h1.trans h4, h2.trans h3⟩

theorem heardR_fixed {F : RealFFT} {ir : Buf} {maxB N : ℕ} {spec : ConvolverSpec} {past : List Buf} {v : Convolver} (h : HeardR F ir maxB spec N past v) :
    v.numSamples = ir.n ∧ v.spec = spec := by
  obtain ⟨_, c, outs, hf, e⟩ := h
  obtain ⟨h1, h2⟩ := freshR_fixed hf
  obtain ⟨h3, h4⟩ := feed_historyR past e
  exact ⟨h3.trans h1, h4.trans h2⟩

theorem voices_rounded (hA : Accurate u τ L) {F : RealFFT} (hF : Approx F ε) (G : GainArith) (N : ℕ) (irs : ℕ → Buf) (maxBs : ℕ → ℕ) (specs : ℕ → ConvolverSpec)
    (Ks Bs : ℕ → ℕ) (schs : ℕ → List Layout) :
    Voices (convolverOpsR F G) N (ServesR F N L) irs specs (HeardAsR F N L irs maxBs specs Ks Bs schs) where
  good := fun {i h v} ⟨hU, hC, past, hH, _⟩ => ⟨_, _, _, _, _, _, past, hU, hC, hH⟩
  fixed := fun {i h v} ⟨_, _, past, hH, _⟩ => by
    obtain ⟨h1, h2⟩ := heardR_fixed hH
    exact ⟨h1, by show v.spec.fadeStrategy = _; rw [h2]⟩
  hears := fun {i h v blk blk' v' out} ⟨hU, hC, past, hH, hs⟩ hb e => by
    have e : Convolver.processR F v blk' = some (v', out) := e
    obtain ⟨v2, outs, e2, _, hh, _⟩ := HeardR_feed hA hF hU hC hH [blk'] (by simpa using hb.2.1)
    rw [Spec.feed, e, Option.bind_some, Spec.feed] at e2
    cases e2
    exact ⟨hU, hC, past ++ [blk'], hh, List.rel_append hs (.cons hb .nil)⟩
  reset := fun {i h v} ⟨hU, hC, past, hH, _⟩ => ⟨hU, hC, [], HeardR_fresh (HeardR_reset hH), .nil⟩

/-- What a voice makes is the convolution, up to rounding. -/
theorem makes_near (hA : Accurate u τ L) {F : RealFFT} (hF : Approx F ε) {G : GainArith} {N : ℕ} {irs : ℕ → Buf} {maxBs : ℕ → ℕ} {specs : ℕ → ConvolverSpec}
    {Ks Bs : ℕ → ℕ} {schs : ℕ → List Layout} {a : Voice} {blk out : Buf} (h : Makes (convolverOpsR F G) N (HeardAsR F N L irs maxBs specs Ks Bs schs) a blk out) :
    ∀ o < N, ∀ i < blk.n, ∀ e, a.ErrorAt u τ ε L irs specs Ks Bs schs blk o i e → |out.data o i - a.sound irs specs blk o i| ≤ e := by
  intro o ho i hi e he
  obtain ⟨v, blk', v', ⟨hU, hC, past, hH, hs⟩, hb, ep⟩ := h
  have ep : Convolver.processR F v blk' = some (v', out) := ep
  obtain ⟨v2, outs, e2, sh, _, hd⟩ := HeardR_feed hA hF hU hC hH [blk'] (by simpa using hb.2.1)
  rw [Spec.feed, ep, Option.bind_some, Spec.feed] at e2
  cases e2
  have hn : out.n = blk'.n := by cases sh with | cons h _ => exact h.2.symm
  have hi' : i < blk'.n := by rw [← hb.2.2.1]; exact hi
  have hst : stream [out] o i = out.data o i := by
    simp only [stream]
    rw [if_pos (by omega)]
  have hall : SameSamples N (a.heard ++ [blk]) (past ++ [blk']) := List.rel_append hs (.cons hb .nil)
  have hl := Proofs.SameSamples.totalLen hall
  have hsame : ∀ ch < N, ∀ m, stream (past ++ [blk']) ch m = stream (a.heard ++ [blk]) ch m := by
    intro ch hch m
    rcases Nat.lt_or_ge m (totalLen (a.heard ++ [blk])) with hm | hm
    · exact Proofs.SameSamples.stream hall _ hch m hm
    · rw [stream_beyond _ _ _ hm, stream_beyond _ _ _ (by rw [hl]; exact hm)]
  have hlp := Proofs.SameSamples.totalLen hs
  have := hd o ho i (by simpa [totalLen] using hi') e (errorBound_congr hU.inputs (fun ch hch m' h1 h2 => ⟨m', by omega, by omega, hsame ch hch m'⟩) he)
  have e3 : stream ([out] ++ []) o i = out.data o i := by simpa using hst
  have hr : routedConv (irs a.id) (specs a.id).inputRouting (specs a.id).outputRouting (stream (past ++ [blk'])) o (totalLen past + i) = a.sound irs specs blk o i := by
    unfold Voice.sound
    rw [hlp]
    exact routedConv_congr fun c hc _ m _ => hsame _ (route_of_valid hU.inputs c hc).2 m
  rw [← hst, ← hr]
  exact this

theorem makesOf_near (hA : Accurate u τ L) {F : RealFFT} (hF : Approx F ε) {G : GainArith} {N : ℕ} {irs : ℕ → Buf} {maxBs : ℕ → ℕ} {specs : ℕ → ConvolverSpec}
    {Ks Bs : ℕ → ℕ} {schs : ℕ → List Layout} {a : Option Voice} {blk out : Buf} (h : MakesOf (convolverOpsR F G) N (HeardAsR F N L irs maxBs specs Ks Bs schs) blk out a) :
    ∀ o < N, ∀ i < blk.n, ∀ e, errorOf u τ ε L irs specs Ks Bs schs blk o i a e → |out.data o i - soundOf irs specs blk o i a| ≤ e := by
  cases a with
  | none =>
    rw [show out = blk from h]
    intro o _ i _ e he
    rw [show e = 0 from he]
    show |blk.data o i - blk.data o i| ≤ 0
    rw [sub_self, abs_zero]
  | some a => exact makes_near hA hF h

omit [Arith] in
theorem times_one {g : GainArith} (hg : AccurateGains g w) {x c e : ℝ} (h : |x - c| ≤ e) : |g.mul x 1 - c| ≤ e + w * (|c| + e) := by
  have h1 := hg.mul x 1
  rw [mul_one] at h1
  have h2 : |x| ≤ |c| + e := by
    have := abs_add_le c (x - c)
    rw [add_sub_cancel] at this
    linarith
  have h3 := mul_le_mul_of_nonneg_left h2 hg.u_nonneg
  have := abs_sub_le (g.mul x 1) x c
  linarith

omit [Arith] in
theorem times_zero {g : GainArith} (hg : AccurateGains g w) (x : ℝ) : g.mul x 0 = 0 := by
  have := hg.mul x 0
  rw [mul_zero, abs_zero, mul_zero, sub_zero] at this
  exact abs_eq_zero.mp (le_antisymm this (abs_nonneg _))

omit [Arith] in
theorem unscaled_err {g : GainArith} (hg : AccurateGains g w) {x c e out : ℝ} (h : |x - c| ≤ e) (ho : |out - g.mul x 1| ≤ w * |g.mul x 1|) :
    |out - c| ≤ e + ((1 + w) ^ 2 - 1) * (|c| + e) := by
  have h1 := hg.mul x 1
  rw [mul_one] at h1
  have hw := hg.u_nonneg
  have h2 : |x| ≤ |c| + e := by
    have := abs_add_le c (x - c)
    rw [add_sub_cancel] at this
    linarith
  have h3 : |g.mul x 1| ≤ (1 + w) * |x| := by
    have := abs_add_le (g.mul x 1 - x) x
    rw [sub_add_cancel] at this
    linarith
  have h4 : |out - x| ≤ w * ((1 + w) * |x|) + w * |x| := by
    have := abs_sub_le out (g.mul x 1) x
    have h5 := mul_le_mul_of_nonneg_left h3 hw
    linarith
  have h5 := abs_sub_le out x c
  have h6 : ((1 + w) ^ 2 - 1) * |x| ≤ ((1 + w) ^ 2 - 1) * (|c| + e) := mul_le_mul_of_nonneg_left h2 (by nlinarith)
  nlinarith

theorem emits_near (hA : Accurate u τ L) {F : RealFFT} (hF : Approx F ε) {G : GainArith} (hG : AccurateGains G w) {N : ℕ} {irs : ℕ → Buf} {maxBs : ℕ → ℕ}
    {specs : ℕ → ConvolverSpec} {Ks Bs : ℕ → ℕ} {schs : ℕ → List Layout} {s : Stage} {blk out : Buf} (hs : Stage.Short s)
    (h : Emits (nearlyLinearFades w) (convolverOpsR F G) N (HeardAsR F N L irs maxBs specs Ks Bs schs) blk out s) :
    ∀ o < N, ∀ i < blk.n, s.Near u τ ε w L irs specs Ks Bs schs blk o i (out.data o i) := by
  intro o ho i hi
  cases s with
  | steady a _ => exact makesOf_near hA hF h o ho i hi
  | fading a f wait p =>
    obtain ⟨old, new, h1, h2, h3⟩ := h
    have h3 := h3 o ho i hi
    intro eOld eNew hO hN
    have k1 := makesOf_near hA hF h1 o ho i hi eOld hO
    have k2 := makes_near hA hF h2 o ho i hi eNew hN
    show |_ - p.mix i (soundOf irs specs blk o i a) (f.sound irs specs blk o i)| ≤ _
    generalize soundOf irs specs blk o i a = A at k1
    generalize f.sound irs specs blk o i = B at k2
    have hw := hG.u_nonneg
    cases p with
    | crossfade n j =>
      have hv : 1 ≤ (1 + w) ^ (2 * n + 6) := one_le_pow₀ (by linarith)
      exact mix_err fadeGain_range (by linarith) k1 k2 (h3 hs).1
    | fadeOut n j =>
      have hv : 1 ≤ (1 + w) ^ (n + 3) := one_le_pow₀ (by linarith)
      exact scale_err (by linarith [(fadeGain_range (n := n) (t := j + i)).2]) (by linarith) k1 (h3 hs).1
    | fadeIn n j =>
      have hv : 1 ≤ (1 + w) ^ (n + 3) := one_le_pow₀ (by linarith)
      refine scale_err fadeGain_range.1 (by linarith) k2 ((h3 hs).1.trans (mul_le_mul_of_nonneg_left ?_ (by linarith)))
      rw [abs_mul, abs_of_nonneg fadeGain_range.1]
      exact mul_le_of_le_one_left (abs_nonneg _) fadeGain_range.2
    | stuck k =>
      cases k with
      | crossfade =>
        have h4 : out.data o i = G.add (G.mul (old.data o i) 1) (G.mul (new.data o i) 0) := h3
        rw [h4, times_zero hG]
        have := hG.add (G.mul (old.data o i) 1) 0
        rw [add_zero] at this
        exact unscaled_err hG k1 this
      | inOut =>
        have h4 : out.data o i = G.mul (new.data o i) 0 := h3
        rw [h4, times_zero hG]
        show |(0:ℝ) - 0| ≤ 0
        simp
    | jump k =>
      cases k with
      | crossfade =>
        have h4 : out.data o i = G.add (G.mul (old.data o i) 0) (G.mul (new.data o i) 1) := h3
        rw [h4, times_zero hG]
        have := hG.add 0 (G.mul (new.data o i) 1)
        rw [zero_add] at this
        exact unscaled_err hG k2 this
      | inOut =>
        have h4 : out.data o i = G.mul (new.data o i) 1 := h3
        rw [h4]
        exact times_one hG k2

/-- **C86.** In floating point the engine does what the reference engine does, up to rounding: for every history of calls a host may make, resets, clears and arrivals in any order,
every sample of every block is within an explicit bound of the one the reference engine delivers: the errors of the responses that sound (C71), faded as they are, plus the error of the
fade. The same responses are playing, being faded to and waiting. No error outlives the response or the fade it belongs to. -/
theorem C86_reference (hA : Accurate u τ L) {F : RealFFT} (hF : Approx F ε) {G : GainArith} (hG : AccurateGains G w) {N : ℕ} {irs : ℕ → Buf} {maxBs : ℕ → ℕ}
    {specs : ℕ → ConvolverSpec} {Ks Bs : ℕ → ℕ} {schs : ℕ → List Layout} {hist : List (List (Held Convolver) × Call)}
    (hB : BuiltForR F N L irs maxBs specs Ks Bs schs hist) (hw : WellFormed N (ServesR F N L) none hist) (hr : WholeRates hist) :
    ∃ c outs, perform (convolverOpsR F G) {} hist = some (c, outs) ∧ slotIds c = (Reference.run irs specs {} (numbered hist)).1.stage.ids ∧
      RenderedWithin u τ ε w N L irs specs Ks Bs schs outs (Reference.run irs specs {} (numbered hist)).2 := by
  obtain ⟨c, outs, M, ep, hk, ha, he⟩ := agrees_run (K := nearlyLinearFades w) (ops := convolverOpsR F G) (implements_accurate hG) (accepts_convolverR hA hF G N)
    (voices_rounded hA hF G N irs maxBs specs Ks Bs schs) hist (start_known N _) hw
    (fun b hb g hg => ⟨(hB b hb g hg).1, (hB b hb g hg).2.1, [], HeardR_fresh (hB b hb g hg).2.2, .nil⟩) hr (r := {}) ⟨false, rfl⟩
  refine ⟨c, outs, ep, ?_, ?_⟩
  · cases M with
    | none =>
      obtain ⟨h, ha⟩ := ha
      obtain ⟨⟨h1, h2, h3⟩, _⟩ := hk
      rw [ha]
      unfold slotIds
      rw [h1, h2, h3]; rfl
    | some m => exact follows_ids ha.1
  · have hshort := short_run irs specs (numbered hist) (r := {}) (by
      intro b hb p g hk
      unfold numbered at hb
      obtain ⟨x, hx, rfl⟩ := List.mem_map.mp hb
      exact hr x hx p g hk) (Nat.zero_le _) trivial
    clear ep ha hk
    generalize (Reference.run irs specs {} (numbered hist)).2 = tr at he hshort
    induction he with
    | nil => exact .nil
    | cons h _ ih =>
      exact .cons ⟨h.1, h.2.1, h.2.2.1, emits_near hA hF hG (hshort _ (by simp)) h.2.2.2⟩ (ih fun t ht => hshort t (by simp [ht]))

/-- A constructor of convolvers in floating point: for usable requests, with transforms of at most `2^L` points, it returns what `Convolver`'s constructor returns. -/
def ConstructsR (F : RealFFT) (N L : ℕ) (build : Buf × ConvolverSpec → ProcSpec → Convolver) : Prop :=
  ∀ ir cs p, Usable ir p.maximumBlockSize cs N → (∃ K B sch, Cut ir p.maximumBlockSize cs L K B sch) → FreshR F ir p.maximumBlockSize cs N (build (ir, cs) p)

/-- All requests for engine `e` are usable with all its formats, with transforms of at most `2^L` points. -/
def UsableLoadsR (N L e : ℕ) (ls : List (Label (Buf × ConvolverSpec))) : Prop :=
  ∀ (i : ℕ) (ir : Buf) (cs : ConvolverSpec), (loadsIn ls)[i]? = some (e, (ir, cs)) → ∀ p ∈ formatsIn e ls,
    Usable ir p.maximumBlockSize cs N ∧ ∃ K B sch, Cut ir p.maximumBlockSize cs L K B sch

theorem usable_goodR {F : RealFFT} {N L e : ℕ} {build : Buf × ConvolverSpec → ProcSpec → Convolver} {ls : List (Label (Buf × ConvolverSpec))} (hb : ConstructsR F N L build)
    (hU : UsableLoadsR N L e ls) : GoodLoads build (ServesR F N L) e ls := by
  rintro i ⟨ir, cs⟩ p hi hp
  obtain ⟨h1, K, B, sch, h2⟩ := hU i ir cs hi p hp
  exact ⟨ir, p.maximumBlockSize, cs, K, B, sch, [], h1, h2, HeardR_fresh (hb ir cs p h1 ⟨K, B, sch, h2⟩)⟩

/-- **C86.** The same in the concurrent system. Whatever the threads do, whenever an engine in floating point is between two audio-side calls everything it has output is what the reference
engine renders for the audio-side calls made to it and the `LoadIR` calls of the execution, up to rounding; the partitions the bounds refer to are those for the format the engine had last been
prepared for when the job for the response was handed to the thread pool. -/
theorem C86_concurrent (hA : Accurate u τ L) {F : RealFFT} (hF : Approx F ε) {G : GainArith} (hG : AccurateGains G w) {N e : ℕ}
    {build : Buf × ConvolverSpec → ProcSpec → Convolver} (hB : ConstructsR F N L build)
    {ls : List (Label (Buf × ConvolverSpec))} {s : Sys Convolver (Buf × ConvolverSpec)}
    (h : Exec (convolverOpsR F G) build ls s) (ha : (s.engs e).status = .alive) (hi : (s.engs e).pc = .idle)
    (hH : HostBehaves N none (callsIn e ls)) (hU : UsableLoadsR N L e ls) (hr : ∀ p ∈ formatsIn e ls, ∃ r : ℕ, p.sampleRate = r ∧ r ≤ 200000) :
    ∃ (found : List (List ℕ)) (Ks Bs : ℕ → ℕ) (schs : ℕ → List Layout), found.length = (callsIn e ls).length ∧ found.map List.length = takenBy e ls ∧
      found.flatten ++ (s.engs e).cmd.map Held.id = (s.engs e).delivered.map Held.id ∧
      (∀ i ∈ (s.engs e).delivered.map Held.id, ∃ p, HandedOver e i (requestedIR ls i, requestedSpec ls i) p ls ∧ Cut (requestedIR ls i) p.maximumBlockSize (requestedSpec ls i) L (Ks i) (Bs i) (schs i)) ∧
      slotIds (s.engs e).core = (Reference.run (requestedIR ls) (requestedSpec ls) {} (found.zip (callsIn e ls))).1.stage.ids ∧
      RenderedWithin u τ ε w N L (requestedIR ls) (requestedSpec ls) Ks Bs schs (s.engs e).outs
        (Reference.run (requestedIR ls) (requestedSpec ls) {} (found.zip (callsIn e ls))).2 := by
  obtain ⟨hist, h1, h2, ht, h3, h4⟩ := C52_sequential h ha hi
  have hReach := h4 N (ServesR F N L) hH (usable_goodR hB hU)
  have hgot := (exec_sourced h).got e
  have hsorted := (exec_inv h).order.sorted e
  have huniq : ∀ d ∈ (s.engs e).delivered, ∀ d' ∈ (s.engs e).delivered, d.id = d'.id → d = d' := by
    intro d hd d' hd' hid
    rw [List.pairwise_iff_getElem] at hsorted
    obtain ⟨a, ha, rfl⟩ := List.getElem_of_mem hd
    obtain ⟨b, hb, rfl⟩ := List.getElem_of_mem hd'
    rcases Nat.lt_trichotomy a b with hab | hab | hab
    · have := hsorted a b ha hb hab; omega
    · subst hab; rfl
    · have := hsorted b a hb ha hab; omega
  have hex : ∀ k : ℕ, ∃ (p : ProcSpec) (K B : ℕ) (sch : List Layout), ∀ d ∈ (s.engs e).delivered, d.id = k → HandedOver e k (requestedIR ls k, requestedSpec ls k) p ls ∧
      Usable (requestedIR ls k) p.maximumBlockSize (requestedSpec ls k) N ∧ Cut (requestedIR ls k) p.maximumBlockSize (requestedSpec ls k) L K B sch ∧
      FreshR F (requestedIR ls k) p.maximumBlockSize (requestedSpec ls k) N d.obj := by
    intro k
    by_cases hk : ∃ d ∈ (s.engs e).delivered, d.id = k
    · obtain ⟨d, hdm, hdk⟩ := hk
      obtain ⟨⟨ir, cs⟩, q, g0, g3⟩ := hgot d hdm
      have g1 := handedOver_lt g0
      have g2 := handedOver_format g0
      obtain ⟨hu, K, B, sch, hc⟩ := hU _ _ _ g1 q g2
      refine ⟨q, K, B, sch, fun d' hd' hk' => ?_⟩
      have : d' = d := huniq d' hd' d hdm (hk'.trans hdk.symm)
      subst this
      rw [hdk] at g0 g1
      have e1 : requestedIR ls k = ir := by unfold requestedIR; rw [g1]
      have e2 : requestedSpec ls k = cs := by unfold requestedSpec; rw [g1]
      rw [e1, e2, g3]
      exact ⟨g0, hu, hc, hB ir cs q hu ⟨K, B, sch, hc⟩⟩
    · exact ⟨⟨0, 0, 0⟩, 0, 0, [], fun d hd hk' => absurd ⟨d, hd, hk'⟩ hk⟩
  choose q Ks Bs schs hm using hex
  have hBuilt : BuiltForR F N L (requestedIR ls) (fun k => (q k).maximumBlockSize) (requestedSpec ls) Ks Bs schs hist := by
    intro b hb g hg
    have hmem : g ∈ (s.engs e).delivered := by
      rw [← h2]
      exact List.mem_append_left _ (List.mem_flatMap.mpr ⟨b, hb, hg⟩)
    exact (hm g.id g hmem rfl).2
  have hrates : WholeRates hist := by
    intro b hb p g hk
    refine hr p ?_
    unfold formatsIn
    rw [List.mem_filterMap]
    exact ⟨b.2, by rw [← h1]; exact List.mem_map_of_mem hb, by rw [hk]⟩
  obtain ⟨c, outs, ep, hids, hsame⟩ := C86_reference hA hF hG hBuilt hReach.1 hrates
  rw [h3] at ep
  cases ep
  rw [numbered_zip, h1] at hids hsame
  refine ⟨hist.map fun b => b.1.map Held.id, Ks, Bs, schs, ?_, ?_, ?_, ?_, hids, hsame⟩
  · rw [List.length_map, ← h1, List.length_map]
  · rw [← ht, List.map_map]
    exact List.map_congr_left fun b _ => List.length_map _
  · rw [← h2, List.map_append, ← List.flatMap_def, List.map_flatMap]
  · intro i hi
    obtain ⟨d, hd, rfl⟩ := List.mem_map.mp hi
    obtain ⟨g1, _, g2, _⟩ := hm d.id d hd rfl
    exact ⟨_, g1, g2⟩

end

/-! ## Concrete cases, in binary32 -/

noncomputable local instance referenceArith : Arith := single

/-- A history for which the hypotheses of `C86_reference` hold: a crossfade, a response that waits for it to end, a reset in the middle of it. -/
example : ∃ v, let hist : List (List (Held Convolver) × Call) := [([], .prepare exampleFormat fun _ _ => 7), ([⟨1, v⟩], .process exampleBlock),
      ([⟨2, v⟩], .process exampleBlock), ([⟨3, v⟩], .process exampleBlock), ([], .reset), ([], .process exampleBlock)]
    (∃ u τ, Accurate u τ 9) ∧ (∃ ε, Approx singleFFT ε) ∧ AccurateGains (.rounded round24) (2⁻¹ ^ 24) ∧
      BuiltForR singleFFT 2 9 (fun _ => exampleIR) (fun _ => 64) (fun _ => exampleSpec) (fun _ => 18) (fun _ => 64) (fun _ => [⟨1, 9⟩, ⟨4, 18⟩]) hist ∧
      WellFormed 2 (ServesR singleFFT 2 9) none hist ∧ WholeRates hist := by
  obtain ⟨v, hv, hs⟩ := example_convolverR
  refine ⟨v, ⟨_, _, single_accurate 9⟩, ⟨_, singleFFT_approx⟩, ?_, ?_, ?_, ?_⟩
  · exact accurateGains_single
  · intro b hb g hg
    have : g.obj = v := by
      simp only [List.mem_cons, List.not_mem_nil, or_false] at hb
      rcases hb with rfl | rfl | rfl | rfl | rfl | rfl <;> simp at hg <;> rw [hg]
    rw [this]
    exact ⟨exampleUsable, example_cut, hv⟩
  · refine ⟨by simp, fun _ _ => rfl, exampleFormat_valid, by simpa using hs, fun h => (by cases h), rfl, fun k hk => (by cases hk; exact le_rfl), ?_⟩
    refine ⟨by simpa using hs, fun h => (by cases h), rfl, fun k hk => (by cases hk; exact le_rfl), ?_⟩
    refine ⟨by simpa using hs, fun h => (by cases h), rfl, fun k hk => (by cases hk; exact le_rfl), by simp, fun h => (by cases h), ?_⟩
    exact ⟨by simp, fun h => (by cases h), rfl, fun k hk => (by cases hk; exact le_rfl), trivial⟩
  · intro b hb p g hk
    simp only [List.mem_cons, List.not_mem_nil, or_false] at hb
    rcases hb with rfl | rfl | rfl | rfl | rfl | rfl
    · cases hk
      exact ⟨48000, by norm_num [exampleFormat], by norm_num⟩
    all_goals cases hk

theorem constructsR_exists {u τ ε : ℝ} {L : ℕ} (hA : Accurate u τ L) {F : RealFFT} (hF : Approx F ε) (N : ℕ) (v0 : Convolver) : ∃ build, ConstructsR F N L build := by
  classical
  have key : ∀ (r : Buf × ConvolverSpec) (p : ProcSpec), ∃ v, Usable r.1 p.maximumBlockSize r.2 N → (∃ K B sch, Cut r.1 p.maximumBlockSize r.2 L K B sch) →
      FreshR F r.1 p.maximumBlockSize r.2 N v := by
    intro r p
    by_cases h : Usable r.1 p.maximumBlockSize r.2 N ∧ ∃ K B sch, Cut r.1 p.maximumBlockSize r.2 L K B sch
    · obtain ⟨hU, K, B, sch, hC⟩ := h
      obtain ⟨c, e, _⟩ := C71_rounding_error_bounded hA hF hU hC.block hC.scheme hC.sizes junk (fun _ _ => 7)
      exact ⟨c, fun _ _ => ⟨_, _, c, e, Or.inl rfl⟩⟩
    · exact ⟨v0, fun h1 h2 => absurd ⟨h1, h2⟩ h⟩
  choose build hb using key
  exact ⟨build, fun ir cs p h1 h2 => hb (ir, cs) p h1 h2⟩

/-- An execution for which the hypotheses of `C86_concurrent` hold: an engine is created and prepared, a response is loaded and delivered, and ten blocks are processed. -/
example : ∃ (build : Buf × ConvolverSpec → ProcSpec → Convolver) (ls : List (Label (Buf × ConvolverSpec))) (s : Sys Convolver (Buf × ConvolverSpec)),
    ConstructsR singleFFT 2 9 build ∧ Exec singleOps build ls s ∧ (s.engs 0).status = .alive ∧ (s.engs 0).pc = .idle ∧
    HostBehaves 2 none (callsIn 0 ls) ∧ UsableLoadsR 2 9 0 ls ∧ (∀ p ∈ formatsIn 0 ls, ∃ r : ℕ, p.sampleRate = r ∧ r ≤ 200000) ∧
    loadsIn ls = [(0, (exampleIR, exampleSpec))] ∧ (s.engs 0).delivered.map Held.id = [0] ∧ (s.engs 0).cmd = [] ∧ (callsIn 0 ls).length = 11 := by
  obtain ⟨v0, _⟩ := example_convolverR
  obtain ⟨build, hB⟩ := constructsR_exists (single_accurate 9) singleFFT_approx 2 v0
  let ops := singleOps
  let req : Buf × ConvolverSpec := (exampleIR, exampleSpec)
  let pl : List (Label (Buf × ConvolverSpec)) := emptyCall 0 (.prepare exampleFormat fun _ _ => 0)
  obtain ⟨s1, h1, g1, g2, g3, s2, h2, k1, k2, k3⟩ : ∃ s1, Exec ops build ([.create 0] ++ pl) s1 ∧ (s1.engs 0).pc = .idle ∧ (s1.engs 0).status = .alive ∧ (s1.engs 0).delivered = [] ∧
      ∃ s2, Run ops build s1 (loadCall 0 req ++ jobRun 0) s2 ∧ (s2.engs 0).pc = .idle ∧ (s2.engs 0).status = .alive ∧ (s2.engs 0).delivered = [⟨0, build req exampleFormat⟩] := by
    refine ⟨_, .cons (.create rfl) (.cons (.call rfl rfl) (.cons (.service rfl) (.cons (.serviced rfl) (.cons (.body rfl rfl) (.nil _))))), rfl, rfl, rfl, _,
      (.cons (.loadLock rfl ⟨rfl, rfl⟩) (.cons (.loadRemove rfl) (.cons (.loadFlag rfl (by exact Option.some_ne_none exampleFormat)) (.cons (.loadAdd rfl rfl)
    (.cons (.pick rfl) (.cons (.build (j := ⟨0, 0, req, exampleFormat, false, .building⟩) ?_ rfl)
    (.cons (.jobLock (j := ⟨0, 0, req, exampleFormat, false, .built (build req exampleFormat)⟩) ?_ rfl rfl ⟨rfl, rfl⟩)
    (.cons (.jobPush (j := ⟨0, 0, req, exampleFormat, false, .locked (build req exampleFormat)⟩) ?_ rfl rfl rfl ?_)
    (.cons (.jobDone (j := ⟨0, 0, req, exampleFormat, false, .pushed⟩) ?_ rfl rfl) (.nil _)))))))))), ?_, ?_, ?_⟩
    · exact List.Mem.head _
    · exact List.Mem.head _
    · exact List.Mem.head _
    · show (0 : ℕ) < _
      decide
    · exact List.Mem.head _
    · rfl
    · rfl
    · rfl
  have hx := exec_append h1 h2
  have hcalls : callsIn 0 ([.create 0] ++ pl ++ (loadCall 0 req ++ jobRun 0)) = [.prepare exampleFormat fun _ _ => 0] := rfl
  have hloads : loadsIn ([.create 0] ++ pl ++ (loadCall 0 req ++ jobRun 0)) = [(0, req)] := rfl
  have hU : UsableLoadsR 2 9 0 ([.create 0] ++ pl ++ (loadCall 0 req ++ jobRun 0)) := by
    intro i ir cs hi p hp
    unfold formatsIn at hp
    rw [hcalls] at hp
    rw [hloads] at hi
    have hp : p ∈ [exampleFormat] := hp
    rw [List.mem_singleton] at hp
    have := List.mem_of_getElem? hi
    rw [List.mem_singleton] at this
    have : (ir, cs) = (exampleIR, exampleSpec) := congrArg Prod.snd this
    cases this
    subst hp
    exact ⟨exampleUsable, _, _, _, example_cut⟩
  have hbeh : ∀ n, HostBehaves 2 none ([.prepare exampleFormat fun _ _ => 0] ++ (List.replicate n exampleBlock).map Call.process) := by
    intro n
    refine ⟨exampleFormat_valid, ?_⟩
    show HostBehaves 2 (some 64) ((List.replicate n exampleBlock).map Call.process)
    induction n with
    | zero => trivial
    | succ n ih => exact ⟨rfl, fun m hm => (by cases hm; exact le_rfl), ih⟩
  obtain ⟨la, s2', q1, q2, q3, q4, q5, q6, q7⟩ := can_process (accepts_convolverR (single_accurate 9) singleFFT_approx (.rounded round24) 2) (List.replicate 10 exampleBlock) hx k2 k1 (by rw [hcalls]; exact hbeh 10)
    (usable_goodR hB hU)
  have hx2 := exec_append hx q1
  have hcalls2 : callsIn 0 ([.create 0] ++ pl ++ (loadCall 0 req ++ jobRun 0) ++ la) = [.prepare exampleFormat fun _ _ => 0] ++ (List.replicate 10 exampleBlock).map Call.process := by
    rw [callsIn_append, q2, hcalls]
  refine ⟨build, _, s2', hB, hx2, q4, q5, by rw [hcalls2]; exact hbeh 10, ?_, ?_, ?_, ?_, q7 (Or.inr (by simp)), ?_⟩
  · intro i ir cs hi p hp
    refine hU i ir cs ?_ p ?_
    · rw [loadsIn_append, q3, List.append_nil] at hi; exact hi
    · unfold formatsIn at hp ⊢
      rw [hcalls2] at hp
      rw [hcalls]
      exact hp
  · intro p hp
    unfold formatsIn at hp
    rw [hcalls2] at hp
    have hp : p ∈ [exampleFormat] := hp
    rw [List.mem_singleton] at hp
    subst hp
    exact ⟨48000, by norm_num [exampleFormat], by norm_num⟩
  · rw [loadsIn_append, q3, List.append_nil, hloads]
  · rw [q6, k3]; rfl
  · rw [hcalls2]; rfl
end Zones.Props
