import Verif.Proofs.EngineConvolverR
import Verif.Proofs.FloatFades
import Verif.Props.EngineExact
import Verif.Props.RoundingExamples

/-!
# The engine in floating point: C74 (fades), C75 (output, with real convolvers), C76 (the newest response finally plays, up to rounding)
-/

open Zones.Spec Zones.Model Zones.Proofs Zones.Proofs.R

namespace Zones.Props

/-! ## C74 -/

section C74

variable {V : Type}

/-- **C74.** In floating point, whenever a crossfade is in progress, the output is the linear mix of the old and the new response up to
rounding: within `(1 + u)^(2n + 6) - 1` (about `2 n u`) of the louder one; the last sample of the fade is the new response alone, up to
the rounding of one product and one sum. -/
theorem C74_crossfade {ops : ConvOps V} {u : ℝ} (hg : AccurateGains ops.gains u) {N : ℕ} {Good : V → Prop} (hA : Accepts ops N Good)
    {hist : List (List (Held V) × Call)} {c : Core V} (h : Reaches ops N Good hist c) (hq : QuietResets ops {} hist)
    {p : ProcSpec} (hp : c.spec = some p) {r : ℕ} (hr : p.sampleRate = r) (hr1 : r ≤ 200000) {f : Held V} (hf : c.fade = some f)
    {n : ℕ} (hfade : expectedFade r (ops.numSamples f.obj) (ops.strategy f.obj) = (.crossfade, (n : ℤ))) :
    ∃ a j, c.active = some a ∧ j < n ∧ Crossfades (nearlyLinearFades u) ops N p.maximumBlockSize Good n j a f [] c :=
  crossfade_in_progress (implements_accurate hg) hA h hq hp hr hr1 hf hfade

/-- **C74.** In floating point, whenever an in/out fade is in progress, the old response is faded out, then the new one faded in, linearly
up to rounding: within `(1 + u)^(n + 3) - 1` (about `n u`) of the response; the last sample of the first half is exactly
silent, and that of the second half is the new response up to the rounding of one product. -/
theorem C74_in_out_fade {ops : ConvOps V} {u : ℝ} (hg : AccurateGains ops.gains u) {N : ℕ} {Good : V → Prop} (hA : Accepts ops N Good)
    {hist : List (List (Held V) × Call)} {c : Core V} (h : Reaches ops N Good hist c) (hq : QuietResets ops {} hist)
    {p : ProcSpec} (hp : c.spec = some p) {r : ℕ} (hr : p.sampleRate = r) (hr1 : r ≤ 200000) {f : Held V} (hf : c.fade = some f)
    {n : ℕ} (hfade : expectedFade r (ops.numSamples f.obj) (ops.strategy f.obj) = (.inOut, (n : ℤ))) :
    ∃ a j, c.active = some a ∧ j < n ∧
      (InOutFades (nearlyLinearFades u) ops N p.maximumBlockSize Good n j a f [] c ∨
        SecondHalf (nearlyLinearFades u) ops N p.maximumBlockSize Good n j a f c) :=
  in_out_in_progress (implements_accurate hg) hA h hq hp hr hr1 hf hfade

/-- **C74.** When a response arrives while another one is playing alone, the fade `expectedFade` says begins with that very block, and
is linear up to rounding. -/
theorem C74_fade_choice {ops : ConvOps V} {u : ℝ} (hg : AccurateGains ops.gains u) {N : ℕ} {Good : V → Prop} (hA : Accepts ops N Good)
    {hist : List (List (Held V) × Call)} {c : Core V} (h : Reaches ops N Good hist c) (hq : QuietResets ops {} hist)
    {p : ProcSpec} (hp : c.spec = some p) {r : ℕ} (hr : p.sampleRate = r) (hr1 : r ≤ 200000)
    (hf : c.fade = none) {a : Held V} (ha : c.active = some a) {g : Held V} (hG : Good g.obj) :
    FadesAsExpected (nearlyLinearFades u) ops N p.maximumBlockSize Good (expectedFade r (ops.numSamples g.obj) (ops.strategy g.obj)) a g [g] c :=
  fade_choice_of (implements_accurate hg) hA h hq hp hr hr1 hf ha hG

/-- **C74.** The same for a response that had to wait for a fade to end. -/
theorem C74_next_fade {ops : ConvOps V} {u : ℝ} (hg : AccurateGains ops.gains u) {N : ℕ} {Good : V → Prop} (hA : Accepts ops N Good)
    {hist : List (List (Held V) × Call)} {c : Core V} (h : Reaches ops N Good hist c) (hq : QuietResets ops {} hist)
    {p : ProcSpec} (hp : c.spec = some p) {r : ℕ} (hr : p.sampleRate = r) (hr1 : r ≤ 200000)
    {a f : Held V} (ha : c.active = some a) (hf : c.fade = some f) (hne : a.id ≠ f.id)
    {batch : List (Held V)} {blk : Buf} (hfit : Fits N p.maximumBlockSize Good [(batch, blk)]) {c' : Core V} {e : Core.Effects V}
    (ec : c.call ops batch (.process blk) = some (c', e)) {f' x : Held V} (hf' : c'.active = some f') (hid : f'.id = f.id)
    (hx : c'.fade = some x) :
    FadesAsExpected (nearlyLinearFades u) ops N p.maximumBlockSize Good (expectedFade r (ops.numSamples x.obj) (ops.strategy x.obj)) f' x [] c' :=
  next_fade_of (implements_accurate hg) hA h hq hp hr hr1 ha hf hne hfit ec hf' hid hx

/-- The fades of the engine are never longer than 24 bit numbers, so that the bounds above always apply. -/
theorem expectedFade_length {r L : ℕ} {s k : FadeStrategy} {n : ℕ} (hr1 : r ≤ 200000) (h : expectedFade r L s = (k, (n : ℤ))) : n ≤ 2 ^ 24 := by
  have h1 : ⌈(r : ℚ) / 10⌉ ≤ 20000 := by
    rw [Int.ceil_le]
    have : (r : ℚ) ≤ 200000 := by exact_mod_cast hr1
    push_cast
    linarith
  have h2 : ⌈(4 * r : ℚ) / 10⌉ ≤ 80000 := by
    rw [Int.ceil_le]
    have : (r : ℚ) ≤ 200000 := by exact_mod_cast hr1
    push_cast
    linarith
  unfold expectedFade at h
  split at h
  · have := congrArg Prod.snd h
    simp only at this
    omega
  · have := congrArg Prod.snd h
    simp only at this
    omega

end C74

/-! ## C75 -/

section C75

variable [Arith] {u τ ε : ℝ} {L K : ℕ}

/-- **C75.** Outside of fades, the engine's output in floating point is within the bound of C71 of the exact convolution of everything
the playing convolver has heard. -/
theorem C75_settled_output (hA : Accurate u τ L) {F : RealFFT} (hF : Approx F ε) {G : GainArith} {N : ℕ}
    {hist : List (List (Held Convolver) × Call)} {c : Core Convolver} (h : Reaches (convolverOpsR F G) N (ServesR F N L) hist c)
    {p : ProcSpec} (hp : c.spec = some p) (hf : c.fade = none) {a : Held Convolver} (ha : c.active = some a)
    {ir : Buf} {maxB : ℕ} {spec : ConvolverSpec} (hU : Usable ir maxB spec N) {B : ℕ} {sch : List Layout} (hC : Cut ir maxB spec L K B sch)
    {past : List Buf} (hH : HeardR F ir maxB spec N past a.obj) (blocks : List Buf) (hb : ∀ b ∈ blocks, b.ch = N) :
    ∃ c' outs, c.play (convolverOpsR F G) (quietly blocks) = some (c', outs) ∧ SameShape blocks outs ∧ slotIds c' = (some a.id, none, none) ∧
      ∀ o < N, ∀ t < totalLen blocks, ∀ e, ErrorBound u τ ε L K B sch ir spec (stream (past ++ blocks)) o (totalLen past + t) e →
        |stream outs o t - routedConv ir spec.inputRouting spec.outputRouting (stream (past ++ blocks)) o (totalLen past + t)| ≤ e := by
  have hAcc := accepts_convolverR hA hF G N
  obtain ⟨_, hR, hW, _⟩ := known_of_reaches hAcc h hp
  obtain ⟨c', a', outs, e1, e2, sh, _, ec⟩ := idle_play hAcc blocks c a hR hf ha hb
  obtain ⟨v', outs', ef', _, _, hd⟩ := HeardR_feed hA hF hU hC hH blocks hb
  have ef0 : Spec.feed (Convolver.processR F) a.obj blocks = some (a', outs) := e2
  rw [ef0] at ef'
  cases ef'
  refine ⟨c', outs, e1, sh, ?_, hd⟩
  subst ec
  have hpd : c.pending = none := by
    cases hc : c.pending with
    | none => rfl
    | some y => exact absurd hf (hW.waiting (by rw [hc]; simp))
  unfold slotIds
  show (some a.id, c.fade.map Held.id, c.pending.map Held.id) = _
  rw [hf, hpd]
  rfl

theorem createR_fixed {F : RealFFT} {ir : Buf} {maxB : ℕ} {spec : ConvolverSpec} {g : Garbage} {r0 : ℕ → ℕ → ℝ} {c : Convolver}
    (h : Convolver.createR F ir maxB spec g r0 = some c) : c.numSamples = ir.n ∧ c.spec = spec := by
  unfold Convolver.createR at h
  simp only [Option.bind_eq_bind, Option.bind_eq_some_iff] at h
  obtain ⟨_, _, _, _, h⟩ := h
  cases h
  exact ⟨rfl, rfl⟩

theorem historyR_fixed {F : RealFFT} : ∀ (ops : List Op) {s s' : Convolver}, history (Convolver.processR F) Convolver.reset s ops = some s' →
    s'.numSamples = s.numSamples ∧ s'.spec = s.spec
  | [], s, s', h => by cases h; exact ⟨rfl, rfl⟩
  | .process b :: ops, s, s', h => by
    rw [history] at h
    cases hp : Convolver.processR F s b with
    | none => rw [hp] at h; cases h
    | some r =>
      rw [hp, Option.bind_some] at h
      obtain ⟨h1, h2⟩ := historyR_fixed ops h
      obtain ⟨h3, h4⟩ := processR_fixed (s' := r.1) (blk' := r.2) hp
      exact ⟨h1.trans h4, h2.trans h3⟩
  | .reset :: ops, s, s', h => by
    rw [history] at h
    obtain ⟨h1, h2⟩ := historyR_fixed ops (s := s.reset) h
    exact ⟨h1, h2⟩

theorem freshR_fixed {F : RealFFT} {ir : Buf} {maxB N : ℕ} {spec : ConvolverSpec} {v : Convolver} (h : FreshR F ir maxB spec N v) :
    v.numSamples = ir.n ∧ v.spec = spec := by
  obtain ⟨g, r0, c0, e, h⟩ := h
  obtain ⟨h1, h2⟩ := createR_fixed e
  rcases h with rfl | ⟨ops, s, _, hs, rfl⟩
  · exact ⟨h1, h2⟩
  · obtain ⟨h3, h4⟩ := historyR_fixed ops hs
    exact ⟨h3.trans h1, h4.trans h2⟩

omit [Arith] in
/-- Error bounds only depend on the samples. -/
theorem errorBound_congr {B : ℕ} {sch : List Layout} {ir : Buf} {spec : ConvolverSpec} {N : ℕ} (hin : ValidRouting spec.inputRouting ir.ch N)
    {x y : ℕ → ℕ → ℝ} {o n n' : ℕ} {e : ℝ}
    (hxy : ∀ ch < N, ∀ m', n' < m' + (ir.n + 2 ^ L + B) → m' < n' + B → ∃ m, n < m + (ir.n + 2 ^ L + B) ∧ m < n + B ∧ y ch m' = x ch m)
    (h : ErrorBound u τ ε L K B sch ir spec x o n e) : ErrorBound u τ ε L K B sch ir spec y o n' e := by
  obtain ⟨X, hX, rfl⟩ := h
  refine ⟨X, fun c hc hco => ⟨(hX c hc hco).1, fun m' h1 h2 => ?_⟩, rfl⟩
  obtain ⟨m, k1, k2, k3⟩ := hxy _ (route_of_valid hin c hc).2 m' h1 h2
  rw [k3]
  exact (hX c hc hco).2 m k1 k2

omit [Arith] in
theorem stream_beyond : ∀ (xs : List Buf) (ch t : ℕ), totalLen xs ≤ t → stream xs ch t = 0
  | [], ch, t, _ => rfl
  | x :: xs, ch, t, h => by
    simp only [totalLen] at h
    simp only [stream]
    rw [if_neg (by omega)]
    exact stream_beyond xs ch _ (by omega)

/-- What a new convolver makes of blocks that have the same samples as `blocks`. -/
theorem freshR_same (hA : Accurate u τ L) {F : RealFFT} (hF : Approx F ε) {ir : Buf} {maxB N : ℕ} {spec : ConvolverSpec} (hU : Usable ir maxB spec N)
    {B : ℕ} {sch : List Layout} (hC : Cut ir maxB spec L K B sch) {v v' : Convolver}
    (h : FreshR F ir maxB spec N v) {blocks blocks' outs : List Buf} (hs : SameSamples N blocks blocks')
    (e : Spec.feed (Convolver.processR F) v blocks' = some (v', outs)) :
    ∀ o < N, ∀ t < totalLen blocks, ∀ e, ErrorBound u τ ε L K B sch ir spec (stream blocks) o t e →
      |stream outs o t - routedConv ir spec.inputRouting spec.outputRouting (stream blocks) o t| ≤ e := by
  intro o ho t ht b hbd
  obtain ⟨v2, outs2, e2, _, hd⟩ := FreshR_feed hA hF hU hC h blocks' (SameSamples_ch hs)
  rw [e] at e2
  cases e2
  have hl := Proofs.SameSamples.totalLen hs
  have hsame : ∀ ch < N, ∀ m, stream blocks' ch m = stream blocks ch m := by
    intro ch hch m
    rcases Nat.lt_or_ge m (totalLen blocks) with hm | hm
    · exact Proofs.SameSamples.stream hs _ hch m hm
    · rw [stream_beyond _ _ _ hm, stream_beyond _ _ _ (by rw [hl]; exact hm)]
  have := hd o ho t (by rw [hl]; exact ht) b (errorBound_congr hU.inputs (fun ch hch m h1 h2 => ⟨m, h1, h2, hsame ch hch m⟩) hbd)
  have hr : routedConv ir spec.inputRouting spec.outputRouting (stream blocks') o t =
      routedConv ir spec.inputRouting spec.outputRouting (stream blocks) o t :=
    routedConv_congr fun c hc _ m hm => hsame _ (route_of_valid hU.inputs c hc).2 m
  rwa [hr] at this

omit [Arith] in
/-- errors of the two responses, and of mixing them -/
theorem mix_err {γ old new out cA cG eA eG η : ℝ} (hγ : 0 ≤ γ ∧ γ ≤ 1) (hη : 0 ≤ η) (h1 : |old - cA| ≤ eA) (h2 : |new - cG| ≤ eG)
    (h3 : |out - ((1 - γ) * old + γ * new)| ≤ η * max |old| |new|) :
    |out - ((1 - γ) * cA + γ * cG)| ≤ (1 - γ) * eA + γ * eG + η * max (|cA| + eA) (|cG| + eG) := by
  have k1 : |old| ≤ |cA| + eA := by
    have := abs_add_le cA (old - cA)
    rw [add_sub_cancel] at this
    linarith
  have k2 : |new| ≤ |cG| + eG := by
    have := abs_add_le cG (new - cG)
    rw [add_sub_cancel] at this
    linarith
  have k3 := mul_le_mul_of_nonneg_left (max_le_max k1 k2) hη
  have k4 : |(1 - γ) * (old - cA) + γ * (new - cG)| ≤ (1 - γ) * eA + γ * eG := by
    refine (abs_add_le _ _).trans ?_
    rw [abs_mul, abs_mul, abs_of_nonneg hγ.1, abs_of_nonneg (by linarith [hγ.2] : (0:ℝ) ≤ 1 - γ)]
    exact add_le_add (mul_le_mul_of_nonneg_left h1 (by linarith [hγ.2])) (mul_le_mul_of_nonneg_left h2 hγ.1)
  have k5 := abs_add_le (out - ((1 - γ) * old + γ * new)) ((1 - γ) * (old - cA) + γ * (new - cG))
  have e : out - ((1 - γ) * old + γ * new) + ((1 - γ) * (old - cA) + γ * (new - cG)) = out - ((1 - γ) * cA + γ * cG) := by ring
  rw [e] at k5
  linarith

omit [Arith] in
/-- errors of one response, and of scaling it -/
theorem scale_err {γ old out cA eA η : ℝ} (hγ : 0 ≤ γ) (hη : 0 ≤ η) (h1 : |old - cA| ≤ eA) (h3 : |out - γ * old| ≤ η * |old|) :
    |out - γ * cA| ≤ γ * eA + η * (|cA| + eA) := by
  have k1 : |old| ≤ |cA| + eA := by
    have := abs_add_le cA (old - cA)
    rw [add_sub_cancel] at this
    linarith
  have k3 := mul_le_mul_of_nonneg_left k1 hη
  have k4 : |γ * (old - cA)| ≤ γ * eA := by
    rw [abs_mul, abs_of_nonneg hγ]
    exact mul_le_mul_of_nonneg_left h1 hγ
  have k5 := abs_add_le (out - γ * old) (γ * (old - cA))
  have e : out - γ * old + γ * (old - cA) = out - γ * cA := by ring
  rw [e] at k5
  linarith

/-- **C75.** A crossfade in floating point, with real convolvers. As C33, up to rounding: if the errors of the old and the new response at a
sample are bounded by `eA` and `eG` (C71), the output is the linear mix of the exact convolutions up to the mix of these errors, plus
the error of the fade itself: a fraction of `(1 + v)^(2n + 6) - 1` of the louder response, where `v` is the unit roundoff of the
engine's arithmetic. -/
theorem C75_crossfade (hA : Accurate u τ L) {F : RealFFT} (hF : Approx F ε) {G : GainArith} {v : ℝ} (hG : AccurateGains G v) {N : ℕ}
    {hist : List (List (Held Convolver) × Call)} {c : Core Convolver}
    (h : Reaches (convolverOpsR F G) N (ServesR F N L) hist c) (hq : QuietResets (convolverOpsR F G) {} hist)
    {p : ProcSpec} (hp : c.spec = some p) {r : ℕ} (hr : p.sampleRate = r) (hr1 : r ≤ 200000) (hf : c.fade = none)
    {a : Held Convolver} (ha : c.active = some a) {irA : Buf} {mA : ℕ} {specA : ConvolverSpec} (hUA : Usable irA mA specA N)
    {KA BA : ℕ} {schA : List Layout} (hCA : Cut irA mA specA L KA BA schA) {past : List Buf} (hHA : HeardR F irA mA specA N past a.obj)
    {g : Held Convolver} {irG : Buf} {mG : ℕ} {specG : ConvolverSpec} (hUG : Usable irG mG specG N)
    {KG BG : ℕ} {schG : List Layout} (hCG : Cut irG mG specG L KG BG schG) (hHG : FreshR F irG mG specG N g.obj)
    {n : ℕ} (hfade : expectedFade r irG.n specG.fadeStrategy = (.crossfade, (n : ℤ)))
    (b : Buf) (bs : List Buf) (hb : ∀ x ∈ b :: bs, x.ch = N ∧ x.n ≤ p.maximumBlockSize) :
    ∃ c' outs, c.play (convolverOpsR F G) (([g], b) :: quietly bs) = some (c', outs) ∧ SameShape (b :: bs) outs ∧
      (n ≤ totalLen (b :: bs) → slotIds c' = (some g.id, none, none)) ∧
      ∀ o < N, ∀ t < totalLen (b :: bs), ∀ eA eG,
        ErrorBound u τ ε L KA BA schA irA specA (stream (past ++ b :: bs)) o (totalLen past + t) eA →
        ErrorBound u τ ε L KG BG schG irG specG (stream (b :: bs)) o t eG →
        let convA := routedConv irA specA.inputRouting specA.outputRouting (stream (past ++ b :: bs)) o (totalLen past + t)
        let convG := routedConv irG specG.inputRouting specG.outputRouting (stream (b :: bs)) o t
        |stream outs o t - ((1 - fadeGain n t) * convA + fadeGain n t * convG)| ≤
          (1 - fadeGain n t) * eA + fadeGain n t * eG + ((1 + v) ^ (2 * n + 6) - 1) * max (|convA| + eA) (|convG| + eG) := by
  have hAcc := accepts_convolverR hA hF G N
  obtain ⟨hM, hR, _⟩ := known_of_reaches hAcc h hp
  obtain ⟨en, es⟩ := freshR_fixed hHG
  have hg : ServesR F N L g.obj := ⟨irG, mG, specG, KG, BG, schG, [], hUG, hCG, HeardR_fresh hHG⟩
  rcases playing_of_reaches hAcc h hq hp with ⟨_, hpd, hrest⟩ | ⟨f, n', j, j', hfa⟩
  · obtain ⟨h1, h2, h3, h4, h5⟩ := first_fade (ops := convolverOpsR F G) hR hrest hf hpd ha hg
    have hc := fade_choice hAcc h hp hr hr1 g.obj
    have e1 : (convolverOpsR F G).numSamples g.obj = irG.n := en
    have e2 : (convolverOpsR F G).strategy g.obj = specG.fadeStrategy := by
      show g.obj.spec.fadeStrategy = _
      rw [es]
    rw [e1, e2, hfade] at hc
    have k1 : c.chooseStrategy (convolverOpsR F G) g.obj = .crossfade := congrArg Prod.fst hc
    have k2 : c.fadeLength (convolverOpsR F G) g.obj = n := congrArg Prod.snd hc
    rw [k2] at h2
    have h2' : FadingAt (convolverOpsR F G) (c.service (convolverOpsR F G) [g]) g n 0 0 := h2
    obtain ⟨c', outs, a', olds, blks', f', news, ep, sh, fa, hsm, ff, hd, _, hend⟩ :=
      crossfade_full (ops := convolverOpsR F G) (implements_accurate hG) hAcc hM (b :: bs) (c.service (convolverOpsR F G) [g]) g a 0 h1 h2'
        (h5.trans k1) h3 h4 hb
    have ep' : c.play (convolverOpsR F G) (([g], b) :: quietly bs) = some (c', outs) := ep
    refine ⟨c', outs, ep', sh, fun hn => ?_, fun o ho t ht eA eG hEA hEG => ?_⟩
    · obtain ⟨q1, q2, q3, _⟩ := hend (by omega)
      unfold slotIds
      rw [q1, q2, q3]; rfl
    · have hbc : ∀ x ∈ b :: bs, x.ch = N := fun x hx => (hb x hx).1
      obtain ⟨v', olds', fa', _, _, hda⟩ := HeardR_feed hA hF hUA hCA hHA (b :: bs) hbc
      have fa0 : Spec.feed (Convolver.processR F) a.obj (b :: bs) = some (a', olds) := fa
      rw [fa0] at fa'
      cases fa'
      have hdg := freshR_same hA hF hUG hCG hHG hsm ff o ho t ht eG hEG
      have hmix := (hd o ho t ht (expectedFade_length hr1 hfade)).1
      rw [Nat.zero_add] at hmix
      have hv : 1 ≤ (1 + v) ^ (2 * n + 6) := one_le_pow₀ (by linarith [hG.u_nonneg])
      exact mix_err fadeGain_range (by linarith) (hda o ho t ht eA hEA) hdg hmix
  · rw [hfa.slot] at hf
    cases hf

/-- **C75.** An in/out fade in floating point, with real convolvers: as C34, up to the errors of the responses and of the fade. -/
theorem C75_in_out_fade (hA : Accurate u τ L) {F : RealFFT} (hF : Approx F ε) {G : GainArith} {v : ℝ} (hG : AccurateGains G v) {N : ℕ}
    {hist : List (List (Held Convolver) × Call)} {c : Core Convolver}
    (h : Reaches (convolverOpsR F G) N (ServesR F N L) hist c) (hq : QuietResets (convolverOpsR F G) {} hist)
    {p : ProcSpec} (hp : c.spec = some p) {r : ℕ} (hr : p.sampleRate = r) (hr1 : r ≤ 200000) (hf : c.fade = none)
    {a : Held Convolver} (ha : c.active = some a) {irA : Buf} {mA : ℕ} {specA : ConvolverSpec} (hUA : Usable irA mA specA N)
    {KA BA : ℕ} {schA : List Layout} (hCA : Cut irA mA specA L KA BA schA) {past : List Buf} (hHA : HeardR F irA mA specA N past a.obj)
    {g : Held Convolver} {irG : Buf} {mG : ℕ} {specG : ConvolverSpec} (hUG : Usable irG mG specG N)
    {KG BG : ℕ} {schG : List Layout} (hCG : Cut irG mG specG L KG BG schG) (hHG : FreshR F irG mG specG N g.obj)
    {n : ℕ} (hfade : expectedFade r irG.n specG.fadeStrategy = (.inOut, (n : ℤ)))
    (b : Buf) (bs second : List Buf) (hb : ∀ x ∈ b :: bs ++ second, x.ch = N ∧ x.n ≤ p.maximumBlockSize)
    (hfirst : totalLen (b :: bs).dropLast < n ∧ n ≤ totalLen (b :: bs)) (hsecond : totalLen second.dropLast < n) :
    ∃ c' outs1 outs2, c.play (convolverOpsR F G) (([g], b) :: quietly (bs ++ second)) = some (c', outs1 ++ outs2) ∧
      SameShape (b :: bs) outs1 ∧ SameShape second outs2 ∧ (n ≤ totalLen second → slotIds c' = (some g.id, none, none)) ∧
      (∀ o < N, ∀ t < totalLen (b :: bs), ∀ eA,
        ErrorBound u τ ε L KA BA schA irA specA (stream (past ++ b :: bs)) o (totalLen past + t) eA →
        let convA := routedConv irA specA.inputRouting specA.outputRouting (stream (past ++ b :: bs)) o (totalLen past + t)
        |stream outs1 o t - (1 - fadeGain n t) * convA| ≤ (1 - fadeGain n t) * eA + ((1 + v) ^ (n + 3) - 1) * (|convA| + eA)) ∧
      ∀ o < N, ∀ t < totalLen second, ∀ eG, ErrorBound u τ ε L KG BG schG irG specG (stream second) o t eG →
        let convG := routedConv irG specG.inputRouting specG.outputRouting (stream second) o t
        |stream outs2 o t - fadeGain n t * convG| ≤ fadeGain n t * eG + ((1 + v) ^ (n + 3) - 1) * (|convG| + eG) := by
  have hAcc := accepts_convolverR hA hF G N
  obtain ⟨en, es⟩ := freshR_fixed hHG
  have hg : ServesR F N L g.obj := ⟨irG, mG, specG, KG, BG, schG, [], hUG, hCG, HeardR_fresh hHG⟩
  have key := C74_fade_choice (ops := convolverOpsR F G) hG hAcc h hq hp hr hr1 hf ha hg
  have e1 : (convolverOpsR F G).numSamples g.obj = irG.n := en
  have e2 : (convolverOpsR F G).strategy g.obj = specG.fadeStrategy := by
    show g.obj.spec.fadeStrategy = _
    rw [es]
  rw [e1, e2, hfade] at key
  have key : InOutFades (nearlyLinearFades v) (convolverOpsR F G) N p.maximumBlockSize (ServesR F N L) n 0 a g [g] c := key
  have hpd : c.pending = none := by
    rcases playing_of_reaches hAcc h hq hp with ⟨_, hpd, _⟩ | ⟨f, n', j, j', hfa⟩
    · exact hpd
    · rw [hfa.slot] at hf; cases hf
  have hbl : ∀ xs : List Buf, blocksOf (quietly (V := Convolver) xs) = xs := by
    intro xs
    induction xs with
    | nil => rfl
    | cons x xs ih =>
      show x :: blocksOf (quietly (V := Convolver) xs) = _
      rw [ih]
  have hfit : ∀ xs : List Buf, (∀ x ∈ xs, x ∈ b :: bs ++ second) → Fits N p.maximumBlockSize (ServesR F N L) (quietly (V := Convolver) xs) := by
    intro xs hxs y hy
    rw [List.mem_map] at hy
    obtain ⟨x, hx, rfl⟩ := hy
    exact ⟨(hb x (hxs x hx)).1, (hb x (hxs x hx)).2, fun g hg => by cases hg⟩
  have hquiet : ∀ xs : List Buf, queuedAfter (none : Option (Held Convolver)) (quietly xs) = none := by
    intro xs
    have : (quietly (V := Convolver) xs).flatMap Prod.fst = [] := by
      induction xs with
      | nil => rfl
      | cons x xs ih => exact ih
    unfold queuedAfter
    rw [this]; rfl
  obtain ⟨c1, o1, a1, olds, ep, sh1, fa, hd1, hon, hsec⟩ := key (quietly (b :: bs)) (hfit (b :: bs) (fun x hx => by
    rw [List.mem_append]; exact Or.inl hx)) (by simp) (by rw [hbl]; omega)
  rw [hbl] at sh1 fa hd1 hsec
  rw [hpd, hquiet] at hon
  obtain ⟨c2, o2, g2, news, ep2, sh2, fg, hd2, _, hover⟩ := hsec (by omega) (quietly second) (hfit second (fun x hx => by
    rw [List.mem_append]; exact Or.inr hx)) (by rw [hbl]; omega)
  rw [hbl] at sh2 fg hd2 hover
  rw [hon.2.2, hquiet] at hover
  have hv : 1 ≤ (1 + v) ^ (n + 3) := one_le_pow₀ (by linarith [hG.u_nonneg])
  have hn24 := expectedFade_length hr1 hfade
  refine ⟨c2, o1, o2, ?_, sh1, sh2, fun hn => ?_, fun o ho t ht eA hEA => ?_, fun o ho t ht eG hEG => ?_⟩
  · have := play_append _ _ ep ep2
    rw [← this]
    congr 1
    show _ = ([g], b) :: (quietly bs ++ quietly second)
    rw [← List.map_append]
  · obtain ⟨q1, q2, q3⟩ := hover (by omega)
    unfold slotIds
    rw [q1, q2, q3]; rfl
  · have hbc : ∀ x ∈ b :: bs, x.ch = N := fun x hx => (hb x (by rw [List.mem_append]; exact Or.inl hx)).1
    obtain ⟨v', olds', fa', _, _, hda⟩ := HeardR_feed hA hF hUA hCA hHA (b :: bs) hbc
    have fa0 : Spec.feed (Convolver.processR F) a.obj (b :: bs) = some (a1, olds) := fa
    rw [fa0] at fa'
    cases fa'
    have hsc := (hd1 o ho t ht hn24).1
    rw [Nat.zero_add] at hsc
    exact scale_err (by linarith [(fadeGain_range (n := n) (t := t)).2]) (by linarith) (hda o ho t ht eA hEA) hsc
  · have hbc : ∀ x ∈ second, x.ch = N := fun x hx => (hb x (by rw [List.mem_append]; exact Or.inr hx)).1
    have hdg := freshR_same hA hF hUG hCG hHG (SameSamples.refl hbc) fg o ho t ht eG hEG
    have hsc := (hd2 o ho t ht hn24).1
    rw [Nat.zero_add] at hsc
    refine scale_err fadeGain_range.1 (by linarith) hdg (hsc.trans (mul_le_mul_of_nonneg_left ?_ (by linarith)))
    rw [abs_mul, abs_of_nonneg fadeGain_range.1]
    exact mul_le_of_le_one_left (abs_nonneg _) fadeGain_range.2

end C75

/-! ## C76 -/

section C76

variable [Arith] {u τ ε : ℝ} {L : ℕ}

/-- Every response of a history is a new convolver for the impulse response and specification `irs`, `specs` assign to it. -/
def BuiltForR (F : RealFFT) (N L : ℕ) (irs : ℕ → Buf) (maxBs : ℕ → ℕ) (specs : ℕ → ConvolverSpec) (Ks Bs : ℕ → ℕ) (schs : ℕ → List Layout)
    (hist : List (List (Held Convolver) × Call)) : Prop :=
  ∀ b ∈ hist, ∀ g ∈ b.1, Usable (irs g.id) (maxBs g.id) (specs g.id) N ∧ Cut (irs g.id) (maxBs g.id) (specs g.id) L (Ks g.id) (Bs g.id) (schs g.id) ∧
    FreshR F (irs g.id) (maxBs g.id) (specs g.id) N g.obj

/-- A convolver for response `i`, whatever it has heard. -/
def InUseR (F : RealFFT) (N L : ℕ) (irs : ℕ → Buf) (maxBs : ℕ → ℕ) (specs : ℕ → ConvolverSpec) (Ks Bs : ℕ → ℕ) (schs : ℕ → List Layout)
    (i : ℕ) (v : Convolver) : Prop :=
  Usable (irs i) (maxBs i) (specs i) N ∧ Cut (irs i) (maxBs i) (specs i) L (Ks i) (Bs i) (schs i) ∧ ∃ past, HeardR F (irs i) (maxBs i) (specs i) N past v

theorem inUseR_lasting (hA : Accurate u τ L) {F : RealFFT} (hF : Approx F ε) (G : GainArith) (N : ℕ) (irs : ℕ → Buf) (maxBs : ℕ → ℕ)
    (specs : ℕ → ConvolverSpec) (Ks Bs : ℕ → ℕ) (schs : ℕ → List Layout) :
    Lasting (convolverOpsR F G) N (InUseR F N L irs maxBs specs Ks Bs schs) := by
  constructor
  · rintro i v blk v' o ⟨hU, hC, past, hH⟩ hb e
    obtain ⟨v2, outs, e2, _, hh, _⟩ := HeardR_feed hA hF hU hC hH [blk] (by simpa using hb)
    have e' : Convolver.processR F v blk = some (v', o) := e
    rw [Spec.feed, e', Option.bind_some, Spec.feed] at e2
    cases e2
    exact ⟨hU, hC, _, hh⟩
  · rintro i v ⟨hU, hC, past, hH⟩
    exact ⟨hU, hC, [], HeardR_fresh (HeardR_reset hH)⟩

/-- **C76.** The end-to-end guarantee in floating point. Whatever happened before (any number of responses, resets, prepares, clears,
as long as no reset hit a waiting response): if response `i` was the last to arrive, then after the fades and as long as the
response and two of its largest partitions take, every output sample is the convolution of the input with impulse response `i` up
to the error bound of C71 — which depends only on the recent input, not on anything that happened before. -/
theorem C76_converges_to_newest (hA : Accurate u τ L) {F : RealFFT} (hF : Approx F ε) {G : GainArith} {N : ℕ} {irs : ℕ → Buf} {maxBs : ℕ → ℕ}
    {specs : ℕ → ConvolverSpec} {Ks Bs : ℕ → ℕ} {schs : ℕ → List Layout}
    {hist : List (List (Held Convolver) × Call)} (hB : BuiltForR F N L irs maxBs specs Ks Bs schs hist) {c : Core Convolver}
    (h : Reaches (convolverOpsR F G) N (ServesR F N L) hist c) (hq : NoResetWhileQueued (convolverOpsR F G) {} hist)
    {p : ProcSpec} (hp : c.spec = some p) {i : ℕ} (hi : lastDelivered none hist = some i)
    (blocks more : List Buf) (hb : ∀ b ∈ blocks ++ more, b.ch = N ∧ b.n ≤ p.maximumBlockSize)
    (hlen : 4 * ((ceilTimes kUpperFadeTimeS p.sampleRate).toNat + p.maximumBlockSize) ≤ totalLen blocks) :
    ∃ c' outs, c.play (convolverOpsR F G) (quietly (blocks ++ more)) = some (c', outs) ∧ SameShape more (outs.drop blocks.length) ∧
      ∀ o < N, ∀ t, t < totalLen more → (irs i).n + 2 ^ L + Bs i ≤ t + 1 → ∀ e,
        ErrorBound u τ ε L (Ks i) (Bs i) (schs i) (irs i) (specs i) (stream (blocks ++ more)) o (totalLen blocks + t) e →
        |stream (outs.drop blocks.length) o t -
          routedConv (irs i) (specs i).inputRouting (specs i).outputRouting (stream (blocks ++ more)) o (totalLen blocks + t)| ≤ e := by
  have hAcc := accepts_convolverR hA hF G N
  have hb1 : ∀ b ∈ blocks, b.ch = N ∧ b.n ≤ p.maximumBlockSize := fun b hb' => hb b (by simp [hb'])
  obtain ⟨h1, h2, h3, h4, h5⟩ := known_of_reaches hAcc h hp
  obtain ⟨c0, M0, e0, hk0, ht⟩ := calls_known hAcc hist none {} (start_known N (ServesR F N L)) h.1
  rw [h.2] at e0
  cases e0
  have ht := ht none start_tracks hq
  have hrem := remaining_within (ops := convolverOpsR F G) h2 h3
  rw [h5.upper] at hrem
  obtain ⟨c1, o1, e1, hr1, hw1, hn1, hf1, hp1⟩ := settle hAcc h1 blocks c h2 h3 hb1 (by omega)
  have hk1 : Keeps (InUseR F N L irs maxBs specs Ks Bs schs) c :=
    calls_keeps hAcc (inUseR_lasting hA hF G N irs maxBs specs Ks Bs schs) hist none {} c (start_known N _) h.1
      ⟨fun x hx => (by cases hx), fun x hx => (by cases hx), fun x hx => (by cases hx)⟩
      (fun b hb g hg => ⟨(hB b hb g hg).1, (hB b hb g hg).2.1, [], HeardR_fresh (hB b hb g hg).2.2⟩) h.2
  have hk : Known N (ServesR F N L) (some p.maximumBlockSize) c := ⟨h1, h2, h3, p, hp, rfl, h4, h5⟩
  have hwf : ∀ bl : List Buf, (∀ b ∈ bl, b.ch = N ∧ b.n ≤ p.maximumBlockSize) →
      WellFormed N (ServesR F N L) (some p.maximumBlockSize) ((quietly bl).map fun b => (b.1, Call.process b.2)) := by
    intro bl
    induction bl with
    | nil => intro _; trivial
    | cons b bl ih =>
      intro hb
      refine ⟨fun _ hg => (by cases hg), fun hm => (by cases hm), (hb b (by simp)).1, ?_, ih fun b' hb' => hb b' (by simp [hb'])⟩
      intro m hm
      cases hm
      exact (hb b (by simp)).2
  have hk2 := calls_keeps hAcc (inUseR_lasting hA hF G N irs maxBs specs Ks Bs schs) _ (some p.maximumBlockSize) c c1 hk (hwf blocks hb1) hk1 (by
    intro b hb' g hg
    rw [List.mem_map] at hb'
    obtain ⟨x, hx, rfl⟩ := hb'
    rw [List.mem_map] at hx
    obtain ⟨y, _, rfl⟩ := hx
    cases hg) (play_calls _ e1)
  have hact : c1.active.map Held.id = some i := by
    have h0 : newest c = some i := by rw [ht.1, hi]
    rw [← hn1] at h0
    unfold newest at h0
    rw [hf1, hp1] at h0
    exact h0
  cases ha : c1.active with
  | none => rw [ha] at hact; cases hact
  | some a =>
    rw [ha] at hact
    cases hact
    obtain ⟨hU, hC, past, hH⟩ := hk2.1 a ha
    have hb2 : ∀ b ∈ more, b.ch = N := fun b hb' => (hb b (by simp [hb'])).1
    obtain ⟨c2, a2, o2, e2, ef, sh, _, _⟩ := idle_play hAcc more c1 a hr1 hf1 ha hb2
    obtain ⟨v', outs', ef', _, _, hd⟩ := HeardR_feed hA hF hU hC hH more hb2
    have ef0 : Spec.feed (Convolver.processR F) a.obj more = some (a2, o2) := ef
    rw [ef0] at ef'
    cases ef'
    have hl1 : o1.length = blocks.length := by
      have : ∀ (bl : List Buf) (c c' : Core Convolver) (o : List Buf), (∀ b ∈ bl, b.ch = N ∧ b.n ≤ p.maximumBlockSize) →
          Ready N p.maximumBlockSize (ServesR F N L) c → Within c → c.play (convolverOpsR F G) (quietly bl) = some (c', o) → o.length = bl.length := by
        intro bl
        induction bl with
        | nil => intro c c' o _ _ _ e; cases e; rfl
        | cons b bl ih =>
          intro c c' o hbb hr hw e
          obtain ⟨c3, e3, out, ep, eo, _, _, r3, w3, _⟩ := process_any hAcc hr hw (hbb b (by simp)).1 (hbb b (by simp)).2 h1
          have e' : ((c.processBody (convolverOpsR F G) b).bind fun r =>
            (r.1.play (convolverOpsR F G) (quietly bl)).map fun q => (q.1, r.2.out.toList ++ q.2)) = some (c', o) := e
          rw [ep, Option.bind_some] at e'
          cases hq : c3.play (convolverOpsR F G) (quietly bl) with
          | none => simp only [hq] at e'; cases e'
          | some q =>
            simp only [hq, eo, Option.map_some, Option.some.injEq, Prod.mk.injEq] at e'
            rw [← e'.2]
            have := ih c3 q.1 q.2 (fun b' hb' => hbb b' (by simp [hb'])) r3 w3 hq
            simp [this]
      exact this blocks c c1 o1 hb1 h2 h3 e1
    refine ⟨c2, o1 ++ o2, ?_, ?_, ?_⟩
    · rw [show quietly (blocks ++ more) = quietly blocks ++ quietly more from List.map_append]
      exact play_append _ _ e1 e2
    · rw [← hl1, List.drop_left]
      exact sh
    · intro o ho t ht' hn e he
      rw [← hl1, List.drop_left]
      have hpos := hU.nonempty
      have h2L : 0 < 2 ^ L := by positivity
      have := hd o ho t ht' e (errorBound_congr hU.inputs (fun ch hch m' k1 k2 => by
        refine ⟨totalLen blocks + (m' - totalLen past), by omega, by omega, ?_⟩
        rw [stream_append_right]
        have : m' = totalLen past + (m' - totalLen past) := by omega
        rw [this, stream_append_right, ← this]) he)
      rwa [routedConv_tail (y := stream (blocks ++ more)) (S := totalLen blocks)
        (fun ch m => by rw [stream_append_right, stream_append_right]) (by omega)] at this

end C76

end Zones.Props
