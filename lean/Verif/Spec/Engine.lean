import Verif.Model.Engine
import Verif.Spec.Stream

/-!
# Vocabulary for the properties of `ConvolutionEngine`
-/

namespace Zones.Spec
open Zones.Model

/-- Convolvers satisfying `Good` accept every block of `N` channels, keep its shape, and keep satisfying `Good`;
their length and fade strategy never change. -/
structure Accepts {V : Type} (ops : ConvOps V) (N : ℕ) (Good : V → Prop) : Prop where
  process : ∀ v blk, Good v → blk.ch = N → ∃ v' blk', ops.process v blk = some (v', blk') ∧ blk'.ch = N ∧ blk'.n = blk.n ∧
    Good v' ∧ ops.numSamples v' = ops.numSamples v ∧ ops.strategy v' = ops.strategy v
  reset : ∀ v, Good v → Good (ops.reset v) ∧ ops.numSamples (ops.reset v) = ops.numSamples v ∧
    ops.strategy (ops.reset v) = ops.strategy v

/-- Two sequences of `N`-channel blocks that contain the same samples. -/
def SameSamples (N : ℕ) (xs ys : List Buf) : Prop :=
  List.Forall₂ (fun a b => a.ch = N ∧ b.ch = N ∧ a.n = b.n ∧ ∀ ch < N, ∀ i < a.n, a.data ch i = b.data ch i) xs ys

/-- Gain of the new response at sample `t` (counted from 0) of a linear fade over `n` samples. -/
noncomputable def fadeGain (n t : ℕ) : ℝ := min 1 ((t + 1 : ℝ) / n)

/-- What the samples of fades over `n` samples are required to be, at sample `t` of the fade: `mix` of the outputs `old` and `new` of
two responses in a crossfade; a response fading out, a response fading in, in an in/out fade. -/
structure FadeRule where
  mix : (n t : ℕ) → (old new out : ℝ) → Prop
  fadeOut : (n t : ℕ) → (old out : ℝ) → Prop
  fadeIn : (n t : ℕ) → (new out : ℝ) → Prop

/-- Linear fades, exactly. -/
def linearFades : FadeRule where
  mix n t old new out := out = (1 - fadeGain n t) * old + fadeGain n t * new
  fadeOut n t old out := out = (1 - fadeGain n t) * old
  fadeIn n t new out := out = fadeGain n t * new

/-- A processing format for `N` channels: non-zero block size, and a sample rate between 0 (exclusive) and 200 MHz (so
that ten seconds are a number of samples that fits an `int`). -/
def ValidFormat (N : ℕ) (p : ProcSpec) : Prop :=
  p.numChannels = N ∧ 0 < p.maximumBlockSize ∧ 0 < p.sampleRate ∧ p.sampleRate ≤ 200000000

/-- A history of audio-side calls a well-behaved host may make: formats are valid for `N` channels; blocks have `N`
channels and at most the block size of the last `prepare` (`M`; `none`: not prepared); responses arrive only from the
first `prepare` on (`LoadIR` ignores requests before it, see C41) and are `Good`. Resets, clears and further prepares may come at any time. -/
def WellFormed {V : Type} (N : ℕ) (Good : V → Prop) : Option ℕ → List (List (Held V) × Call) → Prop
  | _, [] => True
  | M, (batch, k) :: rest =>
    (∀ g ∈ batch, Good g.obj) ∧ (M = none → (∀ p g, k ≠ .prepare p g) → batch = []) ∧
    match k with
    | .process blk => blk.ch = N ∧ (∀ m, M = some m → blk.n ≤ m) ∧ WellFormed N Good M rest
    | .reset => WellFormed N Good M rest
    | .clear => WellFormed N Good M rest
    | .prepare p _ => ValidFormat N p ∧ WellFormed N Good (some p.maximumBlockSize) rest

/-- The response delivered last, unless the engine has been cleared since. -/
def lastDelivered {V : Type} : Option ℕ → List (List (Held V) × Call) → Option ℕ
  | last, [] => last
  | _, (_, .clear) :: rest => lastDelivered none rest
  | last, (batch, _) :: rest => lastDelivered (batch.getLast?.map Held.id <|> last) rest

/-- The engine's observable stage: which responses it holds as the playing one, the one being faded to, and the one
waiting for that fade to end. -/
def slotIds {V : Type} (c : Core V) : Option ℕ × Option ℕ × Option ℕ :=
  (c.active.map Held.id, c.fade.map Held.id, c.pending.map Held.id)

/-- No `reset`, `prepare` or `Clear` of the history finds one response fading in and another one waiting behind it. -/
def NoResetWhileQueued {V : Type} (ops : ConvOps V) : Core V → List (List (Held V) × Call) → Prop
  | _, [] => True
  | c, (batch, k) :: rest =>
    ((∀ blk, k ≠ .process blk) → ((c.callHead k).service ops batch).pending = none) ∧
    ∀ r, c.call ops batch k = some r → NoResetWhileQueued ops r.1 rest

/-- In addition, no such call picks up a response while another one is playing, or several at once: the responses arrive
through `process`, except possibly the first one. -/
def QuietResets {V : Type} (ops : ConvOps V) : Core V → List (List (Held V) × Call) → Prop
  | _, [] => True
  | c, (batch, k) :: rest =>
    ((∀ blk, k ≠ .process blk) → c.pending = none ∧ (batch = [] ∨ c.active = none ∧ batch.length ≤ 1)) ∧
    ∀ r, c.call ops batch k = some r → QuietResets ops r.1 rest

/-- `c` is the state of a newly constructed engine after the audio-side calls `hist`. -/
def Reaches {V : Type} (ops : ConvOps V) (N : ℕ) (Good : V → Prop) (hist : List (List (Held V) × Call)) (c : Core V) : Prop :=
  WellFormed N Good none hist ∧ ({} : Core V).calls ops hist = some c

/-- The fade that should be used for a response of `L` samples at a sample rate of `r` Hz: responses of ten seconds or more,
and those that ask for it, get an in/out fade of 0.4 s each way; the others a crossfade over 0.14 of their length, but at
least 0.1 s and at most 4 s. -/
def expectedFade (r L : ℕ) (requested : FadeStrategy) : FadeStrategy × ℤ :=
  if requested = .crossfade ∧ L < 10 * r then (.crossfade, max ⌈(r : ℚ) / 10⌉ (min ⌈(14 * L : ℚ) / 100⌉ (4 * r)))
  else (.inOut, ⌈(4 * r : ℚ) / 10⌉)

/-- The blocks of a sequence of `process` calls. -/
abbrev blocksOf {V : Type} (bs : List (List (Held V) × Buf)) : List Buf := bs.map Prod.snd

/-- `process` calls a well-behaved host may make: `N` channels, at most `M` samples, `Good` responses arriving. -/
def Fits {V : Type} (N M : ℕ) (Good : V → Prop) (bs : List (List (Held V) × Buf)) : Prop :=
  ∀ b ∈ bs, b.2.ch = N ∧ b.2.n ≤ M ∧ ∀ g ∈ b.1, Good g.obj

/-- `process` calls during which no new response arrives. -/
abbrev quietly {V : Type} (blocks : List Buf) : List (List (Held V) × Buf) := blocks.map fun b => ([], b)

/-- The output is the mix of the old and the new response, `j` samples into a fade of `n` samples. -/
def Mixes (K : FadeRule) (N n j : ℕ) (blocks outs olds news : List Buf) : Prop :=
  ∀ ch < N, ∀ t < totalLen blocks, K.mix n (j + t) (stream olds ch t) (stream news ch t) (stream outs ch t)

/-- The output fades the old response out, `j` samples into a fade of `n` samples. -/
def FadesOut (K : FadeRule) (N n j : ℕ) (blocks outs olds : List Buf) : Prop :=
  ∀ ch < N, ∀ t < totalLen blocks, K.fadeOut n (j + t) (stream olds ch t) (stream outs ch t)

/-- The output fades the new response in, `j` samples into a fade of `n` samples. -/
def FadesIn (K : FadeRule) (N n j : ℕ) (blocks outs news : List Buf) : Prop :=
  ∀ ch < N, ∀ t < totalLen blocks, K.fadeIn n (j + t) (stream news ch t) (stream outs ch t)

/-- The same `process` calls when the first of them finds the responses `first` before its others. -/
def findingFirst {V : Type} (first : List (Held V)) : List (List (Held V) × Buf) → List (List (Held V) × Buf)
  | [] => []
  | (batch, b) :: bs => (first ++ batch, b) :: bs

/-- The response that arrived last during `bs`, else `before`. -/
def queuedAfter {V : Type} (before : Option (Held V)) (bs : List (List (Held V) × Buf)) : Option (Held V) :=
  (bs.flatMap Prod.fst).getLast? <|> before

/-- A fade from `a` to `f` is over: `f` (by now `f'`) plays, and what arrived last meanwhile is next. -/
def FadeOver {V : Type} (f : Held V) (f' : V) (next : Option (Held V)) (c : Core V) : Prop :=
  c.active = some ⟨f.id, f'⟩ ∧ c.fade = next ∧ c.pending = none

/-- A fade from `a` (by now `a'`) to `f` (by now `f'`) is going on, `next` is what arrived last meanwhile. -/
def FadeOn {V : Type} (a : Held V) (a' : V) (f : Held V) (f' : V) (next : Option (Held V)) (c : Core V) : Prop :=
  c.active = some ⟨a.id, a'⟩ ∧ c.fade = some ⟨f.id, f'⟩ ∧ c.pending = next

/-- `c` is `j` samples into a crossfade of `n` samples from `a` to `f`: the blocks up to and including the one the fade ends in,
whatever arrives meanwhile, become the mix of what `a` makes of them and what `f` makes of them. `first` arrives with the
first block. -/
def Crossfades {V : Type} (K : FadeRule) (ops : ConvOps V) (N M : ℕ) (Good : V → Prop) (n j : ℕ) (a f : Held V) (first : List (Held V)) (c : Core V) : Prop :=
  ∀ bs, Fits N M Good bs → bs ≠ [] → j + totalLen (blocksOf bs).dropLast < n →
    ∃ c' outs a' olds blocks' f' news, c.play ops (findingFirst first bs) = some (c', outs) ∧ SameShape (blocksOf bs) outs ∧
      feed ops.process a.obj (blocksOf bs) = some (a', olds) ∧
      SameSamples N (blocksOf bs) blocks' ∧ feed ops.process f.obj blocks' = some (f', news) ∧
      Mixes K N n j (blocksOf bs) outs olds news ∧
      (j + totalLen (blocksOf bs) < n → FadeOn a a' f f' (queuedAfter c.pending bs) c') ∧
      (n ≤ j + totalLen (blocksOf bs) → FadeOver f f' (queuedAfter c.pending bs) c')

/-- `c` is `j` samples into the second half of an in/out fade, which takes `n` samples: only `f` processes the blocks (up to and
including the one the fade ends in), faded in. `a` is what has been faded out. -/
def SecondHalf {V : Type} (K : FadeRule) (ops : ConvOps V) (N M : ℕ) (Good : V → Prop) (n j : ℕ) (a f : Held V) (c : Core V) : Prop :=
  ∀ bs, Fits N M Good bs → j + totalLen (blocksOf bs).dropLast < n →
    ∃ c' outs f' news, c.play ops bs = some (c', outs) ∧ SameShape (blocksOf bs) outs ∧
      feed ops.process f.obj (blocksOf bs) = some (f', news) ∧ FadesIn K N n j (blocksOf bs) outs news ∧
      (j + totalLen (blocksOf bs) < n → FadeOn a a.obj f f' (queuedAfter c.pending bs) c') ∧
      (n ≤ j + totalLen (blocksOf bs) → FadeOver f f' (queuedAfter c.pending bs) c')

/-- `c` is `j` samples into fading `a` out over `n` samples, to fade `f` in over the next `n`: only `a` processes the blocks (up
to and including the one the first half ends in), faded out; then the second half begins. -/
def InOutFades {V : Type} (K : FadeRule) (ops : ConvOps V) (N M : ℕ) (Good : V → Prop) (n j : ℕ) (a f : Held V) (first : List (Held V)) (c : Core V) : Prop :=
  ∀ bs, Fits N M Good bs → bs ≠ [] → j + totalLen (blocksOf bs).dropLast < n →
    ∃ c' outs a' olds, c.play ops (findingFirst first bs) = some (c', outs) ∧ SameShape (blocksOf bs) outs ∧
      feed ops.process a.obj (blocksOf bs) = some (a', olds) ∧ FadesOut K N n j (blocksOf bs) outs olds ∧
      FadeOn a a' f f.obj (queuedAfter c.pending bs) c' ∧
      (n ≤ j + totalLen (blocksOf bs) → SecondHalf K ops N M Good n 0 ⟨a.id, a'⟩ f c')

/-- The engine fades from `a` to `f` as `expectedFade` says, from the start of the fade. -/
def FadesAsExpected {V : Type} (K : FadeRule) (ops : ConvOps V) (N M : ℕ) (Good : V → Prop) (fade : FadeStrategy × ℤ) (a f : Held V) (first : List (Held V)) (c : Core V) : Prop :=
  match fade.1 with
  | .crossfade => Crossfades K ops N M Good fade.2.toNat 0 a f first c
  | .inOut => InOutFades K ops N M Good fade.2.toNat 0 a f first c

/-- A convolver for `ir` and `spec` in its initial state: just created, or just reset after any use. -/
def Fresh (F : RealFFT) (ir : Buf) (maxB : ℕ) (spec : ConvolverSpec) (N : ℕ) (c : Convolver) : Prop :=
  ∃ g r0 c0, Convolver.create F ir maxB spec g r0 = some c0 ∧
    (c = c0 ∨ ∃ (ops : List Op) (s : Convolver), (∀ b, Op.process b ∈ ops → b.ch = N) ∧
      history (Convolver.process F) Convolver.reset c0 ops = some s ∧ c = s.reset)

/-- A convolver for `ir` and `spec` that has processed the blocks `past` since it was created or reset. -/
def Heard (F : RealFFT) (ir : Buf) (maxB : ℕ) (spec : ConvolverSpec) (N : ℕ) (past : List Buf) (v : Convolver) : Prop :=
  (∀ b ∈ past, b.ch = N) ∧ ∃ c outs, Fresh F ir maxB spec N c ∧ feed (Convolver.process F) c past = some (v, outs)

end Zones.Spec
