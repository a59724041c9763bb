import Verif.Model.Convolver
import Verif.Model.Partitioning

/-!
# Model of `ConvolutionEngine` (ConvolutionEngine.{h,cpp}): slots, fades, audio-side calls

The engine is modelled over an arbitrary type `V` of convolvers with the operations the engine uses (`ConvOps`); the real
`Convolver` is one instance (`convolverOps`). This file contains what the calls `process`, `reset`, `prepare` and
`Clear` do to the slots, the smoothers and the block; queues and threads are in `Model/EngineSys.lean`.

`juce::LinearSmoothedValue<float>` and `AudioBlock::multiplyBy` are external and modelled after their source. Their arithmetic, and
that of mixing two blocks, is a parameter (`GainArith`): exact, or rounding in any way.
-/

namespace Zones.Model

/-! ## juce::LinearSmoothedValue -/

/-- The `float` arithmetic of the fades: what `a + b`, `a - b`, `a * b` and `a / static_cast<float> (n)` return. Simplifications: values
are real numbers (no infinities and NaNs), and an operation is a function of the values of its operands.
They are those of `smoothed_value_in_` and `smoothed_value_out_` (ConvolutionEngine.h:157-158) and of
ConvolutionEngine.cpp:178-180, 189, 194. -/
structure GainArith where
  add : ℝ → ℝ → ℝ
  sub : ℝ → ℝ → ℝ
  mul : ℝ → ℝ → ℝ
  div : ℝ → ℕ → ℝ

/-- Arithmetic without rounding. For ConvolutionEngine.cpp:178-180, 189, 194. -/
noncomputable def GainArith.exact : GainArith where
  add a b := a + b
  sub a b := a - b
  mul a b := a * b
  div a n := a / n

/-- Arithmetic that rounds the result of every operation, and the `int` it divides by, with `r`.
For ConvolutionEngine.cpp:178-180, 189, 194. -/
noncomputable def GainArith.rounded (r : ℝ → ℝ) : GainArith where
  add a b := r (a + b)
  sub a b := r (a - b)
  mul a b := r (a * b)
  div a n := r (a / r n)

/-- `juce::SmoothedValue<float, Linear>`; a default constructed one is all zeros (ConvolutionEngine.h:157-158). -/
structure Smooth where
  current : ℝ := 0
  target : ℝ := 0
  step : ℝ := 0
  countdown : ℕ := 0
  steps : ℤ := 0

namespace Smooth

/-- `isSmoothing`. Called in ConvolutionEngine.cpp:184, 198. -/
def isSmoothing (s : Smooth) : Bool := decide (0 < s.countdown)

/-- `setCurrentAndTargetValue`. Called in ConvolutionEngine.cpp:131-132. -/
def setCurrentAndTarget (s : Smooth) (v : ℝ) : Smooth := { s with current := v, target := v, countdown := 0 }

/-- `reset (int numSteps)`. Called in ConvolutionEngine.cpp:292-293. -/
def reset (s : Smooth) (n : ℤ) : Smooth := { s with steps := n }.setCurrentAndTarget s.target

/-- `setTargetValue`. Called in ConvolutionEngine.cpp:125-126. -/
noncomputable def setTarget (g : GainArith) (s : Smooth) (v : ℝ) : Smooth :=
  if v = s.target then s
  else if s.steps ≤ 0 then s.setCurrentAndTarget v
  else { s with target := v, countdown := s.steps.toNat, step := g.div (g.sub v s.current) s.steps.toNat }

/-- `getNextValue`: the value returned and the new state. Called by `multiplyBy` (ConvolutionEngine.cpp:178-179, 189, 194). -/
def next (g : GainArith) (s : Smooth) : ℝ × Smooth :=
  if s.countdown = 0 then (s.target, s)
  else if s.countdown = 1 then (s.target, { s with countdown := 0, current := s.target })
  else (g.add s.current s.step, { s with countdown := s.countdown - 1, current := g.add s.current s.step })

/-- The state after `n` calls of `getNextValue`. As in ConvolutionEngine.cpp:178-179, 189, 194. -/
def advance (g : GainArith) (s : Smooth) : ℕ → Smooth
  | 0 => s
  | n + 1 => ((s.advance g n).next g).2

/-- The value returned by call number `i` (from 0). As in ConvolutionEngine.cpp:178-179, 189, 194. -/
def value (g : GainArith) (s : Smooth) (i : ℕ) : ℝ := ((s.advance g i).next g).1

end Smooth

/-- Multiply sample `i` of every channel by `gain i`. Part of `multiplyBy` (ConvolutionEngine.cpp:178-179, 189, 194). -/
noncomputable def Buf.scale (g : GainArith) (b : Buf) (gain : ℕ → ℝ) : Buf :=
  { b with data := fun c i => if c < b.ch ∧ i < b.n then g.mul (b.data c i) (gain i) else b.data c i }

/-- `AudioBlock::multiplyBy (SmoothedValue &)`: the constant target if it is not smoothing, else one value per sample.
Called in ConvolutionEngine.cpp:178-179, 189, 194. -/
noncomputable def Buf.multiplyBy (g : GainArith) (b : Buf) (s : Smooth) : Buf × Smooth :=
  if s.isSmoothing then (b.scale g (s.value g), s.advance g b.n) else (b.scale g fun _ => s.target, s)

/-- `AudioBlock::add` with the given arithmetic. Called in ConvolutionEngine.cpp:180. -/
noncomputable def Buf.mix (g : GainArith) (dst src : Buf) : Option Buf :=
  if dst.ch = src.ch then
    some { dst with data := fun c i =>
      if c < dst.ch ∧ i < min dst.n src.n then g.add (dst.data c i) (src.data c i) else dst.data c i }
  else none

/-! ## Convolvers as seen by the engine -/

/-- What the engine uses: `Convolver::Process`, `Reset`, `GetNumSamples`, `GetConvolverSpec ().fade_strategy`
(Convolver.h:23-31), and the arithmetic of its fades. -/
structure ConvOps (V : Type) where
  process : V → Buf → Option (V × Buf)
  reset : V → V
  numSamples : V → ℕ
  strategy : V → FadeStrategy
  gains : GainArith

/-- The operations of the real `Convolver`, in exact arithmetic (Convolver.cpp:49-108). -/
noncomputable def convolverOps (F : RealFFT) : ConvOps Convolver :=
  ⟨Convolver.process F, Convolver.reset, Convolver.numSamples, fun c => c.spec.fadeStrategy, .exact⟩

/-- A convolver object with an identity (the number of the `LoadIR` call it was built for).
A `std::unique_ptr<Convolver>` (ConvolutionEngine.h:64, 80, 153-155) that is not null. -/
structure Held (V : Type) where
  id : ℕ
  obj : V

/-- `juce::dsp::ProcessSpec` (ConvolutionEngine.h:106, 161). -/
structure ProcSpec where
  sampleRate : ℚ
  maximumBlockSize : ℕ
  numChannels : ℕ

/-- Members of `ConvolutionEngine` that only `process`, `reset`, `prepare` and `Clear` use (ConvolutionEngine.h:153-176).
The four lengths are uninitialised until `prepare`. -/
structure Core (V : Type) where
  active : Option (Held V) := none
  fade : Option (Held V) := none
  pending : Option (Held V) := none
  sIn : Smooth := {}
  sOut : Smooth := {}
  fadeBuf : Buf := ⟨0, 0, fun _ _ => 0⟩
  spec : Option ProcSpec := none
  strategy : FadeStrategy := .inOut
  lower : ℤ := 0
  upper : ℤ := 0
  maxCrossfade : ℤ := 0
  inOut : ℤ := 0

/-- `kLowerFadeTimeS` as a float (ConvolutionEngine.h:167). -/
noncomputable def kLowerFadeTimeS : ℚ := f32 (1/10)
/-- `kUpperFadeTimeS` (ConvolutionEngine.h:168). -/
noncomputable def kUpperFadeTimeS : ℚ := f32 4
/-- `kFadeRatio` (ConvolutionEngine.h:169). -/
noncomputable def kFadeRatio : ℚ := f32 (14/100)
/-- `kMaxCrossFadeIrTimeS` (ConvolutionEngine.h:170). -/
noncomputable def kMaxCrossFadeIrTimeS : ℚ := f32 10
/-- `kInOutFadeTimeS` (ConvolutionEngine.h:171). -/
noncomputable def kInOutFadeTimeS : ℚ := f32 (4/10)

/-- `static_cast<int> (std::ceil (k * static_cast<float> (x)))` (ConvolutionEngine.cpp:114, 142-151). -/
noncomputable def ceilTimes (k x : ℚ) : ℤ := ⌈f32 (k * f32 x)⌉

/-- `std::clamp` (ConvolutionEngine.cpp:114-116). -/
def clampInt (v lo hi : ℤ) : ℤ := if v < lo then lo else if hi < v then hi else v

namespace Core
variable {V : Type}

/-- `ResetFade` (ConvolutionEngine.cpp:129-133). -/
noncomputable def resetFade (c : Core V) : Core V :=
  { c with
    sIn := c.sIn.setCurrentAndTarget 0
    sOut := c.sOut.setCurrentAndTarget 1 }

/-- `SetFadeTime` (ConvolutionEngine.cpp:290-294). -/
def setFadeTime (c : Core V) (n : ℤ) : Core V :=
  { c with
    sIn := c.sIn.reset n
    sOut := c.sOut.reset n }

/-- The strategy chosen by `BeginFade` (ConvolutionEngine.cpp:103-109). -/
def chooseStrategy (ops : ConvOps V) (c : Core V) (v : V) : FadeStrategy :=
  if (ops.numSamples v : ℤ) ≥ c.maxCrossfade then .inOut else ops.strategy v

/-- The fade length chosen by `BeginFade` (ConvolutionEngine.cpp:111-123). -/
noncomputable def fadeLength (ops : ConvOps V) (c : Core V) (v : V) : ℤ :=
  if c.chooseStrategy ops v = .crossfade then clampInt (ceilTimes kFadeRatio (ops.numSamples v)) c.lower c.upper
  else c.inOut

/-- `BeginFade` (ConvolutionEngine.cpp:101-127) with `f` in `fade_convolver_`. -/
noncomputable def beginFade (ops : ConvOps V) (c : Core V) (f : Held V) : Core V :=
  let c1 := { c with
    fade := some f
    strategy := c.chooseStrategy ops f.obj }
  let c2 := c1.setFadeTime (c.fadeLength ops f.obj)
  { c2 with
    sIn := c2.sIn.setTarget ops.gains 1
    sOut := c2.sOut.setTarget ops.gains 0 }

/-- `operator() (EngineReadyCommand &)` (ConvolutionEngine.cpp:73-99): the new slots and the convolvers pushed to the
notification queue. -/
noncomputable def handle (ops : ConvOps V) (c : Core V) (h : Held V) : Core V × List (Option (Held V)) :=
  match c.active with
  | none => ({ c with active := some h }, [])
  | some _ =>
    let disposed := match c.pending with
      | some p => [some p]
      | none => []
    match c.fade with
    | some _ => ({ c with pending := some h }, disposed)
    | none => ({ c with pending := none }.beginFade ops h, disposed)

/-- What a call leaves behind besides the new slots: the block, the commands pushed to the notification queue
(possibly with a null convolver), and the convolvers destroyed by the call itself.
(ConvolutionEngine.cpp:84-88, 158-225, 227-243, 273-278). -/
structure Effects (V : Type) where
  out : Option Buf := none
  pushed : List (Option (Held V)) := []
  destroyed : List (Held V) := []

/-- `convolver->Process (block)` on the convolver in a slot (ConvolutionEngine.cpp:176, 193). -/
def runHeld (ops : ConvOps V) (h : Held V) (blk : Buf) : Option (Held V × Buf) :=
  (ops.process h.obj blk).map fun r => (⟨h.id, r.1⟩, r.2)

/-- `if (slot != nullptr) slot->Process (block)` (ConvolutionEngine.cpp:173-174, 186-187). -/
def runSlot (ops : ConvOps V) (h : Option (Held V)) (blk : Buf) : Option (Option (Held V) × Buf) :=
  match h with
  | some h => (runHeld ops h blk).map fun r => (some r.1, r.2)
  | none => some (none, blk)

/-- The crossfade branch of `process` (ConvolutionEngine.cpp:165-181). -/
noncomputable def crossfadeStep (ops : ConvOps V) (c : Core V) (f : Held V) (blk : Buf) : Option (Core V × Buf) := do
  let fb ← c.fadeBuf.sub 0 blk.n
  let fb := fb.copyFrom blk
  let a ← runSlot ops c.active blk
  let f ← runHeld ops f fb
  let o := a.2.multiplyBy ops.gains c.sOut
  let fb := f.2.multiplyBy ops.gains c.sIn
  let out ← o.1.mix ops.gains fb.1
  pure ({ c with
    active := a.1
    fade := some f.1
    sOut := o.2
    sIn := fb.2
    fadeBuf := c.fadeBuf.put 0 fb.1 }, out)

/-- The in/out branch of `process` (ConvolutionEngine.cpp:182-196). -/
noncomputable def inOutStep (ops : ConvOps V) (c : Core V) (f : Held V) (blk : Buf) : Option (Core V × Buf) :=
  if c.sOut.isSmoothing then do
    let a ← runSlot ops c.active blk
    let o := a.2.multiplyBy ops.gains c.sOut
    pure ({ c with
      active := a.1
      sOut := o.2 }, o.1)
  else do
    let f ← runHeld ops f blk
    let o := f.2.multiplyBy ops.gains c.sIn
    pure ({ c with
      fade := some f.1
      sIn := o.2 }, o.1)

/-- The end of a fade (ConvolutionEngine.cpp:198-219): new slots and what is pushed to the notification queue. -/
noncomputable def endFade (ops : ConvOps V) (c : Core V) : Core V × List (Option (Held V)) :=
  if c.sIn.isSmoothing then (c, [])
  else
    let c1 := { c with
      active := c.fade
      fade := none }.resetFade
    match c.pending with
    | some p => ({ c1 with pending := none }.beginFade ops p, [c.active])
    | none => (c1, [c.active])

/-- The part of `process` that runs the convolvers during a fade (ConvolutionEngine.cpp:164-196). -/
noncomputable def fadeStep (ops : ConvOps V) (c : Core V) (f : Held V) (blk : Buf) : Option (Core V × Buf) :=
  match c.strategy with
  | .crossfade => c.crossfadeStep ops f blk
  | .inOut => c.inOutStep ops f blk

/-- `process` after `command_queue_.Service ()` (ConvolutionEngine.cpp:162-224); `none`: undefined behaviour. -/
noncomputable def processBody (ops : ConvOps V) (c : Core V) (blk : Buf) : Option (Core V × Effects V) :=
  match c.fade with
  | some f =>
    (c.fadeStep ops f blk).map fun r =>
      ((r.1.endFade ops).1, { out := some r.2, pushed := (r.1.endFade ops).2 })
  | none => (runSlot ops c.active blk).map fun r => ({ c with active := r.1 }, { out := some r.2 })

/-- `reset` after `command_queue_.Service ()` (ConvolutionEngine.cpp:234-242). Assigning to `convolver_` destroys the
convolver it held. -/
def resetBody (ops : ConvOps V) (c : Core V) : Core V × Effects V :=
  let c := { c with fadeBuf := c.fadeBuf.clear }
  let r : Core V × List (Held V) :=
    match c.pending, c.fade with
    | some p, _ => ({ c with
        active := some p
        pending := none }, c.active.toList)
    | none, some f => ({ c with
        active := some f
        fade := none }, c.active.toList)
    | none, none => (c, [])
  ({ r.1 with active := r.1.active.map fun h => ⟨h.id, ops.reset h.obj⟩ }, { destroyed := r.2 })

/-- `Clear` after the `Service` in its `reset` (ConvolutionEngine.cpp:234-242, 276-277). -/
def clearBody (ops : ConvOps V) (c : Core V) : Core V × Effects V :=
  let r := c.resetBody ops
  ({ r.1 with
      active := none
      pending := none },
    { destroyed := r.2.destroyed ++ r.1.active.toList ++ r.1.pending.toList })

/-- `prepare` up to its call of `reset` (ConvolutionEngine.cpp:140-153); `g` is the memory `setSize` may hand out. -/
noncomputable def prepareHead (c : Core V) (p : ProcSpec) (g : ℕ → ℕ → ℝ) : Core V :=
  { c with
    spec := some p
    lower := ceilTimes kLowerFadeTimeS p.sampleRate
    upper := ceilTimes kUpperFadeTimeS p.sampleRate
    maxCrossfade := ceilTimes kMaxCrossFadeIrTimeS p.sampleRate
    inOut := ceilTimes kInOutFadeTimeS p.sampleRate
    fadeBuf := ⟨p.numChannels, p.maximumBlockSize, g⟩ }

end Core

/-- The audio-side calls of the API (ConvolutionEngine.h:135, 139-141). -/
inductive Call
  | process (blk : Buf)
  | reset
  | prepare (p : ProcSpec) (g : ℕ → ℕ → ℝ)
  | clear

namespace Core
variable {V : Type}

/-- What a call does before `command_queue_.Service ()` (ConvolutionEngine.cpp:140-153, 229). -/
noncomputable def callHead (c : Core V) : Call → Core V
  | .process _ => c
  | .reset => c.resetFade
  | .prepare p g => (c.prepareHead p g).resetFade
  | .clear => c.resetFade

/-- What a call does after it (ConvolutionEngine.cpp:162-225, 234-243, 276-278). -/
noncomputable def callBody (ops : ConvOps V) (c : Core V) : Call → Option (Core V × Effects V)
  | .process blk => c.processBody ops blk
  | .reset => some (c.resetBody ops)
  | .prepare _ _ => some (c.resetBody ops)
  | .clear => some (c.clearBody ops)

/-- `command_queue_.Service ()` with `batch` waiting: the visitor is applied to each command in turn.
(ConvolutionEngine.h:21-30; ConvolutionEngine.cpp:73-99, 160, 232). -/
noncomputable def service (ops : ConvOps V) (c : Core V) (batch : List (Held V)) : Core V :=
  batch.foldl (fun c h => (c.handle ops h).1) c

/-- A whole audio-side call, `batch` being the convolvers its `Service` finds in the command queue.
(ConvolutionEngine.cpp:135-243, 273-278). -/
noncomputable def call (ops : ConvOps V) (c : Core V) (batch : List (Held V)) (k : Call) : Option (Core V × Effects V) :=
  ((c.callHead k).service ops batch).callBody ops k

/-- A sequence of audio-side calls (ConvolutionEngine.cpp:135-243, 273-278, repeatedly). -/
noncomputable def calls (ops : ConvOps V) : Core V → List (List (Held V) × Call) → Option (Core V)
  | c, [] => some c
  | c, k :: ks => (c.call ops k.1 k.2).bind fun r => r.1.calls ops ks

/-- A sequence of `process` calls, each with the convolvers its `Service` finds, and the blocks they leave behind.
(ConvolutionEngine.cpp:158-225, repeatedly). -/
noncomputable def play (ops : ConvOps V) : Core V → List (List (Held V) × Buf) → Option (Core V × List Buf)
  | c, [] => some (c, [])
  | c, b :: bs => (c.call ops b.1 (.process b.2)).bind fun r =>
      (r.1.play ops bs).map fun q => (q.1, r.2.out.toList ++ q.2)

end Core

end Zones.Model
