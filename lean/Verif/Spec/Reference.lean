import Verif.Spec.EngineSys

/-!
# A reference engine

What a `ConvolutionEngine` does, without queues, smoothers, partitions and transforms: at any time at most one response plays, possibly being
faded to another one, and what a response contributes is the convolution of its impulse response with everything it has heard. Response number
`i` has the impulse response `irs i` and the specification `specs i`.

`Phase.crossfade`, `fadeOut` and `fadeIn` are what the engine is meant to do. `Phase.stuck`, `Phase.jump`, `hasty` and a fade from nothing
(to the dry signal) are what resets and clears that come at an awkward time lead to.
-/

namespace Zones.Spec
open Zones.Model

/-- A response in use, and the blocks it has heard since it was new or reset. -/
structure Voice where
  id : ℕ
  heard : List Buf

/-- The voice after it has heard another block. -/
def Voice.hear (v : Voice) (b : Buf) : Voice := ⟨v.id, v.heard ++ [b]⟩

/-- What the voice makes of the next block: sample `i` of output `o`. -/
noncomputable def Voice.sound (irs : ℕ → Buf) (specs : ℕ → ConvolverSpec) (v : Voice) (b : Buf) (o i : ℕ) : ℝ :=
  routedConv (irs v.id) (specs v.id).inputRouting (specs v.id).outputRouting (stream (v.heard ++ [b])) o (totalLen v.heard + i)

/-- No voice: the dry signal. -/
noncomputable def soundOf (irs : ℕ → Buf) (specs : ℕ → ConvolverSpec) (b : Buf) (o i : ℕ) : Option Voice → ℝ
  | none => b.data o i
  | some v => v.sound irs specs b o i

/-- Where a fade is: over `n` samples, `j` of which are over. -/
inductive Phase
  /-- both responses are heard -/
  | crossfade (n j : ℕ)
  /-- the old one fades out -/
  | fadeOut (n j : ℕ)
  /-- the new one fades in -/
  | fadeIn (n j : ℕ)
  /-- a reset has stopped the fade at its beginning; the next block ends it -/
  | stuck (k : FadeStrategy)
  /-- there is no fade, the next block is the new response's -/
  | jump (k : FadeStrategy)

namespace Phase

/-- The phase after a block of `len` samples; `none`: the fade is over. -/
def after : Phase → ℕ → Option Phase
  | crossfade n j, len => if j + len < n then some (crossfade n (j + len)) else none
  | fadeOut n j, len => if j + len < n then some (fadeOut n (j + len)) else some (fadeIn n 0)
  | fadeIn n j, len => if j + len < n then some (fadeIn n (j + len)) else none
  | stuck _, _ => none
  | jump _, _ => none

/-- Does the old response hear the block, does the new one? -/
def oldHears : Phase → Bool
  | crossfade _ _ => true
  | fadeOut _ _ => true
  | _ => false
def newHears : Phase → Bool
  | fadeOut _ _ => false
  | _ => true

/-- Sample `i` of a block in which the old response would sound `old` and the new one `new`. -/
noncomputable def mix (i : ℕ) (old new : ℝ) : Phase → ℝ
  | crossfade n j => (1 - fadeGain n (j + i)) * old + fadeGain n (j + i) * new
  | fadeOut n j => (1 - fadeGain n (j + i)) * old
  | fadeIn n j => fadeGain n (j + i) * new
  | stuck .crossfade => old
  | stuck .inOut => 0
  | jump _ => new

/-- The kind of fade. -/
def kind : Phase → FadeStrategy
  | crossfade _ _ => .crossfade
  | fadeOut _ _ => .inOut
  | fadeIn _ _ => .inOut
  | stuck k => k
  | jump k => k

/-- Has the fade a direction? -/
def moving : Phase → Bool
  | stuck _ => false
  | _ => true

end Phase

/-- The beginning of a fade to response `i` at sample rate `rate`. -/
noncomputable def firstPhase (irs : ℕ → Buf) (specs : ℕ → ConvolverSpec) (rate i : ℕ) : Phase :=
  match expectedFade rate (irs i).n (specs i).fadeStrategy with
  | (.crossfade, n) => .crossfade n.toNat 0
  | (.inOut, n) => .fadeOut n.toNat 0

/-- What is going on. -/
inductive Stage
  /-- `a` plays (`none`: nothing does). `hasty`: the next response replaces it without a fade. -/
  | steady (a : Option Voice) (hasty : Bool)
  /-- `a` (`none`: the dry signal) is faded to `f`; `next` is to be faded to afterwards -/
  | fading (a : Option Voice) (f : Voice) (next : Option ℕ) (p : Phase)

namespace Stage

/-- The responses that are playing, being faded to, and waiting. -/
def ids : Stage → Option ℕ × Option ℕ × Option ℕ
  | steady a _ => (a.map Voice.id, none, none)
  | fading a f w _ => (a.map Voice.id, some f.id, w)

/-- A response arrives: it plays at once if nothing does; it is faded to if another response plays; if a fade goes on, it waits, in place of a
response that has waited. -/
noncomputable def arrive (irs : ℕ → Buf) (specs : ℕ → ConvolverSpec) (rate : ℕ) : Stage → ℕ → Stage
  | steady none h, i => steady (some ⟨i, []⟩) h
  | steady (some a) false, i => fading (some a) ⟨i, []⟩ none (firstPhase irs specs rate i)
  | steady (some a) true, i => fading (some a) ⟨i, []⟩ none (.jump (firstPhase irs specs rate i).kind)
  | fading none f w p, i => fading (some ⟨i, []⟩) f w p
  | fading (some a) f _ p, i => fading (some a) f (some i) p

/-- The stage after block `b`. When a fade to `f` is over, `f` plays, and is faded from at once if another response has waited. -/
noncomputable def after (irs : ℕ → Buf) (specs : ℕ → ConvolverSpec) (rate : ℕ) : Stage → Buf → Stage
  | steady a h, b => steady (a.map (·.hear b)) h
  | fading a f w p, b =>
    let f' := if p.newHears then f.hear b else f
    match p.after b.n, w with
    | some p', _ => fading (if p.oldHears then a.map (·.hear b) else a) f' w p'
    | none, none => steady (some f') false
    | none, some i => fading (some f') ⟨i, []⟩ none (firstPhase irs specs rate i)

/-- What block `b` becomes: sample `i` of output `o`. -/
noncomputable def sound (irs : ℕ → Buf) (specs : ℕ → ConvolverSpec) (b : Buf) (o i : ℕ) : Stage → ℝ
  | steady a _ => soundOf irs specs b o i a
  | fading a f _ p => p.mix i (soundOf irs specs b o i a) (f.sound irs specs b o i)

/-- The first thing a reset does: a fade that goes on goes back to its beginning and stays there. -/
def calm : Stage → Stage
  | steady a _ => steady a false
  | fading a f w p => fading a f w (.stuck p.kind)

/-- The last thing a reset does: the newest response plays, having heard nothing. -/
def restart : Stage → Stage
  | steady a h => steady (a.map fun v => ⟨v.id, []⟩) h
  | fading _ f none p => steady (some ⟨f.id, []⟩) p.moving
  | fading _ f (some i) p => fading (some ⟨i, []⟩) f none p

/-- The playing response is dropped. -/
def drop : Stage → Stage
  | steady _ h => steady none h
  | fading _ f _ p => fading none f none p

/-- A whole reset: the responses in the queue arrive in the middle of it. -/
noncomputable def reset (irs : ℕ → Buf) (specs : ℕ → ConvolverSpec) (rate : ℕ) (s : Stage) (batch : List ℕ) : Stage :=
  (batch.foldl (arrive irs specs rate) s.calm).restart

end Stage

/-- The reference engine: what is going on, and the sample rate. -/
structure Reference where
  stage : Stage := .steady none false
  rate : ℕ := 0

namespace Reference

/-- A call that finds the responses `batch`: the reference engine after it, and what `process` has been given and in what stage. -/
noncomputable def call (irs : ℕ → Buf) (specs : ℕ → ConvolverSpec) (r : Reference) (batch : List ℕ) : Call → Reference × List (Stage × Buf)
  | .process b =>
    let s := batch.foldl (Stage.arrive irs specs r.rate) r.stage
    ({ r with stage := s.after irs specs r.rate b }, [(s, b)])
  | .reset => ({ r with stage := r.stage.reset irs specs r.rate batch }, [])
  | .prepare p _ => (⟨r.stage.reset irs specs ⌊p.sampleRate⌋₊ batch, ⌊p.sampleRate⌋₊⟩, [])
  | .clear => ({ r with stage := (r.stage.reset irs specs r.rate batch).drop }, [])

/-- A history of calls. -/
noncomputable def run (irs : ℕ → Buf) (specs : ℕ → ConvolverSpec) : Reference → List (List ℕ × Call) → Reference × List (Stage × Buf)
  | r, [] => (r, [])
  | r, (batch, k) :: rest =>
    let q := r.call irs specs batch k
    let q' := run irs specs q.1 rest
    (q'.1, q.2 ++ q'.2)

end Reference

/-- The samples the reference engine delivers. -/
noncomputable def rendered (irs : ℕ → Buf) (specs : ℕ → ConvolverSpec) (trace : List (Stage × Buf)) : List Buf :=
  trace.map fun t => ⟨t.2.ch, t.2.n, fun o i => t.1.sound irs specs t.2 o i⟩

/-- A history as the reference engine sees it: only the numbers of the responses. -/
def numbered {V : Type} (hist : List (List (Held V) × Call)) : List (List ℕ × Call) := hist.map fun b => (b.1.map Held.id, b.2)

/-- What `LoadIR` call number `i` of an execution asked for. -/
def requestedIR (ls : List (Label (Buf × ConvolverSpec))) (i : ℕ) : Buf := match (loadsIn ls)[i]? with
  | some (_, ir, _) => ir
  | none => ⟨0, 0, fun _ _ => 0⟩
def requestedSpec (ls : List (Label (Buf × ConvolverSpec))) (i : ℕ) : ConvolverSpec := match (loadsIn ls)[i]? with
  | some (_, _, cs) => cs
  | none => { inputRouting := [], outputRouting := [] }

end Zones.Spec
