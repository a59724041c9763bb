import Verif.Spec.Reference
import Verif.Spec.FloatEngine
import Verif.Spec.FloatFades

/-!
# How far from the reference engine an engine in floating point may be

`u`, `τ`, `ε`: the accuracy of the convolvers' arithmetic and transforms (C71); `w`: the unit roundoff of the fades. Response `i` has partitions
`schs i` of blocks of `Bs i` samples, at most `Ks i` partitions in a stage.
-/

namespace Zones.Spec
open Zones.Model

/-- `e` bounds the error of voice `v` at sample `i` of output `o` of block `b` (C71). -/
def Voice.ErrorAt (u τ ε : ℝ) (L : ℕ) (irs : ℕ → Buf) (specs : ℕ → ConvolverSpec) (Ks Bs : ℕ → ℕ) (schs : ℕ → List Layout) (b : Buf) (o i : ℕ) (v : Voice) (e : ℝ) : Prop :=
  ErrorBound u τ ε L (Ks v.id) (Bs v.id) (schs v.id) (irs v.id) (specs v.id) (stream (v.heard ++ [b])) o (totalLen v.heard + i) e

/-- The dry signal has no error. -/
def errorOf (u τ ε : ℝ) (L : ℕ) (irs : ℕ → Buf) (specs : ℕ → ConvolverSpec) (Ks Bs : ℕ → ℕ) (schs : ℕ → List Layout) (b : Buf) (o i : ℕ) : Option Voice → ℝ → Prop
  | none, e => e = 0
  | some v, e => v.ErrorAt u τ ε L irs specs Ks Bs schs b o i e

/-- The error of sample `i` of a block in a fade, if the two responses, `old` and `new` without rounding, have errors of at most `eOld` and `eNew`: the errors are faded as the responses are,
and the fade itself has an error relative to the louder of the responses that are heard. A fade stopped half-way between in and out is silent without any error. -/
noncomputable def Phase.error (w : ℝ) (i : ℕ) (old new eOld eNew : ℝ) : Phase → ℝ
  | .crossfade n j => (1 - fadeGain n (j + i)) * eOld + fadeGain n (j + i) * eNew + ((1 + w) ^ (2 * n + 6) - 1) * max (|old| + eOld) (|new| + eNew)
  | .fadeOut n j => (1 - fadeGain n (j + i)) * eOld + ((1 + w) ^ (n + 3) - 1) * (|old| + eOld)
  | .fadeIn n j => fadeGain n (j + i) * eNew + ((1 + w) ^ (n + 3) - 1) * (|new| + eNew)
  | .stuck .crossfade => eOld + ((1 + w) ^ 2 - 1) * (|old| + eOld)
  | .stuck .inOut => 0
  | .jump .crossfade => eNew + ((1 + w) ^ 2 - 1) * (|new| + eNew)
  | .jump .inOut => eNew + w * (|new| + eNew)

/-- `out` is what the reference engine delivers for sample `i` of output `o`, up to rounding. -/
def Stage.Near (u τ ε w : ℝ) (L : ℕ) (irs : ℕ → Buf) (specs : ℕ → ConvolverSpec) (Ks Bs : ℕ → ℕ) (schs : ℕ → List Layout) (b : Buf) (o i : ℕ) (out : ℝ) : Stage → Prop
  | .steady a h => ∀ e, errorOf u τ ε L irs specs Ks Bs schs b o i a e → |out - (Stage.steady a h).sound irs specs b o i| ≤ e
  | .fading a f n p => ∀ eOld eNew, errorOf u τ ε L irs specs Ks Bs schs b o i a eOld → f.ErrorAt u τ ε L irs specs Ks Bs schs b o i eNew →
      |out - (Stage.fading a f n p).sound irs specs b o i| ≤ p.error w i (soundOf irs specs b o i a) (f.sound irs specs b o i) eOld eNew

/-- The outputs of an engine are those of the reference engine, up to rounding. -/
def RenderedWithin (u τ ε w : ℝ) (N L : ℕ) (irs : ℕ → Buf) (specs : ℕ → ConvolverSpec) (Ks Bs : ℕ → ℕ) (schs : ℕ → List Layout) (outs : List Buf) (trace : List (Stage × Buf)) : Prop :=
  List.Forall₂ (fun out t => out.ch = N ∧ t.2.ch = N ∧ out.n = t.2.n ∧
    ∀ o < N, ∀ i < t.2.n, t.1.Near u τ ε w L irs specs Ks Bs schs t.2 o i (out.data o i)) outs trace

end Zones.Spec
