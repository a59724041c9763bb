import Verif.Spec.Rounding

/-!
# Floating point with a limited exponent range

`Accurate` and `Approx` (`Verif.Spec.Rounding`) assume that nothing ever underflows or overflows. Here an operation may also make an
absolute error, as it does when its result is subnormal or flushed to zero, and nothing at all is assumed of an operation whose
exact result is larger than `Ω`.
-/

open Finset

namespace Zones.Spec

open Zones.Model

/-- Floating point arithmetic with underflow and overflow: an operation on numbers of at most `Ω` whose exact result is at most `Ω` returns
it with an error of at most `v` times the result, plus `η`. Nothing is assumed when an operand or the result is larger than `Ω`. Zeros
combine to zero, and in products zero gives zero with a number of at most `Ω` and with a twiddle factor; the twiddle factors used by
transforms of up to `2 ^ L` points are within `τ` of the roots of unity, and within range. -/
structure AccurateIn [Arith] (v η Ω τ : ℝ) (L : ℕ) : Prop where
  v_nonneg : 0 ≤ v
  η_nonneg : 0 ≤ η
  τ_nonneg : 0 ≤ τ
  τ_le : 1 + τ ≤ Ω
  addF : ∀ a b : ℝ, |a| ≤ Ω → |b| ≤ Ω → |a + b| ≤ Ω → |Arith.addF a b - (a + b)| ≤ v * |a + b| + η
  add : ∀ a b : ℂ, ‖a‖ ≤ Ω → ‖b‖ ≤ Ω → ‖a + b‖ ≤ Ω → ‖Arith.add a b - (a + b)‖ ≤ v * ‖a + b‖ + η
  sub : ∀ a b : ℂ, ‖a‖ ≤ Ω → ‖b‖ ≤ Ω → ‖a - b‖ ≤ Ω → ‖Arith.sub a b - (a - b)‖ ≤ v * ‖a - b‖ + η
  mul : ∀ a b : ℂ, ‖a‖ ≤ Ω → ‖b‖ ≤ Ω → ‖a * b‖ ≤ Ω → ‖Arith.mul a b - a * b‖ ≤ v * ‖a * b‖ + η
  half : ∀ a : ℂ, ‖a‖ ≤ Ω → ‖Arith.half a - a / 2‖ ≤ v * ‖a / 2‖ + η
  twF : ∀ k < L, ∀ e < 2 ^ k, ‖Arith.twF (2 * 2 ^ k) e - omega (2 * 2 ^ k) ^ e‖ ≤ τ
  twI : ∀ k < L, ∀ e < 2 ^ k, ‖Arith.twI (2 * 2 ^ k) e - (omega (2 * 2 ^ k))⁻¹ ^ e‖ ≤ τ
  addF_zero : Arith.addF 0 0 = 0
  add_zero : Arith.add 0 0 = 0
  sub_zero : Arith.sub 0 0 = 0
  mul_zero : ∀ z, ‖z‖ ≤ Ω → Arith.mul 0 z = 0
  half_zero : Arith.half 0 = 0
  twF_zero : ∀ n e, Arith.mul 0 (Arith.twF n e) = 0
  twI_zero : ∀ n e, Arith.mul 0 (Arith.twI n e) = 0

/-- The contract of the real-only transforms of `juce::dsp::FFT` when small numbers lose precision and large ones overflow: as `Approx`,
but a spectrum, or a signal, of less than `φ` per entry counts as one of `φ` per entry, and nothing is assumed of a transform whose
result may exceed `Ω`. -/
structure ApproxIn (F : RealFFT) (ε φ Ω : ℝ) : Prop where
  nonneg : 0 ≤ ε
  fwd : ∀ o, 0 < o → ∀ d : ℕ → ℝ, ∀ M, M = max (√(2 ^ o) * φ) (l2 (2 ^ o) (fun j => (d j : ℂ))) →
    (1 + ε) * (√(2 ^ o) * M) ≤ Ω →
    l2 (2 ^ o / 2 + 1) (fun k => bin (F.fwd o d) k - dft (2 ^ o) (fun j => (d j : ℂ)) k) ≤ ε * (√(2 ^ o) * M)
  inv : ∀ o, 0 < o → ∀ d : ℕ → ℝ, ∀ M, M = max (2 ^ o * φ) (l1 (2 ^ o / 2 + 1) (bin d)) → (1 + ε) * M ≤ Ω →
    ∀ n < 2 ^ o, |F.inv o d n - realInv (2 ^ o) (bin d) n| ≤ ε * (2 / 2 ^ o * M)

/-- `schemeNorm`, except that a partition of `P` samples counts as at least a partition of the constant `θ`. -/
noncomputable def schemeNormF (θ : ℝ) (B : ℕ) (h : ℕ → ℝ) : ℕ → List Layout → ℝ
  | _, [] => 0
  | off, l :: rest =>
    2 * √(2 * (l.psb * B) : ℕ) *
        ∑ i ∈ range l.np, max (√(l.psb * B : ℕ) * θ) (blockNorm h (off + i * (l.psb * B)) (l.psb * B)) +
      schemeNormF θ B h (off + l.np * (l.psb * B)) rest

/-- `outputWeight`, with partitions counted as in `schemeNormF`. -/
noncomputable def outputWeightF (θ : ℝ) (B : ℕ) (ir : Buf) (sch : List Layout) (outRouting : List ℤ) (X : ℕ → ℝ) (o : ℕ) : ℝ :=
  ∑ c ∈ range ir.ch, if channelAt outRouting c = o then X c * schemeNormF θ B (extended ir c) 0 sch else 0

/-- An upper bound on every number that a convolver computes from signals of a level of at most `Xmax`: the sum of the weights of all
channels times the length of the longest transform, times the level. -/
noncomputable def headroom (θ : ℝ) (B : ℕ) (ir : Buf) (sch : List Layout) (L : ℕ) (Xmax : ℝ) : ℝ :=
  2 ^ (L + 1) * (Xmax * (1 + ∑ c ∈ range ir.ch, schemeNormF θ B (extended ir c) 0 sch))

/-- The multiple of `e` that is nearest to `x`, the even multiple when there are two. -/
noncomputable def nearestMultiple (e x : ℝ) : ℝ :=
  let y := x / e
  let f := ⌊y⌋
  let m : ℤ := if y - f < 1 / 2 then f else if 1 / 2 < y - f then f + 1 else if f % 2 = 0 then f else f + 1
  m * e

/-- Rounding to IEEE 754 binary32, to nearest, ties to even, with its range of exponents. Numbers below `2^-126` become subnormal, or zero
if subnormal numbers are flushed; numbers from `2^128 - 2^103` on, which become infinite in binary32, become anything at all here. -/
noncomputable def binary32 (flush : Bool) (infinite : ℝ → ℝ) (x : ℝ) : ℝ :=
  if 2 ^ 128 - 2 ^ 103 ≤ |x| then infinite x
  else if |x| < 2⁻¹ ^ 126 then (if flush then 0 else nearestMultiple (2⁻¹ ^ 149) x)
  else round24 x

end Zones.Spec
