import Verif.Spec.Engine

/-!
# Fades in floating point
-/

namespace Zones.Spec
open Zones.Model

/-- The standard model of floating point arithmetic with unit roundoff `u`, for the arithmetic of fades: every operation returns the
exact result up to a relative error of `u` (no overflow, no underflow); division is by an `int` of at most 24 bits, which a
`float` represents exactly. -/
structure AccurateGains (g : GainArith) (u : ℝ) : Prop where
  u_nonneg : 0 ≤ u
  add : ∀ a b, |g.add a b - (a + b)| ≤ u * |a + b|
  sub : ∀ a b, |g.sub a b - (a - b)| ≤ u * |a - b|
  mul : ∀ a b, |g.mul a b - a * b| ≤ u * |a * b|
  div : ∀ a n, 0 < n → n ≤ 2 ^ 24 → |g.div a n - a / n| ≤ u * |a / n|

/-- Fades over at most `2^24` samples that are linear up to rounding. The error of a fade over `n` samples, relative to the louder
of the two signals, is at most about `2 n u` for a crossfade and `n u` for fading in or out. The last sample of a fade no longer
contains the old response, and contains the new one in full: exactly, but for the rounding of the products and sums of that
sample. -/
noncomputable def nearlyLinearFades (u : ℝ) : FadeRule where
  mix n t old new out := n ≤ 2 ^ 24 →
    |out - ((1 - fadeGain n t) * old + fadeGain n t * new)| ≤ ((1 + u) ^ (2 * n + 6) - 1) * max |old| |new| ∧
    (n ≤ t + 1 → |out - new| ≤ ((1 + u) ^ 2 - 1) * |new|)
  fadeOut n t old out := n ≤ 2 ^ 24 →
    |out - (1 - fadeGain n t) * old| ≤ ((1 + u) ^ (n + 3) - 1) * |old| ∧ (n ≤ t + 1 → out = 0)
  fadeIn n t new out := n ≤ 2 ^ 24 →
    |out - fadeGain n t * new| ≤ ((1 + u) ^ (n + 3) - 1) * |fadeGain n t * new| ∧ (n ≤ t + 1 → |out - new| ≤ u * |new|)

end Zones.Spec
