import Mathlib.Analysis.SpecialFunctions.Complex.Circle
import Mathlib.Algebra.BigOperators.Intervals

/-!
# Specifications of the signal-processing notions used by the properties

Nothing in this file refers to the model of the code.
-/

open Finset

namespace Zones.Spec

/-- The primitive `N`-th root of unity `e^{-2πi/N}` used by a forward DFT. -/
noncomputable def omega (N : ℕ) : ℂ := Complex.exp (-(2 * Real.pi * Complex.I) / N)

/-- The discrete Fourier transform of the first `N` entries of `x`, at frequency index `k`. -/
noncomputable def dft (N : ℕ) (x : ℕ → ℂ) (k : ℕ) : ℂ :=
  ∑ j ∈ range N, x j * omega N ^ (j * k)

/-- Reversal of the lowest `l` bits of `s`:
bit `b` of `s` (for `b < l`) becomes bit `l - 1 - b`. -/
def bitrev : ℕ → ℕ → ℕ
  | 0, _ => 0
  | l + 1, s => bitrev l (s / 2) + 2 ^ l * (s % 2)

/-- Circular convolution of length `N`. -/
noncomputable def circConv (N : ℕ) (x h : ℕ → ℂ) (n : ℕ) : ℂ :=
  ∑ k ∈ range N, h k * x ((n + N - k) % N)

/-- Linear (causal) convolution of a signal `x : ℕ → ℝ` with an impulse response `h`
of `L` samples: `y[n] = ∑_{k < L, k ≤ n} h[k] x[n-k]`. -/
noncomputable def linConv (L : ℕ) (h x : ℕ → ℝ) (n : ℕ) : ℝ :=
  ∑ k ∈ range L, if k ≤ n then h k * x (n - k) else 0

end Zones.Spec
