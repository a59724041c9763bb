import Verif.Spec.Signal
import Verif.Model.UPC

/-!
# What is assumed of `juce::dsp::FFT`

From the JUCE documentation: `performRealOnlyForwardTransform (d, true)` on an array of `2N` floats whose first
`N` are real samples leaves the `N/2 + 1` non-negative frequencies as interleaved complex numbers at the
start of the array (the rest is unspecified); `performRealOnlyInverseTransform` undoes this, using only
these `N/2 + 1` complex numbers.
-/

namespace Zones.Spec

open Zones.Model

/-- The contract of the real-only transforms for every order from 1 on. -/
structure Lawful (F : RealFFT) : Prop where
  /-- bins `0 .. N/2` of the forward transform are the DFT of the first `N` floats -/
  fwd : ∀ order, 0 < order → ∀ d : ℕ → ℝ, ∀ k ≤ 2 ^ order / 2,
    (⟨F.fwd order d (2 * k), F.fwd order d (2 * k + 1)⟩ : ℂ) = dft (2 ^ order) (fun j => (d j : ℂ)) k
  /-- if bins `0 .. N/2` are the DFT of a real signal, the inverse transform recovers the signal -/
  inv : ∀ order, 0 < order → ∀ d y : ℕ → ℝ,
    (∀ k ≤ 2 ^ order / 2, (⟨d (2 * k), d (2 * k + 1)⟩ : ℂ) = dft (2 ^ order) (fun j => (y j : ℂ)) k) →
    ∀ n < 2 ^ order, F.inv order d n = y n

end Zones.Spec
