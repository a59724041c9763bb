import Verif.Model.Arith
import Verif.Spec.JuceFFT
import Verif.Spec.Stream
import Mathlib.Analysis.InnerProductSpace.PiL2

/-!
# What is assumed of floating point arithmetic, and the norms the error bounds are stated in
-/

open Finset

namespace Zones.Spec

open Zones.Model

/-- Euclidean norm of the first `N` entries of `z`. -/
noncomputable def l2 (N : ℕ) (z : ℕ → ℂ) : ℝ := √(∑ j ∈ range N, ‖z j‖ ^ 2)

/-- Sum of the magnitudes of the first `N` entries of `z`. -/
noncomputable def l1 (N : ℕ) (z : ℕ → ℂ) : ℝ := ∑ j ∈ range N, ‖z j‖

/-- The standard model of floating point arithmetic with unit roundoff `u`: every operation returns the exact result up to
a relative error of `u` (no overflow, no underflow), and the twiddle factors used by transforms of up to `2 ^ L` points
are within `τ` of the roots of unity. -/
structure Accurate [Arith] (u τ : ℝ) (L : ℕ) : Prop where
  u_nonneg : 0 ≤ u
  τ_nonneg : 0 ≤ τ
  addF : ∀ a b : ℝ, |Arith.addF a b - (a + b)| ≤ u * |a + b|
  add : ∀ a b : ℂ, ‖Arith.add a b - (a + b)‖ ≤ u * ‖a + b‖
  sub : ∀ a b : ℂ, ‖Arith.sub a b - (a - b)‖ ≤ u * ‖a - b‖
  mul : ∀ a b : ℂ, ‖Arith.mul a b - a * b‖ ≤ u * ‖a * b‖
  half : ∀ a : ℂ, ‖Arith.half a - a / 2‖ ≤ u * ‖a / 2‖
  twF : ∀ k < L, ∀ e < 2 ^ k, ‖Arith.twF (2 * 2 ^ k) e - omega (2 * 2 ^ k) ^ e‖ ≤ τ
  twI : ∀ k < L, ∀ e < 2 ^ k, ‖Arith.twI (2 * 2 ^ k) e - (omega (2 * 2 ^ k))⁻¹ ^ e‖ ≤ τ

/-- Bin `k` of an array of interleaved complex numbers. -/
def bin (d : ℕ → ℝ) (k : ℕ) : ℂ := ⟨d (2 * k), d (2 * k + 1)⟩

/-- The real signal of `N` samples whose non-negative frequencies are `e 0 .. e (N/2)`: the inverse DFT of the
conjugate-symmetric continuation of `e`. -/
noncomputable def realInv (N : ℕ) (e : ℕ → ℂ) (n : ℕ) : ℝ :=
  ((1 / N : ℂ) * ∑ k ∈ range N, (if k ≤ N / 2 then e k else star (e (N - k))) * (omega N)⁻¹ ^ (k * n)).re

/-- The contract of the real-only transforms of `juce::dsp::FFT` in floating point, for every order from 1 on. The forward
transform of `d` is computed with an error of at most `ε` times `√N ‖d‖`, the Euclidean norm of the exact result; every sample
of the inverse transform with an error of at most `ε` times the mean magnitude of the `N` bins (at most `2/N` times the sum of the
magnitudes of the bins `0 .. N/2`). -/
structure Approx (F : RealFFT) (ε : ℝ) : Prop where
  nonneg : 0 ≤ ε
  fwd : ∀ o, 0 < o → ∀ d : ℕ → ℝ,
    l2 (2 ^ o / 2 + 1) (fun k => bin (F.fwd o d) k - dft (2 ^ o) (fun j => (d j : ℂ)) k) ≤
      ε * (√(2 ^ o) * l2 (2 ^ o) (fun j => (d j : ℂ)))
  inv : ∀ o, 0 < o → ∀ d : ℕ → ℝ, ∀ n < 2 ^ o,
    |F.inv o d n - realInv (2 ^ o) (bin d) n| ≤ ε * (2 / 2 ^ o * l1 (2 ^ o / 2 + 1) (bin d))

/-- Channel `c` of an impulse response, followed by silence. -/
def extended (ir : Buf) (c : ℕ) : ℕ → ℝ := fun k => if k < ir.n then ir.data c k else 0

/-- Euclidean norm of the `len` samples of `h` from sample `a` on. -/
noncomputable def blockNorm (h : ℕ → ℝ) (a len : ℕ) : ℝ := √(∑ j ∈ range len, h (a + j) ^ 2)

/-- Weight of an impulse response `h` that is cut, from sample `off` on, into the partitions of the stages of a scheme with block
size `B`: a partition of `P` samples counts with its Euclidean norm times `2 √(2P)`. -/
noncomputable def schemeNorm (B : ℕ) (h : ℕ → ℝ) : ℕ → List Layout → ℝ
  | _, [] => 0
  | off, l :: rest =>
    2 * √(2 * (l.psb * B) : ℕ) * ∑ i ∈ range l.np, blockNorm h (off + i * (l.psb * B)) (l.psb * B) +
      schemeNorm B h (off + l.np * (l.psb * B)) rest

/-- Size of what reaches output channel `o` when the input of IR channel `c` has level `X c`: the levels times the weights of the
IR channels that are routed to `o`. -/
noncomputable def outputWeight (B : ℕ) (ir : Buf) (sch : List Layout) (outRouting : List ℤ) (X : ℕ → ℝ) (o : ℕ) : ℝ :=
  ∑ c ∈ range ir.ch, if channelAt outRouting c = o then X c * schemeNorm B (extended ir c) 0 sch else 0

/-- The relative error of a convolver with `S` stages and `C` channels, whose transforms have at most `2^L` points and whose stages
have at most `K` partitions each. For small `u`, `τ` and `ε` it is about `3 ε + 3 L (3 u + τ) + (K + 2 + S + C) u`. -/
noncomputable def errorFactor (u τ ε : ℝ) (L K S C : ℕ) : ℝ :=
  (1 + ε) ^ 3 * ((1 + u) ^ 3 * (1 + τ)) ^ (3 * L) * (1 + u) ^ (K + 2 + S + C) - 1

/-- The samples of `x` that are less than `before` samples older and less than `after` samples younger than sample `n` are at
most `X`. -/
def LevelAround (x : ℕ → ℝ) (before after n : ℕ) (X : ℝ) : Prop :=
  0 ≤ X ∧ ∀ m, n < m + before → m < n + after → |x m| ≤ X

end Zones.Spec
