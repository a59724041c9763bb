import Mathlib.Analysis.SpecialFunctions.Pow.Complex
import Mathlib.Data.Nat.Log

/-!
# Model of `util/FFT.cpp`, `util/FFTDecomposition.cpp`, `util/DecompositionSchedule.cpp` (schedules)

A `std::complex<float> *` is modelled by the contents `d : ℕ → ℂ` of the buffer it points into
together with the number `sz` of elements that may be accessed through it.  `none` stands for an access
outside `0 .. sz-1`, a failed `jassert`, or another undefined operation.
Simplification: `std::complex<float>` is `ℂ` (exact arithmetic).
-/

namespace Zones.Model

/-- One iteration of an innermost butterfly loop: the two element indices it touches and
the loop variable used as the exponent of the twiddle factor
(FFT.cpp:19-29, 48-58; FFTDecomposition.cpp:26-35, 60-68). -/
structure Bfly where
  i : ℕ
  j : ℕ
  e : ℕ

/-- Body of the forward butterfly loop, statement by statement
(FFT.cpp:22-28 and FFTDecomposition.cpp:29-34):
`point = g[i]; g[i] += g[j]; g[j] = (point - g[j]) * pow(w_n, e)`. -/
noncomputable def applyFwd (w : ℂ) (d : ℕ → ℂ) (b : Bfly) : ℕ → ℂ :=
  let point := d b.i
  let d₁ := Function.update d b.i (d b.i + d b.j)
  Function.update d₁ b.j ((point - d₁ b.j) * w ^ (b.e : ℂ))

/-- Body of the inverse butterfly loop, statement by statement
(FFT.cpp:51-57 and FFTDecomposition.cpp:63-67):
`b_n = g[j] * pow(w_n, e); g[j] = (g[i] - b_n) * 0.5; g[i] = (g[i] + b_n) * 0.5`. -/
noncomputable def applyInv (w : ℂ) (d : ℕ → ℂ) (b : Bfly) : ℕ → ℂ :=
  let bn := d b.j * w ^ (b.e : ℂ)
  let d₁ := Function.update d b.j ((d b.i - bn) * (1 / 2))
  Function.update d₁ b.i ((d₁ b.i + bn) * (1 / 2))

/-- Run a butterfly loop over a buffer of `sz` elements; out-of-range indices are undefined behaviour.
The nested `for` loops of the code are flattened, in iteration order, into the list `l`.
(FFT.cpp:15-30, 44-59; FFTDecomposition.cpp:23-36, 57-69). -/
def runLoop (body : (ℕ → ℂ) → Bfly → (ℕ → ℂ)) (sz : ℕ) (l : List Bfly) (d : ℕ → ℂ) :
    Option (ℕ → ℂ) :=
  if ∀ b ∈ l, b.i < sz ∧ b.j < sz then some (l.foldl body d) else none

/-- `std::exp (std::complex<float> (0, -twoPi / n))` (FFT.cpp:12-13, FFTDecomposition.cpp:20-21). -/
noncomputable def twiddleFwd (n : ℕ) : ℂ := Complex.exp (⟨0, -(2 * Real.pi) / n⟩ : ℂ)

/-- `std::exp (std::complex<float> (0, twoPi / n))` (FFT.cpp:41-42, FFTDecomposition.cpp:54-55). -/
noncomputable def twiddleInv (n : ℕ) : ℂ := Complex.exp (⟨0, (2 * Real.pi) / n⟩ : ℂ)

/-- The group/element loops at one depth (FFT.cpp:9-11,15-22 and 38-40,44-51), on
`num_points` elements starting at element `base` of the buffer (the caller passes `&data[base]`). -/
def fftBflies (base numPoints depth : ℕ) : List Bfly :=
  let numElementsInGroup := 2 ^ depth
  let numGroups := numPoints / numElementsInGroup
  let half := numElementsInGroup / 2
  (List.range numGroups).flatMap fun groupIndex =>
    (List.range half).map fun elementIndex =>
      { i := base + groupIndex * numElementsInGroup + elementIndex
        j := base + groupIndex * numElementsInGroup + (elementIndex + half)
        e := elementIndex }

/-- `ForwardFFTUnordered (&data[base], num_points)` (FFT.cpp:5-32).
`static_cast<int> (std::log2 (num_points))` is `Nat.log 2`; for `num_points = 0` the cast of `-inf` is
undefined. -/
noncomputable def forwardFFTUnordered (sz base numPoints : ℕ) (d : ℕ → ℂ) : Option (ℕ → ℂ) :=
  if numPoints = 0 then none else
    ((List.range (Nat.log 2 numPoints)).map (· + 1)).reverse.foldlM
      (fun d depth => runLoop (applyFwd (twiddleFwd (2 ^ depth))) sz (fftBflies base numPoints depth) d) d

/-- `InverseFFTUnordered (&data[base], num_points)` (FFT.cpp:34-61). -/
noncomputable def inverseFFTUnordered (sz base numPoints : ℕ) (d : ℕ → ℂ) : Option (ℕ → ℂ) :=
  if numPoints = 0 then none else
    ((List.range (Nat.log 2 numPoints)).map (· + 1)).foldlM
      (fun d depth => runLoop (applyInv (twiddleInv (2 ^ depth))) sz (fftBflies base numPoints depth) d) d

/-- `juce::isPowerOfTwo` on a positive size. Called in FFTDecomposition.cpp:11-13, 45-47. -/
def isPow2 (n : ℕ) : Bool := n == 2 ^ Nat.log 2 n

/-- The assertions at the top of both decomposition functions
(FFTDecomposition.cpp:11-14, 45-48). -/
def decompAsserts (numPoints numSegments numSteps currentStep : ℕ) : Bool :=
  (0 < numSegments && isPow2 numSegments) && (0 < numPoints && isPow2 numPoints) &&
  (0 < numSteps && numSteps ≤ numPoints && isPow2 numSteps) && currentStep < numSteps

/-- The segment/point loops (FFTDecomposition.cpp:16-19,23-28 and 50-53,57-62). -/
def segBflies (numPoints numSegments numSteps currentStep : ℕ) : List Bfly :=
  let segmentNumPoints := numPoints / numSegments
  let half := segmentNumPoints / 2
  let stepSize := half / numSteps
  let startIndex := currentStep * stepSize
  (List.range numSegments).flatMap fun segmentIndex =>
    (List.range stepSize).map fun k =>
      { i := segmentIndex * segmentNumPoints + (startIndex + k)
        j := segmentIndex * segmentNumPoints + (half + (startIndex + k))
        e := startIndex + k }

/-- `SegmentedForwardDecompositionRadix2` (FFTDecomposition.cpp:5-37). -/
noncomputable def segmentedForward (sz numPoints numSegments numSteps currentStep : ℕ)
    (d : ℕ → ℂ) : Option (ℕ → ℂ) :=
  if decompAsserts numPoints numSegments numSteps currentStep then
    runLoop (applyFwd (twiddleFwd (numPoints / numSegments))) sz
      (segBflies numPoints numSegments numSteps currentStep) d
  else none

/-- `SegmentedInverseDecompositionRadix2` (FFTDecomposition.cpp:39-70). -/
noncomputable def segmentedInverse (sz numPoints numSegments numSteps currentStep : ℕ)
    (d : ℕ → ℂ) : Option (ℕ → ℂ) :=
  if decompAsserts numPoints numSegments numSteps currentStep then
    runLoop (applyInv (twiddleInv (numPoints / numSegments))) sz
      (segBflies numPoints numSegments numSteps currentStep) d
  else none

/-- `ForwardDecompositionSchedule` (DecompositionSchedule.cpp:41-59). A zero `num_steps`
(more segments than blocks) would be a modulus by zero; it cannot satisfy the `phase` test
because `phase < num_blocks`, and `segmentedForward` rejects it. -/
noncomputable def forwardSchedule (sz numDecompositions fftSize numBlocks : ℕ) (d : ℕ → ℂ)
    (phase : ℕ) : Option (ℕ → ℂ) :=
  (List.range numDecompositions).foldlM (fun d level =>
    let numSegments := 2 ^ level
    let numSteps := numBlocks / numSegments
    if phase ≥ numBlocks - numSteps then
      if numSteps = 0 then none
      else segmentedForward sz fftSize numSegments numSteps (phase % numSteps) d
    else some d) d

/-- `InverseDecompositionSchedule` (DecompositionSchedule.cpp:61-76). -/
noncomputable def inverseSchedule (sz numDecompositions fftSize numBlocks : ℕ) (d : ℕ → ℂ)
    (phase : ℕ) : Option (ℕ → ℂ) :=
  (List.range numDecompositions).reverse.foldlM (fun d level =>
    let numSegments := 2 ^ level
    let numSteps := numBlocks / numSegments
    if phase < numSteps then segmentedInverse sz fftSize numSegments numSteps phase d
    else some d) d

end Zones.Model
