import Verif.Spec.FloatRange

/-!
# binary32 with infinities and NaNs

The arithmetic of `float` with its special values. A value is encoded as a real number: a finite value as itself, `±∞` as `±2^128`
(the power of two that follows the largest finite number), and NaN as any number of larger magnitude. The two zeros are one value here,
and so are all NaNs that an operation returns; neither makes a difference to sums, differences and products, as values.
-/

namespace Zones.Spec

open Zones.Model

/-- an infinity -/
def IsInf (x : ℝ) : Prop := |x| = 2 ^ 128

/-- not a number -/
def IsNaN (x : ℝ) : Prop := 2 ^ 128 < |x|

/-- neither an infinity nor a NaN -/
def IsFinite (x : ℝ) : Prop := |x| < 2 ^ 128

/-- the infinity with the sign of `x` -/
noncomputable def infinityLike (x : ℝ) : ℝ := if 0 ≤ x then 2 ^ 128 else -2 ^ 128

/-- the NaN that operations return -/
noncomputable def nan : ℝ := 2 ^ 129

/-- rounding of the exact result of an operation on finite values: to binary32, too large results to an infinity -/
noncomputable def roundIeee (flush : Bool) (x : ℝ) : ℝ := binary32 flush infinityLike x

open Classical in
/-- `float + float`: NaN if an operand is, or if infinities of different sign meet. -/
noncomputable def addIeee (flush : Bool) (a b : ℝ) : ℝ :=
  if IsNaN a ∨ IsNaN b then nan
  else if IsInf a ∧ IsInf b then (if a = b then a else nan)
  else if IsInf a then a
  else if IsInf b then b
  else roundIeee flush (a + b)

/-- `float - float` -/
noncomputable def subIeee (flush : Bool) (a b : ℝ) : ℝ := addIeee flush a (-b)

open Classical in
/-- `float * float`: NaN if an operand is, or if zero meets an infinity. -/
noncomputable def mulIeee (flush : Bool) (a b : ℝ) : ℝ :=
  if IsNaN a ∨ IsNaN b then nan
  else if IsInf a ∨ IsInf b then (if a = 0 ∨ b = 0 then nan else infinityLike (a * b))
  else roundIeee flush (a * b)

open Classical in
/-- `std::complex<float> * std::complex<float>`: four products and two sums; when both parts come out as NaN, whatever the library makes of
that (C11 Annex G asks for infinities in some cases; with `-ffast-math` nothing is done). -/
noncomputable def cmulIeee (flush : Bool) (repair : ℂ → ℂ → ℂ) (a b : ℂ) : ℂ :=
  let re := subIeee flush (mulIeee flush a.re b.re) (mulIeee flush a.im b.im)
  let im := addIeee flush (mulIeee flush a.re b.im) (mulIeee flush a.im b.re)
  if IsNaN re ∧ IsNaN im then repair a b else ⟨re, im⟩

/-- The arithmetic of the code in binary32, infinities and NaNs included. -/
@[reducible] noncomputable def _root_.Zones.Model.Arith.ieee (flush : Bool) (repair : ℂ → ℂ → ℂ) (twF twI : ℕ → ℕ → ℂ) : Arith where
  addF a b := addIeee flush a b
  add a b := ⟨addIeee flush a.re b.re, addIeee flush a.im b.im⟩
  sub a b := ⟨subIeee flush a.re b.re, subIeee flush a.im b.im⟩
  mul a b := cmulIeee flush repair a b
  half a := ⟨mulIeee flush a.re (1 / 2), mulIeee flush a.im (1 / 2)⟩
  twF := twF
  twI := twI

/-- Twiddle factors whose parts are hardly more than one. -/
def TwiddlesBounded (tw : ℕ → ℕ → ℂ) : Prop := ∀ n e, |(tw n e).re| ≤ 9 / 8 ∧ |(tw n e).im| ≤ 9 / 8

end Zones.Spec
