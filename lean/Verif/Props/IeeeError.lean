import Verif.Props.FloatRange
import Verif.Props.Ieee

/-!
# After a NaN or an infinity has passed, the output is right again (C96)

C95 says that two convolvers agree again once the bad values have passed. Here the result is compared with the exact convolution: the
assumptions of C93 hold of binary32 with infinities and NaNs (`Arith.ieee`), because they ask nothing of an operation on a number that is
out of range.
-/

open Finset Zones.Spec Zones.Model Zones.Proofs Zones.Proofs.R

namespace Zones.Props

variable {flush : Bool} {repair : ℂ → ℂ → ℂ} {twF twI : ℕ → ℕ → ℂ} {L : ℕ}

theorem parts_finite {z : ℂ} (h : ‖z‖ ≤ 2 ^ 125) : IsFinite z.re ∧ IsFinite z.im :=
  ⟨finite_of_le ((Complex.abs_re_le_norm z).trans h) (by norm_num), finite_of_le ((Complex.abs_im_le_norm z).trans h) (by norm_num)⟩

theorem round_finite {x : ℝ} (h : |x| ≤ 2 ^ 125) : |roundIeee flush x| ≤ 9 / 8 * 2 ^ 125 :=
  roundIeee_le flush h (by norm_num) (by norm_num)

/-- on numbers within range the complex product is the rounded one -/
theorem cmulIeee_eq {a b : ℂ} (ha : ‖a‖ ≤ 2 ^ 125) (hb : ‖b‖ ≤ 2 ^ 125) (hab : ‖a * b‖ ≤ 2 ^ 125) :
    cmulIeee flush repair a b = (Arith.rounded (roundIeee flush) twF twI).mul a b := by
  obtain ⟨fa, fa'⟩ := parts_finite ha
  obtain ⟨fb, fb'⟩ := parts_finite hb
  rw [norm_mul] at hab
  have part : ∀ s t : ℝ, |s| ≤ ‖a‖ → |t| ≤ ‖b‖ → |roundIeee flush (s * t)| ≤ 9 / 8 * 2 ^ 125 := fun s t hs ht => by
    refine round_finite ?_
    rw [abs_mul]
    exact (mul_le_mul hs ht (abs_nonneg _) (norm_nonneg _)).trans hab
  have q1 := part _ _ (Complex.abs_re_le_norm a) (Complex.abs_re_le_norm b)
  have q2 := part _ _ (Complex.abs_im_le_norm a) (Complex.abs_im_le_norm b)
  have q3 := part _ _ (Complex.abs_re_le_norm a) (Complex.abs_im_le_norm b)
  have q4 := part _ _ (Complex.abs_im_le_norm a) (Complex.abs_re_le_norm b)
  have fin : ∀ {x : ℝ}, |x| ≤ 9 / 8 * 2 ^ 125 → IsFinite x := fun h => finite_of_le h (by norm_num)
  unfold cmulIeee
  simp only
  rw [mulIeee_finite fa fb, mulIeee_finite fa' fb', mulIeee_finite fa fb', mulIeee_finite fa' fb, subIeee_finite (fin q1) (fin q2),
    addIeee_finite (fin q3) (fin q4), if_neg]
  · rfl
  · rintro ⟨h, -⟩
    have h1 := roundIeee_le flush (x := roundIeee flush (a.re * b.re) - roundIeee flush (a.im * b.im)) (s := 2 ^ 127)
      ((abs_sub _ _).trans ((add_le_add q1 q2).trans (by norm_num))) (by norm_num) le_rfl
    unfold IsNaN at h
    have h2 : (9 / 8 * 2 ^ 127 : ℝ) < 2 ^ 128 := by norm_num
    linarith

/-- binary32 with infinities and NaNs is accurate up to `2^125` -/
theorem ieee_accurate (hTF : TwiddlesBounded twF) (hTI : TwiddlesBounded twI)
    (hF : ∀ k < L, ∀ e < 2 ^ k, ‖twF (2 * 2 ^ k) e - omega (2 * 2 ^ k) ^ e‖ ≤ 2⁻¹ ^ 23)
    (hI : ∀ k < L, ∀ e < 2 ^ k, ‖twI (2 * 2 ^ k) e - (omega (2 * 2 ^ k))⁻¹ ^ e‖ ≤ 2⁻¹ ^ 23) :
    @AccurateIn (Arith.ieee flush repair twF twI) (√2 * (2 * 2⁻¹ ^ 24 + (2⁻¹ ^ 24) ^ 2)) (√2 * ((3 + 2 * 2⁻¹ ^ 24) * 2⁻¹ ^ 126)) (2 ^ 125)
      (2⁻¹ ^ 23) L := by
  let inst : Arith := Arith.rounded (roundIeee flush) twF twI
  have hR := accurateIn_rounded (binary32_rounds flush infinityLike) (Ω' := 2 ^ 125) (τ := 2⁻¹ ^ 23) (by positivity) (by norm_num) (by positivity)
    (by norm_num) hF hI
  have tw : ∀ z : ℂ, |z.re| ≤ 9 / 8 ∧ |z.im| ≤ 9 / 8 → cmulIeee flush repair 0 z = 0 := fun z hz =>
    cmulIeee_zero (finite_of_le hz.1 (by norm_num)) (finite_of_le hz.2 (by norm_num))
  have ha : addIeee flush 0 0 = 0 := by rw [addIeee_finite finite_zero finite_zero, add_zero, roundIeee_zero]
  have hs : subIeee flush 0 0 = 0 := by rw [subIeee_finite finite_zero finite_zero, sub_zero, roundIeee_zero]
  have fh : IsFinite (1 / 2) := finite_of_le (s := 1) (by norm_num) (by norm_num)
  have hm : mulIeee flush 0 (1 / 2) = 0 := by
    rw [mulIeee_finite finite_zero fh, zero_mul, roundIeee_zero]
  have fin : ∀ {x : ℝ}, |x| ≤ 2 ^ 125 → IsFinite x := fun h => finite_of_le h (by norm_num)
  refine @AccurateIn.mk (Arith.ieee flush repair twF twI) _ _ _ _ _ hR.v_nonneg hR.η_nonneg hR.τ_nonneg hR.τ_le
    (fun a b h1 h2 h3 => ?_) (fun a b h1 h2 h3 => ?_) (fun a b h1 h2 h3 => ?_) (fun a b h1 h2 h3 => ?_) (fun a h => ?_) hF hI
    ha (Complex.ext ha ha) (Complex.ext hs hs) (fun z hz => cmulIeee_zero (parts_finite hz).1 (parts_finite hz).2) (Complex.ext hm hm)
    (fun n e => tw _ (hTF n e)) (fun n e => tw _ (hTI n e))
  · show |addIeee flush a b - (a + b)| ≤ _
    rw [addIeee_finite (fin h1) (fin h2)]
    exact hR.addF a b h1 h2 h3
  · show ‖(⟨addIeee flush a.re b.re, addIeee flush a.im b.im⟩ : ℂ) - (a + b)‖ ≤ _
    rw [addIeee_finite (parts_finite h1).1 (parts_finite h2).1, addIeee_finite (parts_finite h1).2 (parts_finite h2).2]
    exact hR.add a b h1 h2 h3
  · show ‖(⟨subIeee flush a.re b.re, subIeee flush a.im b.im⟩ : ℂ) - (a - b)‖ ≤ _
    rw [subIeee_finite (parts_finite h1).1 (parts_finite h2).1, subIeee_finite (parts_finite h1).2 (parts_finite h2).2]
    exact hR.sub a b h1 h2 h3
  · show ‖cmulIeee flush repair a b - a * b‖ ≤ _
    rw [cmulIeee_eq h1 h2 h3]
    exact hR.mul a b h1 h2 h3
  · show ‖(⟨mulIeee flush a.re (1 / 2), mulIeee flush a.im (1 / 2)⟩ : ℂ) - a / 2‖ ≤ _
    rw [mulIeee_finite (parts_finite h).1 fh, mulIeee_finite (parts_finite h).2 fh]
    exact hR.half a h

/-- **C96.** After a NaN or an infinity has passed, the output is right again: not just what it would have been, as C95 says, but finite and
within the error bound of C93 of the exact convolution. The arithmetic is binary32 with infinities and NaNs, and of the transforms of
`juce::dsp::FFT` nothing is assumed when their data, or results, exceed `2^125`. The convolver is new, or was used in any way, with
any input, and then reset; then `blocks` are processed, whatever values they contain. A sample of the output is finite and within the bound
when the input of the channels that are routed to it is at most `Xmax` in the `ir.n + 2^L + B` samples before, and in the rest of its block.
Levels and partitions below `2^-49` count as `2^-49`. -/
theorem C96_right_after_bad_values (flush : Bool) (repair : ℂ → ℂ → ℂ) {twF twI : ℕ → ℕ → ℂ} (hTF : TwiddlesBounded twF) (hTI : TwiddlesBounded twI)
    {L K : ℕ} {ε : ℝ}
    (hTF' : ∀ k < L, ∀ e < 2 ^ k, ‖twF (2 * 2 ^ k) e - omega (2 * 2 ^ k) ^ e‖ ≤ 2⁻¹ ^ 23)
    (hTI' : ∀ k < L, ∀ e < 2 ^ k, ‖twI (2 * 2 ^ k) e - (omega (2 * 2 ^ k))⁻¹ ^ e‖ ≤ 2⁻¹ ^ 23)
    {F : RealFFT} (hF : ApproxIn F ε (2⁻¹ ^ 99) (2 ^ 125)) {ir : Buf} {maxB N : ℕ} {Xmax : ℝ}
    {spec : ConvolverSpec} (h : Usable ir maxB spec N) {B : ℕ} {sch : List Layout}
    (hB : internalBlockSize Convolver.po2Fuel maxB spec.internalBlockSize = some B)
    (hsch : getPartitionScheme kGarciaResults B ir.n = some sch)
    (hL : ∀ l ∈ sch, 2 * (l.psb * B) ≤ 2^L ∧ l.np ≤ K) (hX1 : 1 ≤ Xmax)
    (hE : errorFactor (2⁻¹ ^ 22) (2⁻¹ ^ 23) ε L K sch.length ir.ch ≤ 1)
    (hH : headroom (2⁻¹ ^ 49) B ir sch L Xmax ≤ 2 ^ 124) (g : Garbage) (r0 : ℕ → ℕ → ℝ) :
    letI := Arith.ieee flush repair twF twI
    ∃ c, Convolver.createR F ir maxB spec g r0 = some c ∧
      (∀ ops : List Op, (∀ b, Op.process b ∈ ops → b.ch = N) →
        ∃ used, history (Convolver.processR F) Convolver.reset c ops = some used) ∧
      ∀ start, (start = c ∨ ∃ ops used, (∀ b, Op.process b ∈ ops → b.ch = N) ∧
          history (Convolver.processR F) Convolver.reset c ops = some used ∧ start = used.reset) →
        ∀ blocks : List Buf, (∀ b ∈ blocks, b.ch = N) →
          ∃ c' outs, feed (Convolver.processR F) start blocks = some (c', outs) ∧ SameShape blocks outs ∧
            ∀ o < N, ∀ n < totalLen blocks, ∀ X : ℕ → ℝ,
              (∀ c < ir.ch, channelAt spec.outputRouting c = o → 2⁻¹ ^ 49 ≤ X c ∧ X c ≤ Xmax ∧
                LevelAround (stream blocks (channelAt spec.inputRouting c)) (ir.n + 2^L + B) B n (X c)) →
              IsFinite (stream outs o n) ∧
              |stream outs o n - routedConv ir spec.inputRouting spec.outputRouting (stream blocks) o n| ≤
                errorFactor (2⁻¹ ^ 22) (2⁻¹ ^ 23) ε L K sch.length ir.ch *
                  outputWeightF (2⁻¹ ^ 49) B ir sch spec.outputRouting X o := by
  let inst := Arith.ieee flush repair twF twI
  have hv : √2 * (2 * 2⁻¹ ^ 24 + (2⁻¹ ^ 24) ^ 2) ≤ 1.4143 * (2 * 2⁻¹ ^ 24 + (2⁻¹ ^ 24) ^ 2) :=
    mul_le_mul_of_nonneg_right sqrt2_le (by positivity)
  have hη : √2 * ((3 + 2 * 2⁻¹ ^ 24) * 2⁻¹ ^ 126) ≤ 1.4143 * ((3 + 2 * 2⁻¹ ^ 24) * 2⁻¹ ^ 126) :=
    mul_le_mul_of_nonneg_right sqrt2_le (by positivity)
  obtain ⟨c, e, h1, h2⟩ := C93_bounded_with_underflow_and_overflow
    (ieee_accurate (flush := flush) (repair := repair) hTF hTI hTF' hTI') hF (u := 2⁻¹ ^ 22) (θ := 2⁻¹ ^ 49) (Xmax := Xmax) (hv.trans (by norm_num)) (by
      refine hη.trans (le_trans (b := (2⁻¹ ^ 22 - 1.4143 * (2 * 2⁻¹ ^ 24 + (2⁻¹ ^ 24) ^ 2)) * 2⁻¹ ^ 99) (by norm_num) ?_)
      exact mul_le_mul_of_nonneg_right (by linarith) (by positivity))
    (by positivity) (by norm_num) (by norm_num) h hB hsch hL hX1 (by
      have h0 : 0 ≤ headroom (2⁻¹ ^ 49) B ir sch L Xmax := by
        unfold headroom
        have := weights_nonneg (2⁻¹ ^ 49) B ir sch
        have h1 : 0 ≤ ∑ c ∈ range ir.ch, schemeNormF (2⁻¹ ^ 49) B (extended ir c) 0 sch := this
        positivity
      have h1 : (1 + errorFactor (2⁻¹ ^ 22) (2⁻¹ ^ 23) ε L K sch.length ir.ch) * headroom (2⁻¹ ^ 49) B ir sch L Xmax ≤
          2 * headroom (2⁻¹ ^ 49) B ir sch L Xmax := mul_le_mul_of_nonneg_right (by linarith) h0
      have h2 : (2:ℝ) * 2 ^ 124 = 2 ^ 125 := by norm_num
      linarith) g r0
  refine ⟨c, e, h1, fun start hs blocks hN => ?_⟩
  obtain ⟨c', outs, e1, sh, d⟩ := h2 start hs blocks hN
  exact ⟨c', outs, e1, sh, fun o ho n hn X hX => ⟨finite_of_le (d o ho n hn X hX).2 (by norm_num), (d o ho n hn X hX).1⟩⟩

end Zones.Props
