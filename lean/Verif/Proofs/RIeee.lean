import Verif.Spec.Ieee
import Verif.Proofs.RFloat32
import Verif.Proofs.RMemConvolver

/-! # In binary32 with infinities and NaNs, the transforms of a moderate response are finite -/

open Zones.Spec Zones.Model

namespace Zones.Proofs.R

theorem roundIeee_zero (flush : Bool) : roundIeee flush 0 = 0 := (binary32_rounds flush _).zero

theorem roundIeee_le (flush : Bool) {x s : ℝ} (hx : |x| ≤ s) (h1 : 1 ≤ s) (h2 : s ≤ 2 ^ 127) : |roundIeee flush x| ≤ 9 / 8 * s := by
  have h := (binary32_rounds flush infinityLike).err x (hx.trans h2)
  have h3 := abs_add_le (roundIeee flush x - x) x
  rw [sub_add_cancel] at h3
  unfold roundIeee at *
  have h4 : (2⁻¹ ^ 24 : ℝ) * |x| ≤ 2⁻¹ ^ 24 * s := mul_le_mul_of_nonneg_left hx (by positivity)
  have h5 : (2⁻¹ ^ 126 : ℝ) ≤ 1 / 16 := by norm_num
  have h6 : (2⁻¹ ^ 24 : ℝ) * s ≤ 1 / 16 * s := mul_le_mul_of_nonneg_right (by norm_num) (by linarith)
  linarith

theorem addIeee_finite {flush : Bool} {a b : ℝ} (ha : IsFinite a) (hb : IsFinite b) : addIeee flush a b = roundIeee flush (a + b) := by
  unfold addIeee IsNaN IsInf
  unfold IsFinite at ha hb
  rw [if_neg (by rintro (h | h) <;> linarith), if_neg (by rintro ⟨h, -⟩; linarith), if_neg ha.ne, if_neg hb.ne]

theorem subIeee_finite {flush : Bool} {a b : ℝ} (ha : IsFinite a) (hb : IsFinite b) : subIeee flush a b = roundIeee flush (a - b) := by
  unfold subIeee
  rw [addIeee_finite ha (by unfold IsFinite; rw [abs_neg]; exact hb), sub_eq_add_neg]

theorem mulIeee_finite {flush : Bool} {a b : ℝ} (ha : IsFinite a) (hb : IsFinite b) : mulIeee flush a b = roundIeee flush (a * b) := by
  unfold mulIeee IsNaN IsInf
  unfold IsFinite at ha hb
  rw [if_neg (by rintro (h | h) <;> linarith), if_neg (by rintro (h | h) <;> linarith)]

theorem finite_of_le {a s : ℝ} (h : |a| ≤ s) (hs : s ≤ 2 ^ 127) : IsFinite a :=
  lt_of_le_of_lt (h.trans hs) (by norm_num)

theorem finite_zero : IsFinite 0 := by unfold IsFinite; rw [abs_zero]; positivity

/-- both parts of at most `s` -/
def Within (s : ℝ) (z : ℂ) : Prop := |z.re| ≤ s ∧ |z.im| ≤ s

theorem Within.mono {s s' : ℝ} {z : ℂ} (h : Within s z) (hs : s ≤ s') : Within s' z := ⟨h.1.trans hs, h.2.trans hs⟩

theorem cmulIeee_le {flush : Bool} {repair : ℂ → ℂ → ℂ} {a b : ℂ} {s t : ℝ} (ha : Within s a) (hb : Within t b) (hs : 1 ≤ s) (ht : 1 ≤ t)
    (hst : 4 * (s * t) ≤ 2 ^ 127) : Within (9 / 8 * (9 / 4 * (s * t))) (cmulIeee flush repair a b) := by
  have hs1 : s ≤ s * t := by nlinarith
  have ht1 : t ≤ s * t := by nlinarith
  have h1 : 1 ≤ s * t := by nlinarith
  have fa := finite_of_le ha.1 (by linarith)
  have fa' := finite_of_le ha.2 (by linarith)
  have fb := finite_of_le hb.1 (by linarith)
  have fb' := finite_of_le hb.2 (by linarith)
  have hp : ∀ x y : ℝ, |x| ≤ s → |y| ≤ t → |mulIeee flush x y| ≤ 9 / 8 * (s * t) := by
    intro x y hx hy
    rw [mulIeee_finite (finite_of_le hx (by linarith)) (finite_of_le hy (by linarith))]
    refine roundIeee_le flush ?_ h1 (by linarith)
    rw [abs_mul]
    exact mul_le_mul hx hy (abs_nonneg _) (by linarith)
  have hq : ∀ x y : ℝ, |x| ≤ 9 / 8 * (s * t) → |y| ≤ 9 / 8 * (s * t) → |addIeee flush x y| ≤ 9 / 8 * (9 / 4 * (s * t)) := by
    intro x y hx hy
    rw [addIeee_finite (finite_of_le hx (by linarith)) (finite_of_le hy (by linarith))]
    refine roundIeee_le flush ?_ (by linarith) (by linarith)
    exact (abs_add_le _ _).trans (by linarith)
  have e1 := hq _ (-mulIeee flush a.im b.im) (hp _ _ ha.1 hb.1) (by rw [abs_neg]; exact hp _ _ ha.2 hb.2)
  have e2 := hq _ _ (hp _ _ ha.1 hb.2) (hp _ _ ha.2 hb.1)
  unfold cmulIeee subIeee
  simp only
  rw [if_neg (by
    rintro ⟨h, -⟩
    unfold IsNaN at h
    have : (9 / 8 * (9 / 4 * (s * t)) : ℝ) < 2 ^ 128 := by linarith [show (2:ℝ) ^ 128 = 2 * 2 ^ 127 by norm_num]
    linarith)]
  exact ⟨e1, e2⟩

theorem cmulIeee_zero {flush : Bool} {repair : ℂ → ℂ → ℂ} {b : ℂ} (h1 : IsFinite b.re) (h2 : IsFinite b.im) : cmulIeee flush repair 0 b = 0 := by
  have hz : ¬ IsNaN 0 := by unfold IsNaN; rw [abs_zero, not_lt]; positivity
  have hm : ∀ y, IsFinite y → mulIeee flush 0 y = 0 := fun y hy => by rw [mulIeee_finite finite_zero hy, zero_mul, roundIeee_zero]
  have ha : addIeee flush 0 0 = 0 := by rw [addIeee_finite finite_zero finite_zero, add_zero, roundIeee_zero]
  unfold cmulIeee subIeee
  simp only [Complex.zero_re, Complex.zero_im, hm _ h1, hm _ h2, neg_zero, ha, hz, false_and, if_false]
  rfl

section

variable {flush : Bool} {repair : ℂ → ℂ → ℂ} {twF twI : ℕ → ℕ → ℂ}

/-- a butterfly level multiplies the parts by at most 8 -/
theorem lev_ieee (hF : TwiddlesBounded twF) {h : ℕ} {d : ℕ → ℂ} {s : ℝ} (hs : 1 ≤ s) (hs' : 8 * s ≤ 2 ^ 126) (hd : ∀ j, Within s (d j)) (k : ℕ) :
    Within (8 * s) (@lev (.ieee flush repair twF twI) h d k) := by
  letI := Arith.ieee flush repair twF twI
  have hadd : ∀ x y : ℝ, |x| ≤ s → |y| ≤ s → |addIeee flush x y| ≤ 9 / 4 * s := by
    intro x y hx hy
    rw [addIeee_finite (finite_of_le hx (by linarith)) (finite_of_le hy (by linarith))]
    refine (roundIeee_le flush (s := 2 * s) ((abs_add_le _ _).trans (by linarith)) (by linarith) (by linarith)).trans (by linarith)
  unfold lev
  split
  · exact ⟨(hadd _ _ (hd _).1 (hd _).1).trans (by linarith), (hadd _ _ (hd _).2 (hd _).2).trans (by linarith)⟩
  · refine (cmulIeee_le (flush := flush) (repair := repair) (s := 9 / 4 * s) (t := 9 / 8) (a := ⟨_, _⟩)
      ⟨hadd _ _ (hd _).1 (by rw [abs_neg]; exact (hd _).1), hadd _ _ (hd _).2 (by rw [abs_neg]; exact (hd _).2)⟩ (hF _ _) (by linarith) (by norm_num)
      (by linarith)).mono ?_
    linarith

theorem down_ieee (hF : TwiddlesBounded twF) : ∀ (n : ℕ) (d : ℕ → ℂ) (s : ℝ), 1 ≤ s → 8 ^ n * s ≤ 2 ^ 126 → (∀ j, Within s (d j)) → ∀ k,
    Within (8 ^ n * s) (@down (.ieee flush repair twF twI) n d k)
  | 0, d, s, hs, hs', hd, k => by
    rw [pow_zero, one_mul]; exact hd k
  | n + 1, d, s, hs, hs', hd, k => by
    have h8 : (1:ℝ) ≤ 8 ^ n := one_le_pow₀ (by norm_num)
    have h9 : 8 * s ≤ 8 ^ n * (8 * s) := le_mul_of_one_le_left (by linarith) h8
    have e : (8:ℝ) ^ (n + 1) * s = 8 ^ n * (8 * s) := by ring
    rw [e] at hs' ⊢
    exact down_ieee hF n _ (8 * s) (by linarith) hs' (lev_ieee hF hs (h9.trans hs') hd) k

theorem zeroSafe_ieee (hF : TwiddlesBounded twF) (hI : TwiddlesBounded twI) {L K : ℕ} {ir : Buf} (hLK : 3 * L + K ≤ 126)
    (hir : ∀ c < ir.ch, ∀ i < ir.n, |ir.data c i| ≤ 2 ^ K) : @ZeroSafe (.ieee flush repair twF twI) L ir := by
  letI := Arith.ieee flush repair twF twI
  have ha : addIeee flush 0 0 = 0 := by rw [addIeee_finite finite_zero finite_zero, add_zero, roundIeee_zero]
  have hs : subIeee flush 0 0 = 0 := by rw [subIeee_finite finite_zero finite_zero, sub_zero, roundIeee_zero]
  have hm : mulIeee flush 0 (1 / 2) = 0 := by
    rw [mulIeee_finite finite_zero (finite_of_le (s := 1) (by norm_num) (by norm_num)), zero_mul, roundIeee_zero]
  have hK : (1:ℝ) ≤ 2 ^ K := one_le_pow₀ (by norm_num)
  have tw : ∀ z : ℂ, |z.re| ≤ 9 / 8 ∧ |z.im| ≤ 9 / 8 → cmulIeee flush repair 0 z = 0 := fun z hz =>
    cmulIeee_zero (finite_of_le hz.1 (by norm_num)) (finite_of_le hz.2 (by norm_num))
  refine ⟨⟨ha, ?_, ?_, fun n e => tw _ (hF n e), fun n e => tw _ (hI n e), ?_⟩, fun n hn d hd k => ?_⟩
  · exact Complex.ext ha ha
  · exact Complex.ext hs hs
  · exact Complex.ext hm hm
  · have hle : (8:ℝ) ^ n * 2 ^ K ≤ 2 ^ 126 := by
      rw [show (8:ℝ) = 2 ^ 3 by norm_num, ← pow_mul, ← pow_add]
      exact pow_le_pow_right₀ (by norm_num) (by omega)
    have := down_ieee (flush := flush) (repair := repair) (twI := twI) hF n d (2 ^ K) hK hle (fun j => by
      rcases hd j with h | ⟨c, hc, i, hi, h⟩
      · rw [h]; refine ⟨?_, ?_⟩ <;> simp
      · rw [h]; exact ⟨by rw [Complex.ofReal_re]; exact hir c hc i hi, by rw [Complex.ofReal_im, abs_zero]; positivity⟩) k
    have h127 : (8:ℝ) ^ n * 2 ^ K ≤ 2 ^ 127 := hle.trans (by norm_num)
    exact cmulIeee_zero (finite_of_le this.1 h127) (finite_of_le this.2 h127)

end

end Zones.Proofs.R
