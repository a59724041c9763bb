import Verif.Proofs.RError
import Verif.Proofs.JuceFFT

/-! # Parseval, and the accuracy of real-only transforms -/

open Finset Zones.Spec Zones.Model

namespace Zones.Proofs.R

theorem omega_ne_one {N d : ℕ} (hd : 0 < d) (hdN : d < N) : omega N ^ d ≠ 1 := by
  unfold omega
  rw [← Complex.exp_nat_mul, Ne, Complex.exp_eq_one_iff]
  rintro ⟨n, hn⟩
  have hN : (N : ℂ) ≠ 0 := by exact_mod_cast (by omega : N ≠ 0)
  have hpi : (2 * (Real.pi : ℂ) * Complex.I) ≠ 0 := by
    simp [Real.pi_ne_zero, Complex.I_ne_zero]
  have h2 : (2 * (Real.pi : ℂ) * Complex.I) * (d + n * N : ℂ) = 0 := by
    have e : (d : ℂ) * (-(2 * Real.pi * Complex.I) / N) * N = n * (2 * Real.pi * Complex.I) * N := by rw [hn]
    rw [mul_div_assoc', div_mul_cancel₀ _ hN] at e
    linear_combination -e
  rcases mul_eq_zero.mp h2 with h3 | h3
  · exact hpi h3
  · have h4 : (d : ℤ) + n * N = 0 := by exact_mod_cast h3
    have h5 : (N : ℤ) ∣ d := ⟨-n, by linarith⟩
    have h6 := Int.le_of_dvd (by omega) h5
    omega

theorem omega_sum {N j n : ℕ} (hN : 0 < N) (hj : j < N) (hn : n < N) :
    ∑ k ∈ range N, omega N ^ (j * k) * (omega N)⁻¹ ^ (k * n) = if j = n then (N : ℂ) else 0 := by
  have hw := omega_ne_zero N
  have e : ∀ k ∈ range N, omega N ^ (j * k) * (omega N)⁻¹ ^ (k * n) = (omega N ^ j * (omega N)⁻¹ ^ n) ^ k := by
    intro k _
    rw [mul_pow, ← pow_mul, ← pow_mul, mul_comm n k]
  rw [sum_congr rfl e]
  split
  · next h =>
    subst h
    rw [inv_pow, mul_inv_cancel₀ (pow_ne_zero _ hw)]; simp
  · next h =>
    have hr : omega N ^ j * (omega N)⁻¹ ^ n ≠ 1 := by
      intro hc
      rw [inv_pow] at hc
      have hc2 : omega N ^ j = omega N ^ n := by
        have := congrArg (· * omega N ^ n) hc
        simpa [mul_assoc, inv_mul_cancel₀ (pow_ne_zero n hw)] using this
      rcases Nat.lt_or_gt_of_ne h with h1 | h1
      · apply omega_ne_one (N := N) (d := n - j) (by omega) (by omega)
        have : omega N ^ n = omega N ^ j * omega N ^ (n - j) := by rw [← pow_add]; congr 1; omega
        rw [this] at hc2
        exact mul_left_cancel₀ (pow_ne_zero j hw) (by rw [mul_one]; exact hc2.symm)
      · apply omega_ne_one (N := N) (d := j - n) (by omega) (by omega)
        have : omega N ^ j = omega N ^ n * omega N ^ (j - n) := by rw [← pow_add]; congr 1; omega
        rw [this] at hc2
        exact mul_left_cancel₀ (pow_ne_zero n hw) (by rw [mul_one]; exact hc2)
    rw [geom_sum_eq hr, mul_pow, ← pow_mul, ← pow_mul, mul_comm j, mul_comm n, pow_mul, pow_mul, inv_pow,
      omega_pow_self N hN]
    simp

theorem dft_inversion {N : ℕ} (hN : 0 < N) (x : ℕ → ℂ) {n : ℕ} (hn : n < N) :
    ∑ k ∈ range N, dft N x k * (omega N)⁻¹ ^ (k * n) = N * x n := by
  unfold dft
  simp only [sum_mul]
  rw [sum_comm]
  have : ∀ j ∈ range N, ∑ k ∈ range N, x j * omega N ^ (j * k) * (omega N)⁻¹ ^ (k * n) = x j * if j = n then (N : ℂ) else 0 := by
    intro j hj
    rw [← omega_sum hN (mem_range.mp hj) hn, mul_sum]
    exact sum_congr rfl fun k _ => by ring
  rw [sum_congr rfl this]
  simp only [mul_ite, mul_zero]
  rw [sum_ite_eq' , if_pos (mem_range.mpr hn), mul_comm]

/-- Parseval -/
theorem l2_dft {N : ℕ} (hN : 0 < N) (x : ℕ → ℂ) : l2 N (dft N x) = √N * l2 N x := by
  unfold l2
  rw [← Real.sqrt_mul (Nat.cast_nonneg _)]
  congr 1
  have key : ((∑ k ∈ range N, ‖dft N x k‖ ^ 2 : ℝ) : ℂ) = ((N * ∑ j ∈ range N, ‖x j‖ ^ 2 : ℝ) : ℂ) := by
    push_cast
    have h1 : ∀ z : ℂ, ((‖z‖ : ℂ)) ^ 2 = z * star z := fun z => by
      rw [Complex.star_def, Complex.mul_conj, Complex.normSq_eq_norm_sq]; push_cast; rfl
    simp only [h1]
    have h2 : ∀ k ∈ range N, dft N x k * star (dft N x k) =
        ∑ j ∈ range N, star (x j) * (dft N x k * (omega N)⁻¹ ^ (k * j)) := by
      intro k _
      conv_lhs => rw [show star (dft N x k) = ∑ j ∈ range N, star (x j) * (omega N)⁻¹ ^ (k * j) by
        unfold dft
        rw [star_sum]
        exact sum_congr rfl fun j _ => by rw [star_mul', star_pow, star_omega, mul_comm j k]]
      rw [mul_sum]
      exact sum_congr rfl fun j _ => by ring
    rw [sum_congr rfl h2, sum_comm, mul_sum]
    refine sum_congr rfl fun j hj => ?_
    rw [← mul_sum, dft_inversion hN x (mem_range.mp hj)]
    ring
  exact_mod_cast key

theorem dft_linear_sub (N : ℕ) (x y : ℕ → ℂ) : dft N (fun j => x j - y j) = fun k => dft N x k - dft N y k := by
  funext k
  unfold dft
  rw [← sum_sub_distrib]
  exact sum_congr rfl fun j _ => by ring

theorem l2_half_dft {o : ℕ} (ho : 0 < o) (x : ℕ → ℂ) : l2 (2^o/2+1) (dft (2^o) x) ≤ √(2^o) * l2 (2^o) x := by
  have hN : 0 < 2^o := by positivity
  have h2 : 2 ≤ 2^o := by
    calc 2 = 2^1 := rfl
      _ ≤ 2^o := Nat.pow_le_pow_right (by norm_num) ho
  have := l2_dft hN x
  push_cast at this
  rw [← this]
  exact l2_mono_len (by omega) _

theorem realInv_dft {o : ℕ} (ho : 0 < o) (y : ℕ → ℝ) {e : ℕ → ℂ}
    (he : ∀ k ≤ 2^o / 2, e k = dft (2^o) (fun j => (y j : ℂ)) k) {n : ℕ} (hn : n < 2^o) : realInv (2^o) e n = y n := by
  have hN : 0 < 2^o := by positivity
  unfold realInv
  have : ∀ k ∈ range (2^o), (if k ≤ 2^o / 2 then e k else star (e (2^o - k))) * (omega (2^o))⁻¹ ^ (k * n) =
      dft (2^o) (fun j => (y j : ℂ)) k * (omega (2^o))⁻¹ ^ (k * n) := by
    intro k hk
    rw [mem_range] at hk
    congr 1
    split
    · next h => exact he k h
    · next h =>
      rw [he _ (by omega), ← dft_real_symm y (by omega) hN]
      congr 1; omega
  rw [sum_congr rfl this, dft_inversion hN _ hn]
  have h0 : ((2^o : ℕ) : ℂ) ≠ 0 := by exact_mod_cast hN.ne'
  rw [← mul_assoc, one_div, inv_mul_cancel₀ h0, one_mul, Complex.ofReal_re]

theorem realInv_sub (N : ℕ) (e f : ℕ → ℂ) (n : ℕ) :
    realInv N (fun k => e k - f k) n = realInv N e n - realInv N f n := by
  unfold realInv
  rw [← Complex.sub_re, ← mul_sub, ← sum_sub_distrib]
  congr 2
  refine sum_congr rfl fun k _ => ?_
  split
  · ring
  · rw [star_sub]; ring

theorem realInv_congr {N : ℕ} {e f : ℕ → ℂ} (hN : 0 < N) (h : ∀ k ≤ N / 2, e k = f k) (n : ℕ) : realInv N e n = realInv N f n := by
  unfold realInv
  congr 2
  refine sum_congr rfl fun k hk => ?_
  rw [mem_range] at hk
  congr 1
  split
  · next h1 => exact h k h1
  · next h1 => rw [h _ (by omega)]

theorem l2_realInv {o : ℕ} (e : ℕ → ℂ) :
    l2 (2^o) (fun n => (realInv (2^o) e n : ℂ)) ≤ √(2 / 2^o) * l2 (2^o/2+1) e := by
  have hN : 0 < 2^o := by positivity
  set N := 2^o with hNd
  set f : ℕ → ℂ := fun k => if k ≤ N / 2 then e k else star (e (N - k)) with hf
  -- the inverse transform is a conjugated forward transform
  have h1 : ∀ n < N, ‖((realInv N e n : ℝ) : ℂ)‖ ≤ (1 / N : ℝ) * ‖dft N (fun k => star (f k)) n‖ := by
    intro n _
    rw [Complex.norm_real]
    unfold realInv
    refine (Complex.abs_re_le_norm _).trans ?_
    rw [norm_mul]
    have e1 : ‖(1 / N : ℂ)‖ = 1 / (N : ℝ) := by simp
    rw [e1]
    refine le_of_eq ?_
    congr 1
    rw [← norm_star (dft N (fun k => star (f k)) n)]
    congr 1
    unfold dft
    rw [star_sum]
    refine sum_congr rfl fun k _ => ?_
    rw [star_mul', star_star, star_pow, star_omega]
  have h2 := l2_mono_pt (N := N) (s := 1 / N) (by positivity) h1
  rw [l2_dft hN] at h2
  have h3 : l2 N (fun k => star (f k)) ≤ √2 * l2 (N/2+1) e := by
    apply l2_le_of_sq (mul_nonneg (Real.sqrt_nonneg _) (l2_nonneg _ _))
    rw [mul_pow, Real.sq_sqrt (by norm_num), l2_sq]
    simp only [norm_star]
    have hle : N / 2 + 1 ≤ N ∨ N = 1 := by omega
    have hsplit : ∑ k ∈ range N, ‖f k‖ ^ 2 ≤ ∑ k ∈ range (N/2+1 + (N - (N/2+1))), ‖f k‖^2 :=
      sum_le_sum_of_subset_of_nonneg (range_mono (by omega)) fun _ _ _ => sq_nonneg _
    refine hsplit.trans ?_
    rw [sum_range_add, two_mul]
    apply add_le_add
    · refine le_of_eq (sum_congr rfl fun k hk => ?_)
      rw [mem_range] at hk
      simp only [hf]; rw [if_pos (by omega)]
    · have e2 : ∀ k ∈ range (N - (N/2+1)), ‖f (N/2+1+k)‖^2 = ‖e (N - (N/2+1+k))‖^2 := by
        intro k _
        simp only [hf]; rw [if_neg (by omega), norm_star]
      rw [sum_congr rfl e2]
      have e3 : ∀ k ∈ range (N - (N/2+1)), ‖e (N - (N/2+1+k))‖^2 = ‖e (1 + (N - (N/2+1) - 1 - k))‖^2 := by
        intro k hk
        rw [mem_range] at hk
        congr 3; omega
      rw [sum_congr rfl e3, sum_range_reflect (fun k => ‖e (1 + k)‖^2) (N - (N/2+1))]
      have e4 : ∑ k ∈ range (1 + (N - (N/2+1))), ‖e k‖^2 ≤ ∑ k ∈ range (N/2+1), ‖e k‖^2 :=
        sum_le_sum_of_subset_of_nonneg (range_mono (by omega)) fun _ _ _ => sq_nonneg _
      rw [sum_range_add] at e4
      have : 0 ≤ ∑ x ∈ range 1, ‖e x‖^2 := sum_nonneg fun _ _ => sq_nonneg _
      linarith
  have hNr : (0:ℝ) < N := by exact_mod_cast hN
  have e5 : (1 / (N:ℝ)) * (√N * (√2 * l2 (N/2+1) e)) = √(2 / N) * l2 (N/2+1) e := by
    rw [Real.sqrt_div (by norm_num)]
    have h5 : √(N:ℝ) ≠ 0 := (Real.sqrt_pos.mpr hNr).ne'
    have h6 : √(N:ℝ) * √N = N := Real.mul_self_sqrt hNr.le
    rw [show (1 / (N:ℝ)) * (√N * (√2 * l2 (N/2+1) e)) = (√N / N) * √2 * l2 (N/2+1) e by ring]
    congr 1
    rw [eq_div_iff h5, show √N / N * √2 * √N = (√N * √N) / N * √2 by ring, h6, div_self hNr.ne', one_mul]
  have e6 : ((N : ℕ) : ℝ) = 2^o := by rw [hNd]; push_cast; rfl
  rw [← e6, ← e5]
  exact h2.trans (mul_le_mul_of_nonneg_left (mul_le_mul_of_nonneg_left h3 (Real.sqrt_nonneg _)) (by positivity))

theorem abs_realInv {o : ℕ} (e : ℕ → ℂ) (n : ℕ) : |realInv (2^o) e n| ≤ 2 / 2^o * l1 (2^o/2+1) e := by
  have hN : 0 < 2^o := by positivity
  have h1 : |realInv (2^o) e n| ≤ 1 / 2^o * ∑ k ∈ range (2^o), ‖if k ≤ 2^o / 2 then e k else star (e (2^o - k))‖ := by
    unfold realInv
    refine (Complex.abs_re_le_norm _).trans ?_
    rw [norm_mul]
    have e1 : ‖(1 / ((2^o : ℕ) : ℂ))‖ = 1 / (2:ℝ)^o := by simp
    rw [e1]
    refine mul_le_mul_of_nonneg_left ((norm_sum_le _ _).trans (le_of_eq (sum_congr rfl fun k _ => ?_))) (by positivity)
    rw [norm_mul, norm_pow, norm_inv, norm_omega]; simp
  have h2 : ∑ k ∈ range (2^o), ‖if k ≤ 2^o / 2 then e k else star (e (2^o - k))‖ ≤ 2 * l1 (2^o/2+1) e := by
    generalize 2^o = N at hN ⊢
    set f : ℕ → ℂ := fun k => if k ≤ N / 2 then e k else star (e (N - k)) with hf
    have hsplit : ∑ k ∈ range N, ‖f k‖ ≤ ∑ k ∈ range (N/2+1 + (N - (N/2+1))), ‖f k‖ :=
      sum_le_sum_of_subset_of_nonneg (range_mono (by omega)) fun _ _ _ => norm_nonneg _
    refine hsplit.trans ?_
    unfold l1
    rw [sum_range_add, two_mul]
    apply add_le_add
    · refine le_of_eq (sum_congr rfl fun k hk => ?_)
      rw [mem_range] at hk
      simp only [hf]; rw [if_pos (by omega)]
    · have e2 : ∀ k ∈ range (N - (N/2+1)), ‖f (N/2+1+k)‖ = ‖e (N - (N/2+1+k))‖ := by
        intro k _
        simp only [hf]; rw [if_neg (by omega), norm_star]
      rw [sum_congr rfl e2]
      have e3 : ∀ k ∈ range (N - (N/2+1)), ‖e (N - (N/2+1+k))‖ = ‖e (1 + (N - (N/2+1) - 1 - k))‖ := by
        intro k hk
        rw [mem_range] at hk
        congr 2; omega
      rw [sum_congr rfl e3, sum_range_reflect (fun k => ‖e (1 + k)‖) (N - (N/2+1))]
      have e4 : ∑ k ∈ range (1 + (N - (N/2+1))), ‖e k‖ ≤ ∑ k ∈ range (N/2+1), ‖e k‖ :=
        sum_le_sum_of_subset_of_nonneg (range_mono (by omega)) fun _ _ _ => norm_nonneg _
      rw [sum_range_add] at e4
      have : 0 ≤ ∑ x ∈ range 1, ‖e x‖ := sum_nonneg fun _ _ => norm_nonneg _
      linarith
  calc _ ≤ _ := h1
    _ ≤ 1 / 2^o * (2 * l1 (2^o/2+1) e) := mul_le_mul_of_nonneg_left h2 (by positivity)
    _ = _ := by ring

/-- exact transforms with the natural inverse -/
noncomputable def naturalFFT : RealFFT where
  fwd o d i := if i % 2 = 0 then (dft (2^o) (fun j => (d j : ℂ)) (i/2)).re else (dft (2^o) (fun j => (d j : ℂ)) (i/2)).im
  inv o d n := realInv (2^o) (bin d) n

theorem naturalFFT_approx : Approx naturalFFT 0 where
  nonneg := le_rfl
  fwd o _ d := by
    rw [zero_mul, l2_congr (b := fun _ => 0), l2_zero]
    intro k _
    simp only [naturalFFT, bin]
    rw [if_pos (by omega), if_neg (by omega), show 2 * k / 2 = k by omega, show (2*k+1)/2 = k by omega]
    simp
  inv o _ d n _ := by simp [naturalFFT]

/-- exact transforms are the transforms of error zero -/
theorem lawful_of_approx_zero {F : RealFFT} (h : Approx F 0) : Lawful F where
  fwd o ho d k hk := by
    have h1 := h.fwd o ho d
    rw [zero_mul] at h1
    have h2 := (le_l2 (fun k => bin (F.fwd o d) k - dft (2 ^ o) (fun j => (d j : ℂ)) k) (show k < 2^o/2+1 by omega)).trans h1
    exact sub_eq_zero.mp (norm_le_zero_iff.mp h2)
  inv o ho d y hy n hn := by
    have h1 := h.inv o ho d n hn
    rw [zero_mul] at h1
    have h3 := sub_eq_zero.mp (abs_nonpos_iff.mp h1)
    rwa [realInv_dft ho y (e := bin d) hy hn] at h3

end Zones.Proofs.R
