import Verif.Proofs.RError
import Verif.Proofs.Multi

/-! # `TimeDistributedUPC` and `TimeDistributedUPCMulti` in rounded arithmetic: error of the output -/

open Finset Zones.Spec Zones.Model

namespace Zones.Proofs.R

/-! ## Scalars -/

/-- `r'` is within `(κ - 1) M` of `r`, and `r` is at most `M` -/
structure Near (κ M r' r : ℝ) : Prop where
  one : 1 ≤ κ
  err : |r' - r| ≤ (κ - 1) * M
  bnd : |r| ≤ M

namespace Near
variable {κ κ' M M' r r' q q' : ℝ}

theorem nonneg (h : Near κ M r' r) : 0 ≤ M := (abs_nonneg _).trans h.bnd

theorem zero : Near 1 0 0 0 := ⟨le_rfl, by simp, by simp⟩

theorem mono (h : Near κ M r' r) (hκ : κ ≤ κ') (hM : M ≤ M') : Near κ' M' r' r :=
  ⟨h.one.trans hκ, h.err.trans (mul_le_mul (by linarith) hM h.nonneg (by linarith [h.one])), h.bnd.trans hM⟩

theorem bnd' (h : Near κ M r' r) : |r'| ≤ κ * M := by
  have h1 : |r'| ≤ |r' - r| + |r| := by have := abs_add_le (r' - r) r; simpa using this
  have h2 := h.err
  have h3 := h.bnd
  linarith

theorem errBound (h : Near κ M r' r) (hM : M ≤ M') {e : ℝ} (he : κ - 1 ≤ e) : |r' - r| ≤ e * M' :=
  h.err.trans (mul_le_mul he hM h.nonneg ((sub_nonneg.mpr h.one).trans he))

end Near

theorem CNear.re {κ M : ℝ} {z' z : ℂ} (hκ : 1 ≤ κ) (h : CNear κ M z' z) : Near κ M z'.re z.re :=
  ⟨hκ, by rw [← Complex.sub_re]; exact (Complex.abs_re_le_norm _).trans h.err, (Complex.abs_re_le_norm _).trans h.bnd⟩

/-- the samples of `x` from `W` before sample `n` to `A` after it are at most `X` -/
structure Recent (f : Fp) (x : ℕ → ℝ) (A W n : ℕ) (X : ℝ) : Prop where
  lev : f.lev X
  bnd : ∀ j < n + A, n < j + W → |x j| ≤ X

theorem Recent.mono {f : Fp} {x : ℕ → ℝ} {A A' W W' n n' : ℕ} {X : ℝ} (h : Recent f x A W n X) (hA : n' + A' ≤ n + A) (hW : n + W' ≤ n' + W) :
    Recent f x A' W' n' X := ⟨h.lev, fun j hj hj' => h.bnd j (by omega) (by omega)⟩

/-! ## Sizes -/

theorem l2_pad {P N : ℕ} (hPN : P ≤ N) (f : ℕ → ℂ) : l2 N (fun j => if j < P then f j else 0) = l2 P f := by
  unfold l2
  congr 1
  rw [← sum_subset (range_mono hPN)]
  · refine sum_congr rfl fun j hj => ?_
    simp only [mem_range.mp hj, if_true]
  · intro j _ hj
    rw [mem_range] at hj
    simp [hj]

theorem l2_le_sup {P : ℕ} {f : ℕ → ℂ} {X : ℝ} (hX0 : 0 ≤ X) (h : ∀ j < P, ‖f j‖ ≤ X) : l2 P f ≤ √P * X := by
  apply l2_le_of_sq (mul_nonneg (Real.sqrt_nonneg _) hX0)
  rw [mul_pow, Real.sq_sqrt (Nat.cast_nonneg _)]
  calc ∑ j ∈ range P, ‖f j‖ ^ 2 ≤ ∑ _j ∈ range P, X ^ 2 :=
        sum_le_sum fun j hj => pow_le_pow_left₀ (norm_nonneg _) (h j (mem_range.mp hj)) 2
    _ = P * X ^ 2 := by simp

/-- Euclidean norm of partition `i` -/
noncomputable def pnorm (P : ℕ) (h : ℕ → ℝ) (i : ℕ) : ℝ := l2 P (fun j => ((h (i * P + j) : ℝ) : ℂ))

/-- the same, but counting every sample as at least `θ` -/
noncomputable def pnF (θ : ℝ) (P : ℕ) (h : ℕ → ℝ) (i : ℕ) : ℝ := max (√P * θ) (pnorm P h i)

theorem pnorm_nonneg (P : ℕ) (h : ℕ → ℝ) (i : ℕ) : 0 ≤ pnorm P h i := l2_nonneg _ _

theorem pnF_nonneg (θ : ℝ) (P : ℕ) (h : ℕ → ℝ) (i : ℕ) : 0 ≤ pnF θ P h i := (pnorm_nonneg P h i).trans (le_max_right _ _)

/-- error factor of a time distributed convolver with `K` partitions and transforms of `2^n` points -/
noncomputable def tdK (u τ : ℝ) (n K : ℕ) : ℝ := lvl u τ ^ (3 * n) * (1 + u) ^ (K + 2)

/-- size of the numbers in a convolver with `K` partitions of `P` samples and transforms of `N` points -/
noncomputable def msize (θ : ℝ) (N P K : ℕ) (h : ℕ → ℝ) (X : ℝ) : ℝ := 2 * √N * X * ∑ i ∈ range K, pnF θ P h i

/-- the numbers in a time distributed convolver fit -/
structure TFits (f : Fp) (n P K : ℕ) (h : ℕ → ℝ) : Prop where
  hx : ∀ X, f.lev X → f.fits (lvl f.u f.τ ^ n * (√2 ^ n * (√P * X)))
  hh : ∀ i < K, f.fits (lvl f.u f.τ ^ n * (√2 ^ n * pnF f.θ P h i))
  ho : ∀ X, f.lev X → f.fits (4 * (tdK f.u f.τ n K * (2 ^ n * (√P * X * ∑ i ∈ range K, pnF f.θ P h i))))

/-- sums of sizes are at least `P θ²` -/
theorem floor_sum {f : Fp} (hg : f.Good) {P K : ℕ} (hK : 0 < K) (h : ℕ → ℝ) {X : ℝ} (hX : f.θ ≤ X) :
    P * f.φ ≤ √P * X * ∑ i ∈ range K, pnF f.θ P h i := by
  have hθ := hg.θ_nonneg
  have h1 : √P * f.θ ≤ ∑ i ∈ range K, pnF f.θ P h i :=
    (le_max_left _ (pnorm P h 0)).trans
      (single_le_sum (f := pnF f.θ P h) (fun i _ => pnF_nonneg _ _ _ _) (mem_range.mpr hK))
  have h2 : √P * f.θ * (√P * f.θ) ≤ √P * X * ∑ i ∈ range K, pnF f.θ P h i :=
    mul_le_mul (mul_le_mul_of_nonneg_left hX (Real.sqrt_nonneg _)) h1 (by positivity) (mul_nonneg (Real.sqrt_nonneg _) (hθ.trans hX))
  have h3 : √P * f.θ * (√P * f.θ) = P * (f.θ * f.θ) := by
    rw [show √(P:ℝ) * f.θ * (√P * f.θ) = √P * √P * (f.θ * f.θ) by ring, Real.mul_self_sqrt (Nat.cast_nonneg _)]
  have h4 : (P:ℝ) * f.φ ≤ P * (f.θ * f.θ) := mul_le_mul_of_nonneg_left hg.φθ2 (Nat.cast_nonneg _)
  linarith

/-- windows of `N ≤ 4 P` samples with `P` samples of size `θ` -/
theorem floor_win {f : Fp} (hg : f.Good) {N P : ℕ} (hN : N ≤ 4 * P) {X : ℝ} (hX : f.θ ≤ X) : √N * f.φ ≤ √P * X := by
  have h1 : √(N:ℝ) ≤ 2 * √P := by
    rw [show (2:ℝ) = √4 by rw [show (4:ℝ) = 2^2 by norm_num, Real.sqrt_sq (by norm_num)], ← Real.sqrt_mul (by norm_num)]
    exact Real.sqrt_le_sqrt (by exact_mod_cast hN)
  have h2 := mul_le_mul_of_nonneg_right h1 hg.φ_nonneg
  have h3 : √(P:ℝ) * (2 * f.φ) ≤ √P * X := mul_le_mul_of_nonneg_left (hg.φθ.trans hX) (Real.sqrt_nonneg _)
  linarith

theorem floor_pn {f : Fp} (hg : f.Good) {N P : ℕ} (hN : N ≤ 4 * P) (h : ℕ → ℝ) (i : ℕ) : √N * f.φ ≤ pnF f.θ P h i :=
  (floor_win hg hN le_rfl).trans (le_max_left _ _)

theorem sqrt_two_pow (n : ℕ) : √2 ^ n = √((2:ℝ) ^ n) := by
  rw [Real.sqrt_eq_rpow, Real.sqrt_eq_rpow, ← Real.rpow_natCast, ← Real.rpow_natCast, ← Real.rpow_mul (by norm_num),
    ← Real.rpow_mul (by norm_num), mul_comm]

variable [Arith] {f : Fp}

theorem Near.addF (hA : f.Acc) {κ M M' r r' q q' : ℝ} (hfl : f.φ ≤ M + M') (hf : f.fits (κ * (1 + f.u) * (M + M')))
    (h1 : Near κ M r' r) (h2 : Near κ M' q' q) :
    Near (κ * (1 + f.u)) (M + M') (Arith.addF r' q') (r + q) := by
  have hu := hA.u_nonneg
  have hv := hA.v_nonneg
  have k1 := h1.one
  have m1 := h1.nonneg
  have m2 := h2.nonneg
  refine ⟨by nlinarith, ?_, (abs_add_le r q).trans (add_le_add h1.bnd h2.bnd)⟩
  have e2 : |r' + q'| ≤ κ * M + κ * M' := (abs_add_le _ _).trans (add_le_add h1.bnd' h2.bnd')
  have hS : κ * (M + M') ≤ κ * (1 + f.u) * (M + M') := by
    have : 0 ≤ f.u * (κ * (M + M')) := by positivity
    nlinarith
  have e1 := hA.addF r' q'
    (hA.fits_mono _ _ ((h1.bnd'.trans (mul_le_mul_of_nonneg_left (by linarith) (by linarith))).trans hS) hf)
    (hA.fits_mono _ _ ((h2.bnd'.trans (mul_le_mul_of_nonneg_left (by linarith) (by linarith))).trans hS) hf)
    (hA.fits_mono _ _ ((e2.trans (by linarith)).trans hS) hf)
  have e3 : |(r' + q') - (r + q)| ≤ (κ - 1) * M + (κ - 1) * M' := by
    rw [show (r' + q') - (r + q) = (r' - r) + (q' - q) by ring]
    exact (abs_add_le _ _).trans (add_le_add h1.err h2.err)
  have e4 : |Arith.addF r' q' - (r + q)| ≤ |Arith.addF r' q' - (r' + q')| + |(r' + q') - (r + q)| := by
    have := abs_add_le (Arith.addF r' q' - (r' + q')) ((r' + q') - (r + q))
    simpa using this
  have e5 : f.v * |r' + q'| ≤ f.v * (κ * (M + M')) := mul_le_mul_of_nonneg_left (by linarith) hv
  have e6 := hA.absorb (F := 1) (S := κ * (M + M')) (by norm_num) (by nlinarith)
  have : (κ * (1 + f.u) - 1) * (M + M') = f.u * (κ * (M + M')) + ((κ - 1) * M + (κ - 1) * M') := by ring
  linarith

/-! ## One channel -/

theorem zw_near (hA : f.Acc) {c : Par} {h x : ℕ → ℝ} (hH : c.H = hw c.P h) (hL : c.n ≤ f.L) (hK : 0 < c.K)
    (hr : TFits f c.n c.P c.K h) {X : ℝ} (hX0 : f.lev X)
    {W : ℕ} (hX : ∀ i < c.K, ∀ j < c.P, |x ((W - i) * c.P + j)| ≤ X) {j : ℕ} (hj : j < 2 * c.P) :
    Near (lvl f.u f.τ ^ (3 * c.n) * (1 + f.u) ^ (c.K + 1)) (√c.P * X * ∑ i ∈ range c.K, pnF f.θ c.P h i)
      (R.zw c x W j).re (Proofs.zw c x W j).re := by
  have hN : 2^c.n = 2 * c.P := by simp only [Par.P, Par.n]; rw [pow_succ]; ring
  have hP1 : 1 ≤ c.P := by unfold Par.P; exact Nat.one_le_two_pow
  have hXθ := hA.lev_ge X hX0
  have hθ := hA.θ_nonneg
  have hXn := hA.lev_nonneg hX0
  have hx : ∀ i < c.K, VNear (2^c.n) 1 (√c.P * X) (xw c.P x (W - i)) (xw c.P x (W - i)) := by
    intro i hi
    refine VNear.refl ?_
    have : xw c.P x (W - i) = fun j => if j < c.P then ((x ((W - i) * c.P + j) : ℝ) : ℂ) else 0 := by
      funext j; rfl
    rw [this, l2_pad (by omega)]
    exact l2_le_sup hXn fun j hj => by rw [Complex.norm_real]; exact hX i hi j hj
  have hh : ∀ i, VNear (2^c.n) 1 (pnF f.θ c.P h i) (c.H i) (c.H i) := by
    intro i
    refine VNear.refl ?_
    have : c.H i = fun j => if j < c.P then ((h (i * c.P + j) : ℝ) : ℂ) else 0 := by rw [hH]; funext j; rfl
    rw [this, l2_pad (by omega)]; exact le_max_right _ _
  have hu := hA.u_nonneg
  have hlv : 1 ≤ lvl f.u f.τ := one_le_lvl' hu hA.τ_nonneg
  have hlp : 1 ≤ 1 * lvl f.u f.τ ^ c.n := by rw [one_mul]; exact one_le_pow₀ hlv
  have e2 : √2 ^ c.n * √2 ^ c.n = 2 ^ c.n := by
    rw [← mul_pow, Real.mul_self_sqrt (by norm_num)]
  have hsum : ∑ i ∈ range c.K, (√2 ^ c.n * (√c.P * X)) * (√2 ^ c.n * pnF f.θ c.P h i) =
      2 ^ c.n * (√c.P * X * ∑ i ∈ range c.K, pnF f.θ c.P h i) := by
    rw [← mul_sum, ← mul_sum, ← e2]; ring
  have hS0 : 0 ≤ ∑ i ∈ range c.K, pnF f.θ c.P h i := sum_nonneg fun i _ => pnF_nonneg _ _ _ _
  have hT0 : 0 ≤ 2 ^ c.n * (√c.P * X * ∑ i ∈ range c.K, pnF f.θ c.P h i) := by positivity
  have hP1' : (1:ℝ) ≤ c.P := by exact_mod_cast hP1
  have hfs := floor_sum hA.toGood (P := c.P) hK h hXθ
  have hφ := hA.φ_nonneg
  have hfs1 : f.φ ≤ √c.P * X * ∑ i ∈ range c.K, pnF f.θ c.P h i := by nlinarith
  have hpw : (1:ℝ) ≤ (1 + f.u) ^ (c.K + 1) := one_le_pow₀ (by linarith)
  have hpw2 : (1 + f.u) ^ (c.K + 1) ≤ (1 + f.u) ^ (c.K + 2) := pow_le_pow_right₀ (by linarith) (by omega)
  have hln : 1 ≤ lvl f.u f.τ ^ c.n := one_le_pow₀ hlv
  have m := VNear.macs hA (N := 2^c.n) (κ := 1 * lvl f.u f.τ ^ c.n) (κ' := 1 * lvl f.u f.τ ^ c.n) hlp hlp c.K
    (X' := fun i => R.down c.n (xw c.P x (W - i))) (X := fun i => Proofs.down c.n (xw c.P x (W - i)))
    (H' := fun i => R.down c.n (c.H i)) (H := fun i => Proofs.down c.n (c.H i))
    (M := fun _ => √2 ^ c.n * (√c.P * X)) (M' := fun i => √2 ^ c.n * pnF f.θ c.P h i)
    (fun i hi => by
      have h1 := floor_sum hA.toGood (P := c.P) (K := 1) (by norm_num) (fun k => h (i * c.P + k)) hXθ
      rw [sum_range_one] at h1
      have h2 : pnF f.θ c.P (fun k => h (i * c.P + k)) 0 = pnF f.θ c.P h i := by
        unfold pnF pnorm; simp only [Nat.zero_mul, Nat.zero_add]
      rw [h2] at h1
      have h3 : √2 ^ c.n * (√c.P * X) * (√2 ^ c.n * pnF f.θ c.P h i) = 2 ^ c.n * (√c.P * X * pnF f.θ c.P h i) := by
        rw [← e2]; ring
      rw [h3, Nat.cast_pow, Nat.cast_ofNat]
      refine mul_le_mul_of_nonneg_left ?_ (by positivity)
      have h5 : (1:ℝ) ≤ c.P := by exact_mod_cast Nat.one_le_iff_ne_zero.mpr (by unfold Par.P; positivity)
      have h6 : 1 * f.φ ≤ c.P * f.φ := mul_le_mul_of_nonneg_right h5 hA.toGood.φ_nonneg
      linarith)
    (fun i hi => by rw [one_mul]; exact hr.hx X hX0) (fun i hi => by rw [one_mul]; exact hr.hh i hi)
    (hA.fits_mono _ _ (by
      rw [hsum]
      have h1 : 1 * lvl f.u f.τ ^ c.n * (1 * lvl f.u f.τ ^ c.n) * (1 + f.u) * (1 + f.u) ^ c.K ≤ tdK f.u f.τ c.n c.K := by
        unfold tdK
        have h3 : lvl f.u f.τ ^ (2 * c.n) ≤ lvl f.u f.τ ^ (3 * c.n) := pow_le_pow_right₀ hlv (by omega)
        calc 1 * lvl f.u f.τ ^ c.n * (1 * lvl f.u f.τ ^ c.n) * (1 + f.u) * (1 + f.u) ^ c.K =
              lvl f.u f.τ ^ (2 * c.n) * (1 + f.u) ^ (c.K + 1) := by ring
          _ ≤ _ := mul_le_mul h3 hpw2 (by positivity) (by positivity)
      have h2 := mul_le_mul_of_nonneg_right h1 hT0
      have h4 : 0 ≤ tdK f.u f.τ c.n c.K * (2 ^ c.n * (√c.P * X * ∑ i ∈ range c.K, pnF f.θ c.P h i)) :=
        mul_nonneg (by unfold tdK; positivity) hT0
      linarith) (hr.ho X hX0))
    (fun i hi => (hx i hi).down hA le_rfl hL (by
      rw [hN]
      exact floor_win hA.toGood (by omega) hXθ) (by rw [one_mul]; exact hr.hx X hX0))
    (fun i hi => (hh i).down hA le_rfl hL (by
      rw [hN]
      exact floor_pn hA.toGood (by omega) h i) (by rw [one_mul]; exact hr.hh i hi))
  have m2 := m.up hA hL (by
    rw [hsum]
    exact mul_le_mul_of_nonneg_left hfs1 (by positivity)) (hA.fits_mono _ _ (by
      rw [hsum]
      have h1 : 1 * lvl f.u f.τ ^ c.n * (1 * lvl f.u f.τ ^ c.n) * (1 + f.u) * (1 + f.u) ^ c.K * lvl f.u f.τ ^ c.n ≤ tdK f.u f.τ c.n c.K := by
        unfold tdK
        calc 1 * lvl f.u f.τ ^ c.n * (1 * lvl f.u f.τ ^ c.n) * (1 + f.u) * (1 + f.u) ^ c.K * lvl f.u f.τ ^ c.n =
              lvl f.u f.τ ^ (3 * c.n) * (1 + f.u) ^ (c.K + 1) := by ring
          _ ≤ _ := mul_le_mul_of_nonneg_left hpw2 (by positivity)
      have h2 := mul_le_mul_of_nonneg_right h1 hT0
      linarith) (hr.ho X hX0)) (i := j) (by omega)
  have hp : (2:ℝ) ^ c.n ≠ 0 := by positivity
  have hv : Proofs.up c.n (fun k => ∑ i ∈ range c.K, Proofs.down c.n (xw c.P x (W-i)) k * Proofs.down c.n (c.H i) k) j =
      Proofs.zw c x W j := by
    have := Proofs.up_congrOn (m := c.n) (S := InBlk c.n 0) (fun a ha => closed_block ha)
      (d := Proofs.down c.n (Proofs.zw c x W))
      (d' := fun k => ∑ i ∈ range c.K, Proofs.down c.n (xw c.P x (W-i)) k * Proofs.down c.n (c.H i) k)
      (fun k hk => down_zw c x W k (by have := hk.2; omega)) j ⟨by omega, by omega⟩
    rw [Proofs.up_down] at this
    exact this.symm
  rw [hv] at m2
  have m3 := CNear.re (by have := m.one; nlinarith) m2
  refine m3.mono (le_of_eq (by ring)) (le_of_eq ?_)
  rw [hsum]
  field_simp

/-- state after `t` blocks of `x` since the start or the last reset -/
def SInv (c : Par) (x : ℕ → ℝ) (t : ℕ) (s : TDUPC) : Prop :=
  ∃ T0, (c.K + 5) * 2^c.p ≤ T0 ∧ TInv c (shift (T0 * 2^c.b) x) (T0 + t) s

variable {c : Par} {ph t : ℕ} {A B C : ℕ → ℂ} {F : ℕ → ℕ → ℂ} {T : ℕ → ℝ} {s : TDUPC} {x : ℕ → ℝ}

/-- zero times any value of the transforms of the filter's partitions is zero -/
theorem zero_filter (hA : f.Acc) {h : ℕ → ℝ} (hH : c.H = hw c.P h) (hL : c.n ≤ f.L) (hr : TFits f c.n c.P c.K h) :
    ∀ i < c.K, ∀ k, Arith.mul 0 (R.down c.n (c.H i) k) = 0 := by
  intro i hi k
  have hN : 2^c.n = 2 * c.P := by simp only [Par.P, Par.n]; rw [pow_succ]; ring
  have e : c.H i = fun j => if j < c.P then ((h (i * c.P + j) : ℝ) : ℂ) else 0 := by rw [hH]; funext j; rfl
  by_cases hk : k < 2^c.n
  · have hh : VNear (2^c.n) 1 (pnF f.θ c.P h i) (c.H i) (c.H i) := by
      refine VNear.refl ?_
      rw [e, l2_pad (by omega)]; exact le_max_right _ _
    have := hh.down hA le_rfl hL (by rw [hN]; exact floor_pn hA.toGood (by omega) h i) (by rw [one_mul]; exact hr.hh i hi)
    refine hA.mul_zero _ (hA.fits_mono _ _ ((le_l2 _ hk).trans this.bnd') ?_)
    rw [one_mul]
    exact hr.hh i hi
  · have hb : InBlk c.n (k / 2^c.n) k := by
      have h1 := Nat.div_add_mod k (2^c.n)
      have h2 := Nat.mod_lt k (show 0 < 2^c.n by positivity)
      have h3 : 2^c.n * (k / 2^c.n) = k / 2^c.n * 2^c.n := mul_comm _ _
      exact ⟨by omega, by omega⟩
    have h1 : 1 ≤ k / 2^c.n := by rw [Nat.le_div_iff_mul_le (by positivity)]; omega
    haveI := hA.zero
    have := down_congrOn (m := c.n) (S := InBlk c.n (k / 2^c.n)) (fun a ha => closed_InBlk ha) (d := c.H i) (d' := fun _ => 0) (fun j hj => by
      have h2 := hj.1
      have h3 : 1 * 2^c.n ≤ k / 2^c.n * 2^c.n := Nat.mul_le_mul_right _ h1
      rw [e]
      simp only
      rw [if_neg (by omega)]) k hb
    rw [this, down_zero]
    refine hA.mul_zero _ (hA.fits_mono _ _ ?_ hA.fits_tw)
    rw [norm_zero]
    linarith [hA.τ_nonneg]

theorem SInv.of_zero [ZeroBase] (hz : ∀ i < c.K, ∀ k, Arith.mul 0 (R.down c.n (c.H i) k) = 0)
    (h : Rep c ph (fun _ => 0) (fun _ => 0) (fun _ => 0) (fun _ _ => 0) (fun _ => 0) s)
    (hph : ph < 2^c.p) (x : ℕ → ℝ) : SInv c x 0 s := by
  refine ⟨(c.K+5) * 2^c.p + ph, by omega, ?_⟩
  apply TInv.of_zero hz
  · rw [Nat.add_zero, add_comm, Nat.add_mul_mod_self_right, Nat.mod_eq_of_lt hph]; exact h
  · omega
  · intro i hi
    unfold shift; rw [if_pos (by simpa using hi)]

theorem SInv.rep (h : SInv c x t s) : ∃ ph A B C F T, ph < 2^c.p ∧ Rep c ph A B C F T s := by
  obtain ⟨T0, _, h⟩ := h
  obtain ⟨A, B, C, F, T, r⟩ := h.rep
  exact ⟨_, A, B, C, F, T, Nat.mod_lt _ (by positivity), r⟩

theorem SInv.reset [ZeroBase] (hz : ∀ i < c.K, ∀ k, Arith.mul 0 (R.down c.n (c.H i) k) = 0) (h : SInv c x t s) (x' : ℕ → ℝ) :
    SInv c x' 0 s.reset := by
  obtain ⟨ph, A, B, C, F, T, hph, r⟩ := h.rep
  exact SInv.of_zero hz r.reset hph x'

theorem abs_shift_le {x : ℕ → ℝ} {X : ℝ} (hX : ∀ i, |x i| ≤ X) (a i : ℕ) : |shift a x i| ≤ X := by
  unfold shift; split
  · rw [abs_zero]; exact (abs_nonneg _).trans (hX 0)
  · exact hX _

theorem SInv.step (hA : f.Acc) {h : ℕ → ℝ} (hH : c.H = hw c.P h) (hL : c.n ≤ f.L) (hr : TFits f c.n c.P c.K h)
    (hs : SInv c x t s) (inp : ℕ → ℝ) (hin : ∀ i < 2^c.b, inp i = x (t * 2^c.b + i)) :
    ∃ s' out, s.processR (2^c.b) inp = some (s', out) ∧
      (∀ i < 2^c.b, ∀ X, Recent f x 1 ((c.K + 3) * c.P) (t * 2^c.b + i) X →
        Near (tdK f.u f.τ c.n c.K) (msize f.θ c.P c.P c.K h X) (out i) (dconv (c.K * c.P) h x (2 * c.P) (t * 2^c.b + i))) ∧
      SInv c x (t+1) s' := by
  obtain ⟨_, _, _, _, _, _, _, rep⟩ := hs.rep
  have hK := rep.hK
  obtain ⟨T0, hT0, hs⟩ := hs
  have hb : 0 < 2^c.b := by positivity
  have hP : 0 < c.P := by unfold Par.P; positivity
  have hN : 2^c.n = 2 * c.P := by simp only [Par.P, Par.n]; rw [pow_succ]; ring
  have e3 : 2^c.p * 2^c.b = c.P := by rw [← pow_add, add_comm]
  have hbig : (c.K + 5) * c.P ≤ T0 * 2^c.b := by
    calc (c.K + 5) * c.P = (c.K + 5) * 2^c.p * 2^c.b := by rw [mul_assoc, e3]
      _ ≤ _ := Nat.mul_le_mul_right _ hT0
  have e4 : (c.K + 5) * c.P = c.K * c.P + 5 * c.P := by ring
  have e5 : (T0 + t) * 2^c.b = T0 * 2^c.b + t * 2^c.b := by ring
  obtain ⟨s', out, h1, h2, h3⟩ := hs.step inp (by
    intro i hi
    rw [hin i hi]; unfold shift; rw [if_neg (by omega)]; congr 1; omega)
  refine ⟨s', out, h1, ?_, T0, hT0, by rw [← add_assoc]; exact h3⟩
  intro i hi X ⟨hX0, hX⟩
  have hXn := hA.lev_nonneg hX0
  set m := (T0 + t) * 2^c.b + i with hm
  have hdm := Nat.div_add_mod m c.P
  have hml := Nat.mod_lt m hP
  have hW : c.K + 5 ≤ m / c.P := by rw [Nat.le_div_iff_mul_le hP]; omega
  have hXs : ∀ W, m / c.P - 3 ≤ W → W ≤ m / c.P - 2 → ∀ i < c.K, ∀ j < c.P, |shift (T0 * 2^c.b) x ((W - i) * c.P + j)| ≤ X := by
    intro W hW1 hW2 k hk j hj
    unfold shift
    split
    · rw [abs_zero]; exact hXn
    · next hge =>
      have q1 : (W - k) * c.P + c.P ≤ m / c.P * c.P := by
        rw [← Nat.succ_mul]; exact Nat.mul_le_mul_right _ (by omega)
      have q2 : m / c.P * c.P ≤ (W - k) * c.P + (c.K + 2) * c.P := by
        rw [← Nat.add_mul]; exact Nat.mul_le_mul_right _ (by omega)
      have q3 : (c.K + 3) * c.P = (c.K + 2) * c.P + c.P := by ring
      have q4 : m / c.P * c.P = c.P * (m / c.P) := mul_comm _ _
      apply hX
      · omega
      · omega
  have z1 := zw_near hA hH hL hK hr hX0 (hXs (m / c.P - 2) (by omega) (by omega)) (j := m % c.P) (by omega)
  have z2 := zw_near hA hH hL hK hr hX0 (hXs (m / c.P - 3) (by omega) (by omega)) (j := m % c.P + c.P) (by omega)
  have hu := hA.u_nonneg
  have hτ := hA.τ_nonneg
  have hφ := hA.φ_nonneg
  have hfs := floor_sum hA.toGood (P := c.P) hK h (hA.lev_ge X hX0)
  have hP1 : (1:ℝ) ≤ c.P := by exact_mod_cast hP
  have hS0 : 0 ≤ √c.P * X * ∑ i ∈ range c.K, pnF f.θ c.P h i :=
    mul_nonneg (mul_nonneg (Real.sqrt_nonneg _) hXn) (sum_nonneg fun i _ => pnF_nonneg _ _ _ _)
  have z3 := z1.addF hA (by nlinarith) (hA.fits_mono _ _ (by
    have e1 : lvl f.u f.τ ^ (3 * c.n) * (1 + f.u) ^ (c.K + 1) * (1 + f.u) = tdK f.u f.τ c.n c.K := by unfold tdK; ring
    rw [e1]
    have hk0 : 0 ≤ tdK f.u f.τ c.n c.K := by unfold tdK lvl; positivity
    have h1 : (1:ℝ) ≤ 2 ^ c.n := one_le_pow₀ (by norm_num)
    have h2 := mul_nonneg hk0 hS0
    nlinarith) (hr.ho X hX0)) z2
  rw [h2 i hi]
  have hval : (Proofs.zw c (shift (T0 * 2^c.b) x) (m / c.P - 2) (m % c.P)).re +
      (Proofs.zw c (shift (T0 * 2^c.b) x) (m / c.P - 3) (m % c.P + c.P)).re =
      dconv (c.K * c.P) h x (2 * c.P) (t * 2^c.b + i) := by
    rw [← Complex.add_re, show m / c.P - 3 = m / c.P - 2 - 1 by omega, overlap_add hH (by omega) hml, Complex.ofReal_re,
      ← sum_dconv (a := T0 * 2^c.b) (by omega)]
    refine sum_congr rfl fun k _ => ?_
    have : (m / c.P - 2) * c.P = m / c.P * c.P - 2 * c.P := Nat.sub_mul _ _ _
    have h2P : 2 * c.P ≤ m / c.P * c.P := Nat.mul_le_mul_right _ (by omega)
    rw [mul_comm c.P] at hdm
    congr 2; omega
  rw [hval] at z3
  refine z3.mono (le_of_eq ?_) (le_of_eq ?_)
  · unfold tdK; ring
  · unfold msize; push_cast; ring

/-! ## Filters -/

theorem fftChannel_eq {n : ℕ} {b : CBuf} {c : ℕ} (hc : c < b.ch) (hnp : b.np = 2^n) :
    ∃ b', fftChannelR (2^n) b c = some b' ∧ b'.ch = b.ch ∧ b'.np = b.np ∧
      (∀ k < 2^n, b'.get c k = down n (b.get c) k) ∧
      ∀ c' ≠ c, ∀ k < 2^n, b'.get c' k = b.get c' k := by
  unfold fftChannelR
  have h1 : b.pointer c = some (b.get c) := by unfold CBuf.pointer; rw [if_pos hc]
  have h2 := forwardFFT_eq (M := n) (s := 0) (sz := b.np) (by rw [hnp]; omega) (b.get c)
  rw [Nat.zero_mul] at h2
  simp only [h1, h2, Option.bind_eq_bind, Option.bind_some]
  refine ⟨_, rfl, rfl, rfl, ?_, ?_⟩
  · intro k hk
    rw [get_setChannel_same (by rw [hnp]; exact hk), onSet, if_pos ⟨by omega, by omega⟩]
  · intro c' hc' k hk
    rw [get_setChannel_ne (by rw [hnp]; exact hk) hc']

theorem fftChannels_eq {n : ℕ} (m : ℕ) {b : CBuf} (hm : m ≤ b.ch) (hnp : b.np = 2^n) :
    ∃ b', (List.range m).foldlM (fftChannelR (2^n)) b = some b' ∧ b'.ch = b.ch ∧ b'.np = b.np ∧
      ∀ c, ∀ k < 2^n, b'.get c k = if c < m then down n (b.get c) k else b.get c k := by
  induction m with
  | zero => exact ⟨b, rfl, rfl, rfl, fun c k _ => by simp⟩
  | succ m ih =>
    obtain ⟨b1, e1, c1, n1, g1⟩ := ih (by omega)
    obtain ⟨b2, e2, c2, n2, g2, g3⟩ := fftChannel_eq (n := n) (b := b1) (c := m) (by omega) (by rw [n1, hnp])
    refine ⟨b2, ?_, by rw [c2, c1], by rw [n2, n1], ?_⟩
    · rw [List.range_succ, List.foldlM_append, e1]
      simp [e2]
    · intro c k hk
      by_cases hcm : c = m
      · subst hcm
        rw [g2 k hk, if_pos (by omega)]
        refine down_congrOn (S := InBlk n 0) (fun a ha => closed_InBlk ha) (fun j hj => ?_) k ⟨by omega, by omega⟩
        have hj2 := hj.2
        rw [g1 c j (by omega), if_neg (by omega)]
      · rw [g3 c hcm k hk, g1 c k hk]
        by_cases h : c < m
        · rw [if_pos h, if_pos (by omega)]
        · rw [if_neg h, if_neg (by omega)]

theorem multiFilter_eq {n P : ℕ} (hP : 2 * P = 2^n) (seg : Buf) {i : ℕ} (hi : i * P < seg.n) :
    ∃ b, multiFilterR P seg i = some b ∧ b.np = 2^n ∧ b.ch = seg.ch ∧
      ∀ c < seg.ch, ∀ k < 2^n, b.get c k = down n (hw P (zext seg c) i) k := by
  unfold multiFilterR
  have hsub : seg.sub (i * P) (min P (seg.n - i * P)) =
      some ⟨seg.ch, min P (seg.n - i * P), fun c j => seg.data c (i * P + j)⟩ := by
    unfold Buf.sub; rw [if_pos ⟨hi, by omega⟩]
  obtain ⟨fp, e1, n1, c1, g1⟩ := copyFromAudioBlock_eq (b := (CBuf.mk0 (2 * P) seg.ch).clear)
    (s := ⟨seg.ch, min P (seg.n - i * P), fun c j => seg.data c (i * P + j)⟩) rfl
  obtain ⟨b, e2, c2, n2, g2⟩ := fftChannels_eq (n := n) seg.ch (b := fp) (by rw [c1]; rfl) (by rw [n1]; exact hP)
  rw [hP] at e1
  simp only [hsub, Option.bind_eq_bind, Option.bind_some, hP, e1]
  refine ⟨b, e2, by rw [n2, n1]; exact hP, by rw [c2, c1]; rfl, ?_⟩
  intro c hc k hk
  rw [g2 c k hk, if_pos hc]
  refine down_congrOn (S := InBlk n 0) (fun a ha => closed_InBlk ha) (fun j hj => ?_) k ⟨by omega, by omega⟩
  have hj2 : j < 2 * P := by have := hj.2; omega
  rw [g1 c hc j hj2, get_clear (by exact hc) hj2]
  simp only [hw, zext]
  by_cases h1 : j < P
  · rw [if_pos h1]
    by_cases h2 : i * P + j < seg.n
    · rw [if_pos (by omega), if_pos h2]
    · rw [if_neg (by omega), if_neg h2]; simp
  · rw [if_neg h1, if_neg (by omega)]

/-! ## All channels -/

/-- state of the sub convolver of all channels after `t` blocks of `x` -/
structure MInv (b p : ℕ) (seg : Buf) (nch : ℕ) (x : ℕ → ℕ → ℝ) (t : ℕ) (m : Multi) : Prop where
  num : m.num = nch
  ch : ∀ c < nch, ∃ nd off, SInv (chPar b p seg c nd off) (x c) t (m.td c)

theorem MInv.create (hA : f.Acc) {b p nch : ℕ} (hp : 1 ≤ p) {seg : Buf} (hseg : 0 < seg.n) (hch : 0 < nch → 0 < seg.ch)
    (hn : seg.n ≤ 2^24) (hP : 2^(b+p) ≤ 2^24) (tail0 : ℕ → ℕ → ℕ → ℝ) :
    ∃ m, Multi.createR (2^b) nch (2^p) seg tail0 = some m ∧ (b + p + 1 ≤ f.L →
      (∀ c < nch, TFits f (b+p+1) (2^(b+p)) (segK (2^(b+p)) seg) (zext seg (c % seg.ch))) → ∀ x, MInv b p seg nch x 0 m) := by
  haveI := hA.zero
  have hP0 : 0 < 2^(b+p) := by positivity
  have e1 : 2^p * 2^b = 2^(b+p) := by rw [← pow_add, add_comm]
  unfold Multi.createR
  simp only [e1]
  rw [if_neg (by omega), numPartitionsFor_eq hP0 hn hP]
  have hK : 0 < segK (2^(b+p)) seg := Nat.div_pos (by omega) hP0
  obtain ⟨v, ev, hv⟩ := buildVec_eq (CBuf.mk0 0 0) (f := multiFilterR (2^(b+p)) seg) (n := segK (2^(b+p)) seg)
    (Q := fun i b' => b'.np = 2^(b+p+1) ∧ b'.ch = seg.ch ∧
      ∀ c < seg.ch, ∀ k < 2^(b+p+1), b'.get c k = down (b+p+1) (hw (2^(b+p)) (zext seg c) i) k)
    (fun i hi => multiFilter_eq (by rw [pow_succ]; ring) seg (by
      rw [Nat.lt_div_iff_mul_lt hP0] at hi; omega))
  have h2 : 2^p / 2 ≠ 0 := by
    obtain ⟨q, rfl⟩ : ∃ q, p = q+1 := ⟨p-1, by omega⟩
    rw [pow_succ, Nat.mul_div_cancel _ (by norm_num)]; positivity
  simp only [ev, Option.bind_eq_bind, Option.bind_some]
  rw [if_neg (by omega)]
  refine ⟨_, rfl, fun hL hr x => ⟨channelPlans_length _ _ _, fun c hc => ?_⟩⟩
  obtain ⟨f1, f2, f3⟩ := channelPlans_get hp seg.ch nch c hc ⟨0, 0, 0⟩
  show ∃ nd off, SInv (chPar b p seg c nd off) (x c) 0 (TDUPC.create (2^b) (2^p) (segK (2^(b+p)) seg) v
    ((channelPlans (2^p) seg.ch nch).getD c ⟨0,0,0⟩).filterChannel
    ((channelPlans (2^p) seg.ch nch).getD c ⟨0,0,0⟩).transformOffset
    ((channelPlans (2^p) seg.ch nch).getD c ⟨0,0,0⟩).nd (tail0 c))
  generalize (channelPlans (2^p) seg.ch nch).getD c ⟨0,0,0⟩ = pl at f1 f2 f3 ⊢
  refine ⟨pl.nd, pl.transformOffset, SInv.of_zero (ph := 0)
    (zero_filter hA (c := chPar b p seg c pl.nd pl.transformOffset) (h := zext seg (c % seg.ch)) rfl hL (hr c hc)) ?_ (by positivity) _⟩
  refine Rep.create (chPar b p seg c pl.nd pl.transformOffset) f2 f3 hK v pl.filterChannel (tail0 c) ?_
  intro i hi
  obtain ⟨g1, g2, g3⟩ := hv i hi
  have hlt : pl.filterChannel < seg.ch := by rw [f1]; exact Nat.mod_lt _ (hch (by omega))
  exact ⟨g1, by omega, fun k hk => by rw [g3 _ hlt k hk, f1]⟩

theorem MInv.reset (hA : f.Acc) {b p nch : ℕ} (hL : b + p + 1 ≤ f.L) {seg : Buf} {x : ℕ → ℕ → ℝ} {m : Multi}
    (hr : ∀ c < nch, TFits f (b+p+1) (2^(b+p)) (segK (2^(b+p)) seg) (zext seg (c % seg.ch))) (h : MInv b p seg nch x t m)
    (x' : ℕ → ℕ → ℝ) : MInv b p seg nch x' 0 m.reset := by
  haveI := hA.zero
  refine ⟨h.num, fun c hc => ?_⟩
  obtain ⟨nd, off, hs⟩ := h.ch c hc
  refine ⟨nd, off, ?_⟩
  have : m.reset.td c = (m.td c).reset := by
    unfold Multi.reset; simp only; rw [if_pos (by rw [h.num]; exact hc)]
  rw [this]
  exact hs.reset (zero_filter hA (c := chPar b p seg c nd off) (h := zext seg (c % seg.ch)) rfl hL (hr c hc)) _

/-- sizes of the numbers in the sub convolver of `seg`, channel `c` -/
noncomputable def segM (θ : ℝ) (b p : ℕ) (seg : Buf) (c : ℕ) (X : ℝ) : ℝ :=
  msize θ (2^(b+p)) (2^(b+p)) (segK (2^(b+p)) seg) (zext seg (c % seg.ch)) X

theorem MInv.step (hA : f.Acc) {b p nch : ℕ} (hL : b + p + 1 ≤ f.L) {seg : Buf} {x : ℕ → ℕ → ℝ} {m : Multi}
    (hr : ∀ c < nch, TFits f (b+p+1) (2^(b+p)) (segK (2^(b+p)) seg) (zext seg (c % seg.ch)))
    (h : MInv b p seg nch x t m)
    {blk : Buf} (hch : blk.ch = nch) (hn : blk.n = 2^b)
    (hin : ∀ c < nch, ∀ i < 2^b, blk.data c i = x c (t * 2^b + i)) :
    ∃ m' blk', m.processR blk = some (m', blk') ∧ blk'.ch = nch ∧ blk'.n = 2^b ∧
      (∀ c < nch, ∀ i < 2^b, ∀ X, Recent f (x c) 1 ((segK (2^(b+p)) seg + 3) * 2^(b+p)) (t * 2^b + i) X →
        Near (tdK f.u f.τ (b+p+1) (segK (2^(b+p)) seg)) (segM f.θ b p seg c X) (blk'.data c i)
        (dconv seg.n (seg.data (c % seg.ch)) (x c) (2 * 2^(b+p)) (t * 2^b + i))) ∧
      MInv b p seg nch x (t+1) m' := by
  have hP0 : 0 < 2^(b+p) := by positivity
  have main : ∀ k ≤ nch, ∃ m' blk', (List.range k).foldlM Multi.processChannelR (m, blk) = some (m', blk') ∧
      m'.num = nch ∧ blk'.ch = nch ∧ blk'.n = 2^b ∧
      (∀ c < nch, ∀ i < 2^b, if c < k then
        ∀ X, Recent f (x c) 1 ((segK (2^(b+p)) seg + 3) * 2^(b+p)) (t * 2^b + i) X → Near (tdK f.u f.τ (b+p+1) (segK (2^(b+p)) seg)) (segM f.θ b p seg c X) (blk'.data c i)
          (dconv seg.n (seg.data (c % seg.ch)) (x c) (2 * 2^(b+p)) (t * 2^b + i))
        else blk'.data c i = blk.data c i) ∧
      (∀ c < nch, c < k → ∃ nd off, SInv (chPar b p seg c nd off) (x c) (t+1) (m'.td c)) ∧
      (∀ c < nch, ¬ c < k → m'.td c = m.td c) := by
    intro k hk
    induction k with
    | zero => exact ⟨m, blk, rfl, h.num, hch, hn, fun c _ i _ => by simp, fun c _ hc => by omega, fun c _ _ => rfl⟩
    | succ k ih =>
      obtain ⟨m1, b1, e1, n1, c1, bn1, d1, s1, s2⟩ := ih (by omega)
      obtain ⟨nd, off, hs⟩ := h.ch k (by omega)
      rw [← s2 k (by omega) (by omega)] at hs
      obtain ⟨s', out, f1, f2, f3⟩ := hs.step hA (h := zext seg (k % seg.ch)) rfl (by exact hL) (hr k (by omega)) (b1.data k) (by
        intro i hi
        have := d1 k (by omega) i hi
        rw [if_neg (by omega)] at this
        rw [this, hin k (by omega) i hi])
      refine ⟨{ m1 with td := Function.update m1.td k s' }, b1.putChannel k out, ?_, n1, c1, bn1, ?_, ?_, ?_⟩
      · rw [List.range_succ, List.foldlM_append, e1]
        simp only [Option.bind_eq_bind, Option.bind_some, List.foldlM_cons, List.foldlM_nil]
        unfold Multi.processChannelR Buf.single
        simp only [show k < b1.ch by omega, show k < m1.num by omega, if_true, Option.bind_eq_bind,
          Option.bind_some]
        have f1' : (m1.td k).processR b1.n (fun i => b1.data k i) = some (s', out) := by
          rw [bn1]; exact f1
        rw [f1']; rfl
      · intro c hc i hi
        unfold Buf.putChannel
        simp only
        by_cases hck : c = k
        · subst hck
          rw [if_pos (show c < c + 1 by omega), if_pos ⟨rfl, by omega⟩]
          have key : dconv seg.n (seg.data (c % seg.ch)) (x c) (2 * 2^(b+p)) (t * 2^b + i) =
              dconv (segK (2^(b+p)) seg * 2^(b+p)) (zext seg (c % seg.ch)) (x c) (2 * 2^(b+p)) (t * 2^b + i) := by
            unfold dconv
            split
            · symm
              apply linConv_ext
              · have := Nat.div_add_mod (seg.n + 2^(b+p) - 1) (2^(b+p))
                have := Nat.mod_lt (seg.n + 2^(b+p) - 1) hP0
                show seg.n ≤ (seg.n + 2^(b+p) - 1) / 2^(b+p) * 2^(b+p)
                rw [mul_comm]; omega
              · intro j hj; unfold zext; rw [if_pos hj]
              · intro j hj; unfold zext; rw [if_neg (by omega)]
            · rfl
          rw [key]
          exact f2 i hi
        · rw [if_neg (show ¬ (c = k ∧ _) by tauto)]
          have := d1 c hc i hi
          by_cases hc2 : c < k
          · rw [if_pos hc2] at this; rw [if_pos (by omega)]; exact this
          · rw [if_neg hc2] at this; rw [if_neg (by omega)]; exact this
      · intro c hc hck
        by_cases hck2 : c = k
        · subst hck2; simp only [Function.update_self]; exact ⟨nd, off, f3⟩
        · simp only [Function.update_of_ne hck2]; exact s1 c hc (by omega)
      · intro c hc hck
        simp only [Function.update_of_ne (show c ≠ k by omega)]; exact s2 c hc (by omega)
  obtain ⟨m', blk', e, n1, c1, bn1, d1, s1, _⟩ := main nch le_rfl
  refine ⟨m', blk', by unfold Multi.processR; rw [hch]; exact e, c1, bn1, ?_, n1, fun c hc => s1 c hc hc⟩
  intro c hc i hi
  have := d1 c hc i hi
  rw [if_pos hc] at this
  exact this

end Zones.Proofs.R
