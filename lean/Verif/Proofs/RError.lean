import Verif.Spec.Rounding
import Verif.Proofs.RTDUPC

/-! # Error of the rounded transforms in the Euclidean norm -/

open Finset Zones.Spec Zones.Model

namespace Zones.Proofs.R

/-! ## The norm -/

theorem l2_eq_norm (N : ℕ) (z : ℕ → ℂ) :
    l2 N z = ‖(WithLp.toLp 2 (fun i : Fin N => z i) : EuclideanSpace ℂ (Fin N))‖ := by
  rw [EuclideanSpace.norm_eq, l2, Finset.sum_range]

theorem l2_nonneg (N : ℕ) (z : ℕ → ℂ) : 0 ≤ l2 N z := Real.sqrt_nonneg _

theorem l2_add_le (N : ℕ) (a b : ℕ → ℂ) : l2 N (fun i => a i + b i) ≤ l2 N a + l2 N b := by
  have := norm_add_le (WithLp.toLp 2 (fun i : Fin N => a i) : EuclideanSpace ℂ (Fin N)) (WithLp.toLp 2 fun i => b i)
  rw [l2_eq_norm, l2_eq_norm, l2_eq_norm]
  exact this

theorem l2_sq (N : ℕ) (z : ℕ → ℂ) : l2 N z ^ 2 = ∑ j ∈ range N, ‖z j‖ ^ 2 :=
  Real.sq_sqrt (sum_nonneg fun _ _ => sq_nonneg _)

theorem l2_le_of_sq {N : ℕ} {z : ℕ → ℂ} {r : ℝ} (hr : 0 ≤ r) (h : ∑ j ∈ range N, ‖z j‖ ^ 2 ≤ r ^ 2) : l2 N z ≤ r :=
  Real.sqrt_le_iff.mpr ⟨hr, h⟩

theorem l2_mono_pt {N : ℕ} {a b : ℕ → ℂ} {s : ℝ} (hs : 0 ≤ s) (h : ∀ i < N, ‖a i‖ ≤ s * ‖b i‖) :
    l2 N a ≤ s * l2 N b := by
  apply l2_le_of_sq (mul_nonneg hs (l2_nonneg _ _))
  rw [mul_pow, l2_sq, mul_sum]
  apply sum_le_sum
  intro i hi
  rw [← mul_pow]
  exact pow_le_pow_left₀ (norm_nonneg _) (h i (mem_range.mp hi)) 2

theorem l2_congr {N : ℕ} {a b : ℕ → ℂ} (h : ∀ i < N, a i = b i) : l2 N a = l2 N b := by
  unfold l2; congr 1; exact sum_congr rfl fun i hi => by rw [h i (mem_range.mp hi)]

theorem le_l2 {N : ℕ} (z : ℕ → ℂ) {i : ℕ} (hi : i < N) : ‖z i‖ ≤ l2 N z := by
  apply Real.le_sqrt_of_sq_le
  exact single_le_sum (f := fun j => ‖z j‖ ^ 2) (fun _ _ => sq_nonneg _) (mem_range.mpr hi)

theorem l2_zero (N : ℕ) : l2 N (fun _ => 0) = 0 := by simp [l2]

theorem l2_smul (N : ℕ) (a : ℂ) (z : ℕ → ℂ) : l2 N (fun i => a * z i) = ‖a‖ * l2 N z := by
  unfold l2
  simp only [norm_mul, mul_pow, ← mul_sum]
  rw [Real.sqrt_mul (sq_nonneg _), Real.sqrt_sq (norm_nonneg _)]

theorem l2_mul_le (N : ℕ) (a b : ℕ → ℂ) : l2 N (fun i => a i * b i) ≤ l2 N a * l2 N b := by
  apply l2_le_of_sq (mul_nonneg (l2_nonneg _ _) (l2_nonneg _ _))
  rw [mul_pow, l2_sq, l2_sq, sum_mul]
  apply sum_le_sum
  intro i hi
  rw [norm_mul, mul_pow]
  apply mul_le_mul_of_nonneg_left _ (sq_nonneg _)
  exact single_le_sum (f := fun j => ‖b j‖ ^ 2) (fun _ _ => sq_nonneg _) hi

theorem l2_mono_len {N M : ℕ} (h : N ≤ M) (z : ℕ → ℂ) : l2 N z ≤ l2 M z :=
  Real.sqrt_le_sqrt (sum_le_sum_of_subset_of_nonneg (range_mono h) fun _ _ _ => sq_nonneg _)

theorem l1_nonneg (N : ℕ) (z : ℕ → ℂ) : 0 ≤ l1 N z := sum_nonneg fun _ _ => norm_nonneg _

theorem l1_add_le (N : ℕ) (a b : ℕ → ℂ) : l1 N (fun i => a i + b i) ≤ l1 N a + l1 N b := by
  unfold l1; rw [← sum_add_distrib]; exact sum_le_sum fun i _ => norm_add_le _ _

theorem l1_mono_pt {N : ℕ} {a b : ℕ → ℂ} {s : ℝ} (h : ∀ i < N, ‖a i‖ ≤ s * ‖b i‖) : l1 N a ≤ s * l1 N b := by
  unfold l1; rw [mul_sum]; exact sum_le_sum fun i hi => h i (mem_range.mp hi)

theorem l1_congr {N : ℕ} {a b : ℕ → ℂ} (h : ∀ i < N, a i = b i) : l1 N a = l1 N b := by
  unfold l1; exact sum_congr rfl fun i hi => by rw [h i (mem_range.mp hi)]

theorem l1_zero (N : ℕ) : l1 N (fun _ => 0) = 0 := by simp [l1]

theorem l1_mul_le (N : ℕ) (a b : ℕ → ℂ) : l1 N (fun i => a i * b i) ≤ l2 N a * l2 N b := by
  unfold l1 l2
  simp only [norm_mul]
  exact Real.sum_mul_le_sqrt_mul_sqrt (range N) (fun i => ‖a i‖) (fun i => ‖b i‖)

theorem l2_floor {N : ℕ} {a b : ℕ → ℂ} {d e : ℝ} (hd : 0 ≤ d) (he : 0 ≤ e) (h : ∀ i < N, ‖a i‖ ≤ d * ‖b i‖ + e) :
    l2 N a ≤ d * l2 N b + √N * e := by
  have h1 : l2 N a ≤ 1 * l2 N (fun i => ((d * ‖b i‖ + e : ℝ) : ℂ)) := by
    refine l2_mono_pt (by norm_num) fun i hi => ?_
    rw [one_mul, Complex.norm_real, Real.norm_of_nonneg (by positivity)]
    exact h i hi
  have h2 : l2 N (fun i => ((d * ‖b i‖ + e : ℝ) : ℂ)) ≤ l2 N (fun i => ((d * ‖b i‖ : ℝ) : ℂ)) + l2 N (fun _ => ((e : ℝ) : ℂ)) := by
    have := l2_add_le N (fun i => ((d * ‖b i‖ : ℝ) : ℂ)) (fun _ => ((e : ℝ) : ℂ))
    refine le_trans (le_of_eq (l2_congr fun i _ => ?_)) this
    push_cast; rfl
  have h3 : l2 N (fun i => ((d * ‖b i‖ : ℝ) : ℂ)) ≤ d * l2 N b := by
    refine l2_mono_pt hd fun i _ => ?_
    rw [Complex.norm_real, Real.norm_of_nonneg (by positivity)]
  have h4 : l2 N (fun _ => ((e : ℝ) : ℂ)) = √N * e := by
    unfold l2
    simp only [Complex.norm_real, Real.norm_eq_abs, sq_abs, sum_const, card_range, nsmul_eq_mul]
    rw [Real.sqrt_mul (Nat.cast_nonneg _), Real.sqrt_sq he]
  linarith

theorem l1_floor {N : ℕ} {a b : ℕ → ℂ} {d e : ℝ} (h : ∀ i < N, ‖a i‖ ≤ d * ‖b i‖ + e) :
    l1 N a ≤ d * l1 N b + N * e := by
  unfold l1
  calc ∑ j ∈ range N, ‖a j‖ ≤ ∑ j ∈ range N, (d * ‖b j‖ + e) := sum_le_sum fun i hi => h i (mem_range.mp hi)
    _ = _ := by rw [sum_add_distrib, mul_sum]; simp

/-! ## Nearness -/

/-- `z'` is within `(κ - 1) M` of `z`, and `z` is at most `M` -/
structure VNear (N : ℕ) (κ M : ℝ) (z' z : ℕ → ℂ) : Prop where
  one : 1 ≤ κ
  err : l2 N (fun i => z' i - z i) ≤ (κ - 1) * M
  bnd : l2 N z ≤ M

namespace VNear
variable {N : ℕ} {κ κ' M M' : ℝ} {z z' w w' : ℕ → ℂ}

theorem nonneg (h : VNear N κ M z' z) : 0 ≤ M := (l2_nonneg _ _).trans h.bnd

theorem refl {M : ℝ} (h : l2 N z ≤ M) : VNear N 1 M z z :=
  ⟨le_rfl, by simp [l2_zero], h⟩

theorem mono (h : VNear N κ M z' z) (hκ : κ ≤ κ') (hM : M ≤ M') : VNear N κ' M' z' z :=
  ⟨h.one.trans hκ, h.err.trans (mul_le_mul (by linarith) hM h.nonneg (by linarith [h.one])), h.bnd.trans hM⟩

theorem congr (h : VNear N κ M z' z) (e' : ∀ i < N, w' i = z' i) (e : ∀ i < N, w i = z i) : VNear N κ M w' w :=
  ⟨h.one, by rw [l2_congr (b := fun i => z' i - z i) (fun i hi => by rw [e' i hi, e i hi])]; exact h.err,
    by rw [l2_congr e]; exact h.bnd⟩

theorem bnd' (h : VNear N κ M z' z) : l2 N z' ≤ κ * M := by
  have : l2 N z' ≤ l2 N (fun i => z' i - z i) + l2 N z := by
    have := l2_add_le N (fun i => z' i - z i) z
    simpa using this
  have h1 := h.err
  have h2 := h.bnd
  linarith

/-- a rounded operation: exact linear map of size `s`, error at most `δ` times the size of the result -/
theorem step {Lf : (ℕ → ℂ) → ℕ → ℂ} {Rf : (ℕ → ℂ) → ℕ → ℂ} {s δ : ℝ} (hs : 0 ≤ s) (hδ : 0 ≤ δ)
    (hsub : ∀ a b : ℕ → ℂ, Lf (fun i => a i - b i) = fun i => Lf a i - Lf b i)
    (hL : ∀ a, l2 N (Lf a) ≤ s * l2 N a)
    (hR : l2 N (fun i => Rf z' i - Lf z' i) ≤ δ * (κ * (s * M)))
    (h : VNear N κ M z' z) : VNear N (κ * (1 + δ)) (s * M) (Rf z') (Lf z) := by
  have h1 := h.one
  have hM := h.nonneg
  refine ⟨by nlinarith, ?_, (hL z).trans (mul_le_mul_of_nonneg_left h.bnd hs)⟩
  have e1 : l2 N (fun i => Rf z' i - Lf z i) ≤
      l2 N (fun i => Rf z' i - Lf z' i) + l2 N (Lf (fun i => z' i - z i)) := by
    rw [hsub]
    have := l2_add_le N (fun i => Rf z' i - Lf z' i) (fun i => Lf z' i - Lf z i)
    simpa using this
  have e5 := hL (fun i => z' i - z i)
  have e6 := h.err
  have e8 : s * l2 N (fun i => z' i - z i) ≤ s * ((κ - 1) * M) := mul_le_mul_of_nonneg_left e6 hs
  have : (κ * (1 + δ) - 1) * (s * M) = δ * (κ * (s * M)) + s * ((κ - 1) * M) := by ring
  linarith

end VNear

/-- `z'` is within `(κ - 1) M` of `z` in the sum of magnitudes, and `z` is at most `M` -/
structure V1Near (N : ℕ) (κ M : ℝ) (z' z : ℕ → ℂ) : Prop where
  one : 1 ≤ κ
  err : l1 N (fun i => z' i - z i) ≤ (κ - 1) * M
  bnd : l1 N z ≤ M

namespace V1Near
variable {N : ℕ} {κ κ' M M' : ℝ} {z z' w w' : ℕ → ℂ}

theorem nonneg (h : V1Near N κ M z' z) : 0 ≤ M := (l1_nonneg _ _).trans h.bnd

theorem refl {M : ℝ} (h : l1 N z ≤ M) : V1Near N 1 M z z :=
  ⟨le_rfl, by simp [l1_zero], h⟩

theorem mono (h : V1Near N κ M z' z) (hκ : κ ≤ κ') (hM : M ≤ M') : V1Near N κ' M' z' z :=
  ⟨h.one.trans hκ, h.err.trans (mul_le_mul (by linarith) hM h.nonneg (by linarith [h.one])), h.bnd.trans hM⟩

theorem congr (h : V1Near N κ M z' z) (e' : ∀ i < N, w' i = z' i) (e : ∀ i < N, w i = z i) : V1Near N κ M w' w :=
  ⟨h.one, by rw [l1_congr (b := fun i => z' i - z i) (fun i hi => by rw [e' i hi, e i hi])]; exact h.err,
    by rw [l1_congr e]; exact h.bnd⟩

theorem bnd' (h : V1Near N κ M z' z) : l1 N z' ≤ κ * M := by
  have : l1 N z' ≤ l1 N (fun i => z' i - z i) + l1 N z := by
    have := l1_add_le N (fun i => z' i - z i) z
    simpa using this
  have h1 := h.err
  have h2 := h.bnd
  linarith

end V1Near

/-- one number -/
structure CNear (κ M : ℝ) (z' z : ℂ) : Prop where
  err : ‖z' - z‖ ≤ (κ - 1) * M
  bnd : ‖z‖ ≤ M

theorem CNear.bnd' {κ M : ℝ} {z' z : ℂ} (h : CNear κ M z' z) : ‖z'‖ ≤ κ * M := by
  have h1 : ‖z'‖ ≤ ‖z' - z‖ + ‖z‖ := by have := norm_add_le (z' - z) z; simpa using this
  have h2 := h.err
  have h3 := h.bnd
  linarith

/-! ## The exact levels in the norm -/

theorem sum_pairs (G h : ℕ) (f : ℕ → ℝ) :
    ∑ x ∈ range (G * (2*h)), f x = ∑ g ∈ range G, ∑ r ∈ range h, (f (g * (2*h) + r) + f (g * (2*h) + r + h)) := by
  rw [sum_range_mul]
  apply sum_congr rfl
  intro g _
  rw [two_mul, sum_range_add, ← sum_add_distrib]
  apply sum_congr rfl
  intro r _
  congr 2; ring

theorem pair_mod {g h r : ℕ} (hr : r < h) : (g * (2*h) + r) % (2*h) = r := by
  rw [add_comm, Nat.add_mul_mod_self_right, Nat.mod_eq_of_lt (by omega)]

theorem norm_omega (n : ℕ) : ‖omega n‖ = 1 := by
  unfold omega
  rw [show (-(2 * (Real.pi:ℂ) * Complex.I) / n) = ((-(2 * Real.pi) / n : ℝ) : ℂ) * Complex.I by push_cast; ring]
  exact Complex.norm_exp_ofReal_mul_I _

theorem para (a b : ℂ) : ‖a + b‖ ^ 2 + ‖a - b‖ ^ 2 = 2 * (‖a‖ ^ 2 + ‖b‖ ^ 2) := by
  have := parallelogram_law_with_norm ℂ a b
  nlinarith [this]

/-- the untwisted butterflies of an inverse level, and of a forward level -/
noncomputable def bfly (h : ℕ) (d : ℕ → ℂ) (x : ℕ) : ℂ :=
  if x % (2 * h) < h then d (low h x) + d (low h x + h) else d (low h x) - d (low h x + h)

/-- multiplication of the upper halves -/
noncomputable def twist (h : ℕ) (w : ℕ → ℂ) (d : ℕ → ℂ) (x : ℕ) : ℂ :=
  if x % (2 * h) < h then d x else d x * w (low h x % (2 * h))

theorem l2_bfly {G h : ℕ} (d : ℕ → ℂ) : l2 (G * (2*h)) (bfly h d) = √2 * l2 (G * (2*h)) d := by
  unfold l2
  rw [← Real.sqrt_mul (by norm_num), sum_pairs, sum_pairs, mul_sum]
  congr 1
  apply sum_congr rfl
  intro g _
  rw [mul_sum]
  apply sum_congr rfl
  intro r hr
  rw [mem_range] at hr
  have hm := pair_mod (g := g) hr
  have h1 : bfly h d (g * (2*h) + r) = d (g * (2*h) + r) + d (g * (2*h) + r + h) := by
    unfold bfly; rw [if_pos (by rw [hm]; exact hr), low_of_lt (by rw [hm]; exact hr)]
  have h2 : bfly h d (g * (2*h) + r + h) = d (g * (2*h) + r) - d (g * (2*h) + r + h) := by
    unfold bfly
    rw [if_neg (by rw [add_half_mod (by rw [hm]; exact hr)]; omega), low_add (by rw [hm]; exact hr)]
  rw [h1, h2, para]

theorem norm_twist {h : ℕ} {w : ℕ → ℂ} (hw : ∀ e, ‖w e‖ = 1) (d : ℕ → ℂ) (x : ℕ) : ‖twist h w d x‖ = ‖d x‖ := by
  unfold twist; split
  · rfl
  · rw [norm_mul, hw, mul_one]

theorem l2_twist {N h : ℕ} {w : ℕ → ℂ} (hw : ∀ e, ‖w e‖ = 1) (d : ℕ → ℂ) : l2 N (twist h w d) = l2 N d := by
  unfold l2; simp only [norm_twist hw]

theorem lev_eq (h : ℕ) (d : ℕ → ℂ) : Proofs.lev h d = twist h (fun e => omega (2*h) ^ e) (bfly h d) := by
  funext x; unfold Proofs.lev twist bfly; split <;> rfl

theorem ilev_eq {h : ℕ} (hh : 0 < h) (d : ℕ → ℂ) :
    Proofs.ilev h d = fun x => (1/2 : ℂ) * bfly h (twist h (fun e => (omega (2*h))⁻¹ ^ e) d) x := by
  funext x
  have hl := low_mod hh x
  have h1 : twist h (fun e => (omega (2*h))⁻¹ ^ e) d (low h x) = d (low h x) := by
    unfold twist; rw [if_pos hl]
  have h2 : twist h (fun e => (omega (2*h))⁻¹ ^ e) d (low h x + h) =
      d (low h x + h) * (omega (2*h))⁻¹ ^ (low h x % (2*h)) := by
    unfold twist; rw [if_neg (by rw [add_half_mod hl]; omega), low_low_add hh]
  unfold Proofs.ilev bfly
  rw [h1, h2]
  split <;> ring

/-! ## What is assumed of the arithmetic -/

/-- Everything the error bounds depend on: relative error `v` and absolute error `η` of an operation whose result `fits`; sizes are
at least `φ`, signal levels `lev` are at least `θ`, and for those the two errors together are a relative error `u`; errors `τ` of the
twiddle factors of transforms of up to `2 ^ L` points, and `ε` of the library transforms. -/
structure Fp where
  u : ℝ
  v : ℝ
  η : ℝ
  φ : ℝ
  θ : ℝ
  τ : ℝ
  ε : ℝ
  L : ℕ
  fits : ℝ → Prop
  lev : ℝ → Prop

/-- the numbers make sense -/
structure Fp.Good (f : Fp) : Prop where
  v_nonneg : 0 ≤ f.v
  v_le : f.v ≤ f.u
  η_nonneg : 0 ≤ f.η
  η_le : f.η ≤ (f.u - f.v) * f.φ
  φ_nonneg : 0 ≤ f.φ
  θ_nonneg : 0 ≤ f.θ
  φθ : 2 * f.φ ≤ f.θ
  φθ2 : f.φ ≤ f.θ * f.θ
  τ_nonneg : 0 ≤ f.τ
  ε_nonneg : 0 ≤ f.ε
  fits_mono : ∀ a b, a ≤ b → f.fits b → f.fits a
  lev_ge : ∀ X, f.lev X → f.θ ≤ X

theorem Fp.Good.u_nonneg {f : Fp} (h : f.Good) : 0 ≤ f.u := h.v_nonneg.trans h.v_le

theorem Fp.Good.lev_nonneg {f : Fp} (h : f.Good) {X : ℝ} (hX : f.lev X) : 0 ≤ X := h.θ_nonneg.trans (h.lev_ge X hX)

/-- growth of the error factor per level -/
noncomputable def lvl (u τ : ℝ) : ℝ := (1 + u) ^ 3 * (1 + τ)

theorem one_le_lvl' {u τ : ℝ} (hu : 0 ≤ u) (ht : 0 ≤ τ) : 1 ≤ lvl u τ := by
  unfold lvl
  have : 1 ≤ (1 + u)^3 := one_le_pow₀ (by linarith)
  nlinarith

variable [Arith] {f : Fp}

/-- the arithmetic is as good as `f` says -/
structure Fp.Acc (f : Fp) : Prop extends f.Good where
  addF : ∀ a b : ℝ, f.fits |a| → f.fits |b| → f.fits |a + b| → |Arith.addF a b - (a + b)| ≤ f.v * |a + b| + f.η
  add : ∀ a b : ℂ, f.fits ‖a‖ → f.fits ‖b‖ → f.fits ‖a + b‖ → ‖Arith.add a b - (a + b)‖ ≤ f.v * ‖a + b‖ + f.η
  sub : ∀ a b : ℂ, f.fits ‖a‖ → f.fits ‖b‖ → f.fits ‖a - b‖ → ‖Arith.sub a b - (a - b)‖ ≤ f.v * ‖a - b‖ + f.η
  mul : ∀ a b : ℂ, f.fits ‖a‖ → f.fits ‖b‖ → f.fits ‖a * b‖ → ‖Arith.mul a b - a * b‖ ≤ f.v * ‖a * b‖ + f.η
  half : ∀ a : ℂ, f.fits ‖a‖ → f.fits ‖a / 2‖ → ‖Arith.half a - a / 2‖ ≤ f.v * ‖a / 2‖ + f.η
  twF : ∀ k < f.L, ∀ e < 2 ^ k, ‖Arith.twF (2 * 2 ^ k) e - omega (2 * 2 ^ k) ^ e‖ ≤ f.τ
  twI : ∀ k < f.L, ∀ e < 2 ^ k, ‖Arith.twI (2 * 2 ^ k) e - (omega (2 * 2 ^ k))⁻¹ ^ e‖ ≤ f.τ
  fits_tw : f.fits (1 + f.τ)
  zero : ZeroBase
  mul_zero : ∀ z : ℂ, f.fits ‖z‖ → Arith.mul 0 z = 0

theorem Fp.Acc.u_nonneg (hA : f.Acc) : 0 ≤ f.u := hA.v_nonneg.trans hA.v_le

/-- relative and absolute error together, at a size `S` that is at least `F φ` -/
theorem Fp.Acc.absorb (hA : f.Acc) {F S : ℝ} (hF : 0 ≤ F) (h : F * f.φ ≤ S) : f.v * S + F * f.η ≤ f.u * S := by
  have h1 : F * f.η ≤ F * ((f.u - f.v) * f.φ) := mul_le_mul_of_nonneg_left hA.η_le hF
  have h2 : (f.u - f.v) * (F * f.φ) ≤ (f.u - f.v) * S := mul_le_mul_of_nonneg_left h (by linarith [hA.v_le])
  nlinarith

/-! ## Single operations on vectors -/

/-- rounded multiplication of the upper halves by the factors `w` -/
noncomputable def rtwist (h : ℕ) (w : ℕ → ℂ) (d : ℕ → ℂ) (x : ℕ) : ℂ :=
  if x % (2 * h) < h then d x else Arith.mul (d x) (w (low h x % (2 * h)))

/-- rounded butterflies -/
noncomputable def rbfly (h : ℕ) (d : ℕ → ℂ) (x : ℕ) : ℂ :=
  if x % (2 * h) < h then Arith.add (d (low h x)) (d (low h x + h)) else Arith.sub (d (low h x)) (d (low h x + h))

theorem rlev_eq (h : ℕ) (d : ℕ → ℂ) : R.lev h d = rtwist h (Arith.twF (2*h)) (rbfly h d) := by
  funext x
  unfold R.lev rtwist rbfly
  split <;> rfl

theorem rilev_eq {h : ℕ} (hh : 0 < h) (d : ℕ → ℂ) :
    R.ilev h d = fun x => Arith.half (rbfly h (rtwist h (Arith.twI (2*h)) d) x) := by
  funext x
  have hl := low_mod hh x
  have h1 : rtwist h (Arith.twI (2*h)) d (low h x) = d (low h x) := by unfold rtwist; rw [if_pos hl]
  have h2 : rtwist h (Arith.twI (2*h)) d (low h x + h) = Arith.mul (d (low h x + h)) (Arith.twI (2*h) (low h x % (2*h))) := by
    unfold rtwist; rw [if_neg (by rw [add_half_mod hl]; omega), low_low_add hh]
  unfold R.ilev rbfly
  rw [h1, h2]
  split <;> rfl

/-- multiplication by a twiddle factor -/
theorem mulTw_err (hA : f.Acc) {a w w' : ℂ} (hw : ‖w‖ = 1) (htw : ‖w' - w‖ ≤ f.τ) (hf : f.fits ((1 + f.τ) * ‖a‖)) :
    ‖Arith.mul a w' - a * w‖ ≤ ((1 + f.v) * (1 + f.τ) - 1) * ‖a‖ + f.η := by
  have hv := hA.v_nonneg
  have hw' : ‖w'‖ ≤ 1 + f.τ := by
    have := norm_add_le (w' - w) w
    rw [sub_add_cancel, hw] at this
    linarith
  have h0 : ‖a * w'‖ ≤ (1 + f.τ) * ‖a‖ := by
    rw [norm_mul, mul_comm]; exact mul_le_mul_of_nonneg_right hw' (norm_nonneg _)
  have ha : ‖a‖ ≤ (1 + f.τ) * ‖a‖ := le_mul_of_one_le_left (norm_nonneg _) (by linarith [hA.τ_nonneg])
  have h1 := hA.mul a w' (hA.fits_mono _ _ ha hf) (hA.fits_mono _ _ hw' hA.fits_tw) (hA.fits_mono _ _ h0 hf)
  have h2 : ‖a * w' - a * w‖ ≤ f.τ * ‖a‖ := by
    rw [← mul_sub, norm_mul, mul_comm]
    exact mul_le_mul_of_nonneg_right htw (norm_nonneg _)
  have h3 : ‖Arith.mul a w' - a * w‖ ≤ ‖Arith.mul a w' - a * w'‖ + ‖a * w' - a * w‖ := by
    have := norm_add_le (Arith.mul a w' - a * w') (a * w' - a * w); simpa using this
  have h4 := mul_le_mul_of_nonneg_left h0 hv
  nlinarith

theorem VNear.twist (hA : f.Acc) {κ M : ℝ} {z' z : ℕ → ℂ} {N h : ℕ} {w w' : ℕ → ℂ} (hh : 0 < h)
    (hw : ∀ e, ‖w e‖ = 1) (htw : ∀ e < h, ‖w' e - w e‖ ≤ f.τ) (hfl : √N * f.φ ≤ M)
    (hf : f.fits (κ * ((1 + f.u) * (1 + f.τ)) * M)) (hz : VNear N κ M z' z) :
    VNear N (κ * ((1 + f.u) * (1 + f.τ))) M (rtwist h w' z') (twist h w z) := by
  have hu := hA.u_nonneg
  have hv := hA.v_nonneg
  have hη := hA.η_nonneg
  have ht := hA.τ_nonneg
  have hM := hz.nonneg
  have hk := hz.one
  have hδ : 0 ≤ (1 + f.u) * (1 + f.τ) - 1 := by nlinarith [mul_nonneg hu ht]
  have hδv : 0 ≤ (1 + f.v) * (1 + f.τ) - 1 := by nlinarith [mul_nonneg hv ht]
  have key := hz.step (Lf := Zones.Proofs.R.twist h w) (Rf := rtwist h w') (s := 1)
    (δ := (1 + f.u) * (1 + f.τ) - 1) (by norm_num) hδ ?_ ?_ ?_
  · refine key.mono (le_of_eq (by ring)) (le_of_eq (by ring))
  · intro x y; funext i; unfold Zones.Proofs.R.twist; split <;> ring
  · intro x; rw [l2_twist hw, one_mul]
  · have hb := hz.bnd'
    have hpt : ∀ i < N, ‖rtwist h w' z' i - Zones.Proofs.R.twist h w z' i‖ ≤ ((1 + f.v) * (1 + f.τ) - 1) * ‖z' i‖ + f.η := by
      intro i hi
      unfold rtwist Zones.Proofs.R.twist
      split
      · rw [sub_self, norm_zero]; positivity
      · refine mulTw_err hA (hw _) (htw _ (low_mod hh i)) (hA.fits_mono _ _ ?_ hf)
        have h1 := (le_l2 z' hi).trans hb
        have h2 : (1 + f.τ) * ‖z' i‖ ≤ (1 + f.τ) * (κ * M) := mul_le_mul_of_nonneg_left h1 (by linarith)
        have h3 : 0 ≤ f.u * ((1 + f.τ) * (κ * M)) := by positivity
        nlinarith
    have h1 := l2_floor (N := N) hδv hη hpt
    have h2 := mul_le_mul_of_nonneg_left hb hδv
    have h3 : √N * f.φ ≤ κ * M := hfl.trans (by nlinarith)
    have h4 := hA.absorb (Real.sqrt_nonneg N) h3
    have h5 : f.v * f.τ * (κ * M) ≤ f.u * f.τ * (κ * M) :=
      mul_le_mul_of_nonneg_right (mul_le_mul_of_nonneg_right hA.v_le ht) (by positivity)
    rw [one_mul]
    nlinarith

omit [Arith] in
theorem low_add_lt {G h i : ℕ} (hi : i < G * (2 * h)) : low h i + h < G * (2 * h) := by
  have hh : 0 < h := by
    rcases Nat.eq_zero_or_pos h with rfl | h0
    · simp at hi
    · exact h0
  have h1 := Nat.div_add_mod i (2 * h)
  have h2 := Nat.mod_lt i (show 0 < 2 * h by omega)
  have h3 : i / (2 * h) < G := by rw [Nat.div_lt_iff_lt_mul (by omega)]; exact hi
  have h4 : (i / (2 * h) + 1) * (2 * h) ≤ G * (2 * h) := Nat.mul_le_mul_right _ h3
  have h5 : (i / (2 * h) + 1) * (2 * h) = 2 * h * (i / (2 * h)) + 2 * h := by ring
  unfold low
  split <;> omega

theorem VNear.bfly (hA : f.Acc) {κ M : ℝ} {z' z : ℕ → ℂ} {N G h : ℕ} (hN : N = G * (2 * h)) (hfl : √N * f.φ ≤ M)
    (hf : f.fits (κ * (1 + f.u) * (√2 * M))) (hz : VNear N κ M z' z) :
    VNear N (κ * (1 + f.u)) (√2 * M) (rbfly h z') (bfly h z) := by
  have hu := hA.u_nonneg
  have hv := hA.v_nonneg
  have hη := hA.η_nonneg
  have hM := hz.nonneg
  have hk := hz.one
  have hs2 : 1 ≤ √2 := by rw [Real.one_le_sqrt]; norm_num
  have hL : ∀ a, l2 N (Zones.Proofs.R.bfly h a) ≤ √2 * l2 N a := by
    intro a; rw [hN]; exact le_of_eq (l2_bfly a)
  refine hz.step (Lf := Zones.Proofs.R.bfly h) (Rf := rbfly h) (s := √2) (δ := f.u) (Real.sqrt_nonneg _) hu ?_ hL ?_
  · intro x y; funext i; unfold Zones.Proofs.R.bfly; split <;> ring
  · have hb : l2 N (Zones.Proofs.R.bfly h z') ≤ κ * (√2 * M) := by
      have := (hL z').trans (mul_le_mul_of_nonneg_left hz.bnd' (Real.sqrt_nonneg 2))
      linarith
    have hS : κ * (√2 * M) ≤ κ * (1 + f.u) * (√2 * M) := by
      have : 0 ≤ f.u * (κ * (√2 * M)) := by positivity
      linarith
    have hpt : ∀ i < N, ‖rbfly h z' i - Zones.Proofs.R.bfly h z' i‖ ≤ f.v * ‖Zones.Proofs.R.bfly h z' i‖ + f.η := by
      intro i hi
      have hi' := hA.fits_mono _ _ (((le_l2 (Zones.Proofs.R.bfly h z') hi).trans hb).trans hS) hf
      have hj : low h i + h < N := by rw [hN] at hi ⊢; exact low_add_lt hi
      have hop : ∀ j < N, f.fits ‖z' j‖ := fun j hj => by
        refine hA.fits_mono _ _ ((((le_l2 z' hj).trans hz.bnd').trans ?_).trans hS) hf
        have : M ≤ √2 * M := by nlinarith
        exact mul_le_mul_of_nonneg_left this (by linarith)
      have ho1 := hop _ (by omega : low h i < N)
      have ho2 := hop _ hj
      revert hi'
      unfold rbfly Zones.Proofs.R.bfly
      split
      · exact hA.add _ _ ho1 ho2
      · exact hA.sub _ _ ho1 ho2
    have h1 := l2_floor (N := N) hv hη hpt
    have h2 := mul_le_mul_of_nonneg_left hb hv
    have h3 : √N * f.φ ≤ κ * (√2 * M) := by
      have : M ≤ √2 * M := by nlinarith
      have : √2 * M ≤ κ * (√2 * M) := by nlinarith [mul_nonneg (Real.sqrt_nonneg 2) hM]
      linarith
    have h4 := hA.absorb (Real.sqrt_nonneg N) h3
    linarith

theorem VNear.halve (hA : f.Acc) {κ M : ℝ} {z' z : ℕ → ℂ} {N : ℕ} (hfl : √N * f.φ ≤ 1 / 2 * M)
    (hf : f.fits (κ * (1 + f.u) * M)) (hz : VNear N κ M z' z) :
    VNear N (κ * (1 + f.u)) (1 / 2 * M) (fun i => Arith.half (z' i)) (fun i => (1/2 : ℂ) * z i) := by
  have hu := hA.u_nonneg
  have hv := hA.v_nonneg
  have hη := hA.η_nonneg
  have hM := hz.nonneg
  have hk := hz.one
  have hL : ∀ a : ℕ → ℂ, l2 N (fun i => (1/2 : ℂ) * a i) ≤ 1 / 2 * l2 N a := by
    intro a; rw [l2_smul]; norm_num
  refine hz.step (Lf := fun a i => (1/2 : ℂ) * a i) (Rf := fun a i => Arith.half (a i)) (s := 1 / 2) (δ := f.u) (by norm_num) hu ?_ hL ?_
  · intro x y; funext i; ring
  · have hb : l2 N (fun i => (1/2 : ℂ) * z' i) ≤ κ * (1 / 2 * M) := by
      have := (hL z').trans (mul_le_mul_of_nonneg_left hz.bnd' (by norm_num))
      linarith
    have hS : κ * (1 / 2 * M) ≤ κ * (1 + f.u) * M := by
      have h1 : 0 ≤ f.u * (κ * M) := by positivity
      have h2 : 0 ≤ κ * M := by positivity
      linarith
    have hpt : ∀ i < N, ‖Arith.half (z' i) - (1/2 : ℂ) * z' i‖ ≤ f.v * ‖(1/2 : ℂ) * z' i‖ + f.η := by
      intro i hi
      have hi' := hA.fits_mono _ _ (((le_l2 (fun i => (1/2 : ℂ) * z' i) hi).trans hb).trans hS) hf
      rw [show (1/2 : ℂ) * z' i = z' i / 2 by ring] at hi' ⊢
      refine hA.half _ (hA.fits_mono _ _ (((le_l2 z' hi).trans hz.bnd').trans ?_) hf) hi'
      have h1 : 0 ≤ f.u * (κ * M) := by positivity
      linarith
    have h1 := l2_floor (N := N) hv hη hpt
    have h2 := mul_le_mul_of_nonneg_left hb hv
    have h3 : √N * f.φ ≤ κ * (1 / 2 * M) := by
      have : 1 / 2 * M ≤ κ * (1 / 2 * M) := by nlinarith
      linarith
    have h4 := hA.absorb (Real.sqrt_nonneg N) h3
    linarith

theorem VNear.lev (hA : f.Acc) {κ M : ℝ} {z' z : ℕ → ℂ} {n a : ℕ} (ha : a < n) (haL : a < f.L)
    (hfl : √((2^n : ℕ) : ℝ) * f.φ ≤ M) (hf : f.fits (κ * lvl f.u f.τ * (√2 * M)))
    (h : VNear (2^n) κ M z' z) : VNear (2^n) (κ * lvl f.u f.τ) (√2 * M) (R.lev (2^a) z') (Proofs.lev (2^a) z) := by
  have hu := hA.u_nonneg
  have ht := hA.τ_nonneg
  have hM := h.nonneg
  have hk := h.one
  have hs2 : 1 ≤ √2 := by rw [Real.one_le_sqrt]; norm_num
  have hw : ∀ e, ‖omega (2 * 2^a) ^ e‖ = 1 := fun e => by rw [norm_pow, norm_omega, one_pow]
  obtain ⟨G, hG⟩ : ∃ G, (2:ℕ)^n = G * (2 * 2^a) := ⟨2^(n-1-a), by rw [← pow_succ', ← pow_add]; congr 1; omega⟩
  have e1 : κ * (1 + f.u) * ((1 + f.u) * (1 + f.τ)) ≤ κ * lvl f.u f.τ := by
    unfold lvl
    have : 0 ≤ κ * ((1 + f.u)^2 * (1 + f.τ) * f.u) := by positivity
    nlinarith
  have e0 : κ * (1 + f.u) ≤ κ * (1 + f.u) * ((1 + f.u) * (1 + f.τ)) := by
    have : 1 ≤ (1 + f.u) * (1 + f.τ) := by nlinarith [mul_nonneg hu ht]
    exact le_mul_of_one_le_right (by positivity) this
  have hM2 : 0 ≤ √2 * M := by positivity
  have k1 := h.bfly hA hG hfl (hA.fits_mono _ _ (mul_le_mul_of_nonneg_right (e0.trans e1) hM2) hf)
  have k2 := k1.twist hA (h := 2^a) (w := fun e => omega (2 * 2^a) ^ e) (w' := Arith.twF (2 * 2^a)) (by positivity) hw (fun e he => hA.twF a haL e he)
    (hfl.trans (by nlinarith)) (hA.fits_mono _ _ (mul_le_mul_of_nonneg_right e1 hM2) hf)
  rw [rlev_eq, lev_eq]
  exact k2.mono e1 le_rfl

theorem VNear.ilev (hA : f.Acc) {κ M : ℝ} {z' z : ℕ → ℂ} {n a : ℕ} (ha : a < n) (haL : a < f.L)
    (hfl : √((2^n : ℕ) : ℝ) * f.φ ≤ √2 / 2 * M) (hf : f.fits (κ * lvl f.u f.τ * (√2 * M)))
    (h : VNear (2^n) κ M z' z) :
    VNear (2^n) (κ * lvl f.u f.τ) (√2 / 2 * M) (R.ilev (2^a) z') (Proofs.ilev (2^a) z) := by
  have hu := hA.u_nonneg
  have ht := hA.τ_nonneg
  have hM := h.nonneg
  have hk := h.one
  have hs2 : 1 ≤ √2 := by rw [Real.one_le_sqrt]; norm_num
  have hs3 : √2 ≤ 2 := by rw [Real.sqrt_le_left (by norm_num)]; norm_num
  have hw : ∀ e, ‖(omega (2 * 2^a))⁻¹ ^ e‖ = 1 := fun e => by
    rw [norm_pow, norm_inv, norm_omega, inv_one, one_pow]
  obtain ⟨G, hG⟩ : ∃ G, (2:ℕ)^n = G * (2 * 2^a) := ⟨2^(n-1-a), by rw [← pow_succ', ← pow_add]; congr 1; omega⟩
  have hM2 : 0 ≤ √2 * M := by positivity
  have hfM : √((2^n : ℕ) : ℝ) * f.φ ≤ M := hfl.trans (by nlinarith)
  have g1 : 1 ≤ (1 + f.u) := by linarith
  have e1 : κ * ((1 + f.u) * (1 + f.τ)) * (1 + f.u) * (1 + f.u) = κ * lvl f.u f.τ := by unfold lvl; ring
  have e2 : κ * ((1 + f.u) * (1 + f.τ)) * (1 + f.u) ≤ κ * lvl f.u f.τ := by
    rw [← e1]; exact le_mul_of_one_le_right (by positivity) g1
  have e3 : κ * ((1 + f.u) * (1 + f.τ)) ≤ κ * lvl f.u f.τ :=
    (le_mul_of_one_le_right (by positivity) g1).trans e2
  have hl0 : 0 ≤ κ * lvl f.u f.τ := by
    have := one_le_lvl' hu ht
    positivity
  have k1 := h.twist hA (h := 2^a) (w := fun e => (omega (2 * 2^a))⁻¹ ^ e) (w' := Arith.twI (2 * 2^a)) (by positivity) hw (fun e he => hA.twI a haL e he)
    hfM (hA.fits_mono _ _ (mul_le_mul e3 (by nlinarith) hM hl0) hf)
  have k2 := k1.bfly hA hG hfM (hA.fits_mono _ _ (mul_le_mul_of_nonneg_right e2 hM2) hf)
  have k3 := k2.halve hA (by linarith) (hA.fits_mono _ _ (by rw [e1]) hf)
  rw [rilev_eq (by positivity), ilev_eq (by positivity)]
  exact k3.mono (le_of_eq e1) (le_of_eq (by ring))

theorem VNear.down (hA : f.Acc) {n m : ℕ} (hm : m ≤ n) (hmL : m ≤ f.L) : ∀ {κ M : ℝ} {z' z : ℕ → ℂ},
    √((2^n : ℕ) : ℝ) * f.φ ≤ M → f.fits (κ * lvl f.u f.τ ^ m * (√2 ^ m * M)) →
    VNear (2^n) κ M z' z → VNear (2^n) (κ * lvl f.u f.τ ^ m) (√2 ^ m * M) (R.down m z') (Proofs.down m z) := by
  have hlv := one_le_lvl' hA.u_nonneg hA.τ_nonneg
  have hs2 : 1 ≤ √2 := by rw [Real.one_le_sqrt]; norm_num
  induction m with
  | zero => intro κ M z' z _ _ h; simpa [R.down, Proofs.down] using h
  | succ m ih =>
    intro κ M z' z hfl hf h
    have hM := h.nonneg
    have hk := h.one
    have e1 : κ * lvl f.u f.τ * lvl f.u f.τ ^ m = κ * lvl f.u f.τ ^ (m+1) := by ring
    have e2 : √2 ^ m * (√2 * M) = √2 ^ (m+1) * M := by ring
    have g1 : 1 ≤ lvl f.u f.τ ^ m := one_le_pow₀ hlv
    have g2 : 1 ≤ √2 ^ m := one_le_pow₀ hs2
    have hfa : f.fits (κ * lvl f.u f.τ * (√2 * M)) := by
      refine hA.fits_mono _ _ ?_ hf
      rw [← e1, ← e2]
      exact mul_le_mul (le_mul_of_one_le_right (by positivity) g1) (le_mul_of_one_le_left (by positivity) g2)
        (by positivity) (by positivity)
    have := ih (by omega) (by omega) (hfl.trans (by nlinarith)) (by rw [e1, e2]; exact hf)
      (h.lev hA (a := m) (by omega) (by omega) hfl hfa)
    rw [e1, e2] at this
    exact this

theorem VNear.up (hA : f.Acc) {n m : ℕ} (hm : m ≤ n) (hmL : m ≤ f.L) {κ M : ℝ} {z' z : ℕ → ℂ}
    (hfl : √((2^n : ℕ) : ℝ) * f.φ ≤ (√2 / 2) ^ m * M) (hf : f.fits (κ * lvl f.u f.τ ^ m * (√2 * M)))
    (h : VNear (2^n) κ M z' z) :
    VNear (2^n) (κ * lvl f.u f.τ ^ m) ((√2 / 2) ^ m * M) (R.up m z') (Proofs.up m z) := by
  have hlv := one_le_lvl' hA.u_nonneg hA.τ_nonneg
  have hs3 : √2 ≤ 2 := by rw [Real.sqrt_le_left (by norm_num)]; norm_num
  have hM := h.nonneg
  have hk := h.one
  induction m with
  | zero => simpa [R.up, Proofs.up] using h
  | succ m ih =>
    have e1 : κ * lvl f.u f.τ ^ m * lvl f.u f.τ = κ * lvl f.u f.τ ^ (m+1) := by ring
    have e2 : √2 / 2 * ((√2 / 2) ^ m * M) = (√2 / 2) ^ (m+1) * M := by ring
    have g0 : 0 ≤ (√2 / 2) ^ m * M := by positivity
    have g1 : κ * lvl f.u f.τ ^ m ≤ κ * lvl f.u f.τ ^ (m+1) := by
      rw [← e1]; exact le_mul_of_one_le_right (by positivity) hlv
    have g2 : (√2 / 2) ^ m * M ≤ M := by
      have : (√2 / 2) ^ m ≤ 1 := pow_le_one₀ (by positivity) (by linarith)
      nlinarith
    have i1 := ih (by omega) (by omega) (hfl.trans (by rw [← e2]; nlinarith))
      (hA.fits_mono _ _ (mul_le_mul_of_nonneg_right g1 (by positivity)) hf)
    have := i1.ilev hA (a := m) (by omega) (by omega) (by rw [e2]; exact hfl) (hA.fits_mono _ _ (by
      rw [e1]
      exact mul_le_mul_of_nonneg_left (mul_le_mul_of_nonneg_left g2 (Real.sqrt_nonneg _)) (by positivity)) hf)
    rw [e1, e2] at this
    exact this

theorem VNear.mul (hA : f.Acc) {N : ℕ} {κ κ' M M' : ℝ} {x' x h' h : ℕ → ℂ}
    (hfl : N * f.φ ≤ M * M') (hf1 : f.fits (κ * M)) (hf2 : f.fits (κ' * M')) (hf : f.fits (κ * κ' * (1 + f.u) * (M * M')))
    (hx : VNear N κ M x' x) (hh : VNear N κ' M' h' h) :
    V1Near N (κ * κ' * (1 + f.u)) (M * M') (fun i => Arith.mul (x' i) (h' i)) (fun i => x i * h i) := by
  have hu := hA.u_nonneg
  have h1 := hx.one
  have h2 := hh.one
  have m1 := hx.nonneg
  have m2 := hh.nonneg
  have hkk : 1 ≤ κ * κ' := by nlinarith
  have hprod : V1Near N (κ * κ') (M * M') (fun i => x' i * h' i) (fun i => x i * h i) := by
    refine ⟨by nlinarith, ?_, (l1_mul_le N x h).trans (mul_le_mul hx.bnd hh.bnd (l2_nonneg _ _) m1)⟩
    have e : l1 N (fun i => x' i * h' i - x i * h i) ≤
        l1 N (fun i => (x' i - x i) * h' i) + l1 N (fun i => x i * (h' i - h i)) := by
      have := l1_add_le N (fun i => (x' i - x i) * h' i) (fun i => x i * (h' i - h i))
      refine le_trans (le_of_eq (l1_congr fun i _ => ?_)) this
      ring
    have e1 := l1_mul_le N (fun i => x' i - x i) h'
    have e2 := l1_mul_le N x (fun i => h' i - h i)
    have e3 : l2 N (fun i => x' i - x i) * l2 N h' ≤ ((κ - 1) * M) * (κ' * M') :=
      mul_le_mul hx.err hh.bnd' (l2_nonneg _ _) (mul_nonneg (by linarith) m1)
    have e4 : l2 N x * l2 N (fun i => h' i - h i) ≤ M * ((κ' - 1) * M') :=
      mul_le_mul hx.bnd hh.err (l2_nonneg _ _) m1
    have : (κ * κ' - 1) * (M * M') = ((κ - 1) * M) * (κ' * M') + M * ((κ' - 1) * M') := by ring
    linarith
  have hpp := hprod.bnd'
  have hpe := hprod.err
  refine ⟨by nlinarith [mul_nonneg (sub_nonneg.mpr h1) (sub_nonneg.mpr h2)], ?_, hprod.bnd⟩
  have e := l1_add_le N (fun i => Arith.mul (x' i) (h' i) - x' i * h' i) (fun i => x' i * h' i - x i * h i)
  simp only [sub_add_sub_cancel] at e
  have hMM : 0 ≤ M * M' := by positivity
  have hS : κ * κ' * (M * M') ≤ κ * κ' * (1 + f.u) * (M * M') := by
    have : 0 ≤ f.u * (κ * κ' * (M * M')) := by positivity
    linarith
  have e1 := l1_floor (N := N) (a := fun i => Arith.mul (x' i) (h' i) - x' i * h' i) (b := fun i => x' i * h' i)
    (fun i hi => hA.mul _ _ (hA.fits_mono _ _ ((le_l2 x' hi).trans hx.bnd') hf1) (hA.fits_mono _ _ ((le_l2 h' hi).trans hh.bnd') hf2) (hA.fits_mono _ _ (((single_le_sum (f := fun j => ‖x' j * h' j‖) (fun _ _ => norm_nonneg _) (mem_range.mpr hi)).trans hpp).trans hS) hf))
  have e2 : f.v * l1 N (fun i => x' i * h' i) ≤ f.v * (κ * κ' * (M * M')) := mul_le_mul_of_nonneg_left hpp hA.v_nonneg
  have e3 := hA.absorb (F := N) (S := κ * κ' * (M * M')) (Nat.cast_nonneg _) (hfl.trans (by nlinarith))
  have : (κ * κ' * (1 + f.u) - 1) * (M * M') = f.u * (κ * κ' * (M * M')) + (κ * κ' - 1) * (M * M') := by ring
  linarith

theorem V1Near.add (hA : f.Acc) {N : ℕ} {κ M M' : ℝ} {x' x h' h : ℕ → ℂ}
    (hfl : N * f.φ ≤ M + M') (hf : f.fits (κ * (1 + f.u) * (M + M')))
    (hx : V1Near N κ M x' x) (hh : V1Near N κ M' h' h) :
    V1Near N (κ * (1 + f.u)) (M + M') (fun i => Arith.add (x' i) (h' i)) (fun i => x i + h i) := by
  have hu := hA.u_nonneg
  have h1 := hx.one
  have m1 := hx.nonneg
  have m2 := hh.nonneg
  refine ⟨by nlinarith, ?_, (l1_add_le N x h).trans (add_le_add hx.bnd hh.bnd)⟩
  have e := l1_add_le N (fun i => Arith.add (x' i) (h' i) - (x' i + h' i)) (fun i => (x' i + h' i) - (x i + h i))
  simp only [sub_add_sub_cancel] at e
  have e2 := l1_add_le N x' h'
  have e3 := hx.bnd'
  have e4 := hh.bnd'
  have hpp : l1 N (fun i => x' i + h' i) ≤ κ * (M + M') := by linarith
  have hS : κ * (M + M') ≤ κ * (1 + f.u) * (M + M') := by
    have : 0 ≤ f.u * (κ * (M + M')) := by positivity
    linarith
  have e1 := l1_floor (N := N) (a := fun i => Arith.add (x' i) (h' i) - (x' i + h' i)) (b := fun i => x' i + h' i)
    (fun i hi => hA.add _ _
      (hA.fits_mono _ _ ((((single_le_sum (f := fun j => ‖x' j‖) (fun _ _ => norm_nonneg _) (mem_range.mpr hi)).trans e3).trans (mul_le_mul_of_nonneg_left (by linarith) (by linarith))).trans hS) hf)
      (hA.fits_mono _ _ ((((single_le_sum (f := fun j => ‖h' j‖) (fun _ _ => norm_nonneg _) (mem_range.mpr hi)).trans e4).trans (mul_le_mul_of_nonneg_left (by linarith) (by linarith))).trans hS) hf) (hA.fits_mono _ _ (((single_le_sum (f := fun j => ‖x' j + h' j‖) (fun _ _ => norm_nonneg _) (mem_range.mpr hi)).trans hpp).trans hS) hf))
  have e5 := l1_add_le N (fun i => x' i - x i) (fun i => h' i - h i)
  have e6 : l1 N (fun i => (x' i + h' i) - (x i + h i)) = l1 N (fun i => (x' i - x i) + (h' i - h i)) :=
    l1_congr fun i _ => by ring
  have e7 := hx.err
  have e8 := hh.err
  have e9 : f.v * l1 N (fun i => x' i + h' i) ≤ f.v * (κ * (M + M')) :=
    mul_le_mul_of_nonneg_left hpp hA.v_nonneg
  have e10 := hA.absorb (F := N) (S := κ * (M + M')) (Nat.cast_nonneg _) (hfl.trans (by nlinarith))
  have : (κ * (1 + f.u) - 1) * (M + M') = f.u * (κ * (M + M')) + ((κ - 1) * M + (κ - 1) * M') := by ring
  linarith

theorem VNear.macs (hA : f.Acc) {N : ℕ} {κ κ' : ℝ} (h1 : 1 ≤ κ) (h1' : 1 ≤ κ') {M M' : ℕ → ℝ}
    {X' X H' H : ℕ → ℕ → ℂ} (K : ℕ) (hfl : ∀ i < K, N * f.φ ≤ M i * M' i)
    (hfX : ∀ i < K, f.fits (κ * M i)) (hfH : ∀ i < K, f.fits (κ' * M' i))
    (hf : f.fits (κ * κ' * (1 + f.u) * (1 + f.u) ^ K * ∑ i ∈ range K, M i * M' i))
    (hX : ∀ i < K, VNear N κ (M i) (X' i) (X i)) (hH : ∀ i < K, VNear N κ' (M' i) (H' i) (H i)) :
    V1Near N (κ * κ' * (1 + f.u) * (1 + f.u) ^ K) (∑ i ∈ range K, M i * M' i)
      (fun k => R.macs K (fun i => X' i k) (fun i => H' i k) 0) (fun k => ∑ i ∈ range K, X i k * H i k) := by
  have hu := hA.u_nonneg
  have hk : 1 ≤ κ * κ' * (1 + f.u) := by
    have : 1 ≤ κ * κ' := by nlinarith
    nlinarith
  induction K with
  | zero =>
    refine (V1Near.refl (N := N) (z := fun _ => 0) (M := 0) (by rw [l1_zero])).mono (by simpa using hk) (by simp)
      |>.congr (fun i _ => rfl) (fun i _ => by simp)
  | succ K ih =>
    have hp : 1 ≤ (1 + f.u) ^ K := one_le_pow₀ (by linarith)
    have hm : ∀ i < K + 1, 0 ≤ M i * M' i := fun i hi => mul_nonneg (hX i hi).nonneg (hH i hi).nonneg
    have hs : 0 ≤ ∑ i ∈ range K, M i * M' i := sum_nonneg fun i hi => hm i (by have := mem_range.mp hi; omega)
    have hsum := sum_range_succ (fun i => M i * M' i) K
    have hpp : (1 + f.u) ^ K ≤ (1 + f.u) ^ (K+1) := pow_le_pow_right₀ (by linarith) (by omega)
    have q0 : 0 ≤ κ * κ' * (1 + f.u) := by linarith
    have a1 := ih (fun i hi => hfl i (by omega)) (fun i hi => hfX i (by omega)) (fun i hi => hfH i (by omega)) (hA.fits_mono _ _ (by
      rw [hsum]
      exact mul_le_mul (mul_le_mul_of_nonneg_left hpp q0) (by linarith [hm K (by omega)]) hs (by positivity)) hf)
      (fun i hi => hX i (by omega)) (fun i hi => hH i (by omega))
    have a2 := (hX K (by omega)).mul hA (hfl K (by omega)) (hfX K (by omega)) (hfH K (by omega)) (hA.fits_mono _ _ (by
      rw [hsum]
      exact mul_le_mul (le_mul_of_one_le_right q0 (hp.trans hpp)) (by linarith) (hm K (by omega)) (by positivity)) hf) (hH K (by omega))
    have a3 := a1.add hA (by linarith [hfl K (by omega)]) (hA.fits_mono _ _ (le_of_eq (by rw [hsum]; ring)) hf)
      (a2.mono (κ' := κ * κ' * (1 + f.u) * (1 + f.u) ^ K) (by nlinarith) le_rfl)
    refine (a3.mono (le_of_eq ?_) (le_of_eq ?_)).congr (fun i _ => ?_) (fun i _ => ?_)
    · ring
    · rw [sum_range_succ]
    · rw [macs_succ]
    · rw [sum_range_succ]

/-! ## Inverse transforms of small spectra: every sample is small -/

/-- one number: relative error `κ - 1` at size `M`, and `w` times the absolute error that makes it `μ - 1` at size `φ` -/
structure CErr (f : Fp) (κ μ w M : ℝ) (z' z : ℂ) : Prop where
  err : ‖z' - z‖ ≤ (κ - 1) * M + (μ - κ) * (w * f.φ)
  bnd : ‖z‖ ≤ M

omit [Arith] in
theorem CErr.bnd' {κ μ w M : ℝ} {z' z : ℂ} (h : CErr f κ μ w M z' z) : ‖z'‖ ≤ κ * M + (μ - κ) * (w * f.φ) := by
  have h1 : ‖z'‖ ≤ ‖z' - z‖ + ‖z‖ := by have := norm_add_le (z' - z) z; simpa using this
  have h2 := h.err
  have h3 := h.bnd
  linarith

omit [Arith] in
theorem CErr.size (hG : f.Good) {κ μ w M : ℝ} {z' z : ℂ} (h : CErr f κ μ w M z' z) (hκ : 1 ≤ κ) (hμ : κ ≤ μ) (hw : 0 ≤ w) :
    ‖z'‖ ≤ μ * (M + w * f.φ) := by
  have h1 := h.bnd'
  have hM : 0 ≤ M := (norm_nonneg _).trans h.bnd
  have h2 : 0 ≤ w * f.φ := mul_nonneg hw hG.φ_nonneg
  nlinarith [mul_le_mul_of_nonneg_right hμ hM]

/-- rounding of the result -/
theorem CErr.round (hA : f.Acc) {κ μ w M : ℝ} {z' z r : ℂ} (hμ1 : 1 ≤ μ) (hw : 1 ≤ w)
    (h : CErr f κ μ w M z' z) (hr : ‖r - z'‖ ≤ f.v * ‖z'‖ + f.η) : CErr f (κ * (1 + f.v)) (μ * (1 + f.u)) w M r z := by
  have hv := hA.v_nonneg
  have hvu := hA.v_le
  have e0 := h.bnd'
  have e1 := mul_le_mul_of_nonneg_left e0 hv
  have e2 := h.err
  have e3 : ‖r - z‖ ≤ ‖r - z'‖ + ‖z' - z‖ := by have := norm_add_le (r - z') (z' - z); simpa using this
  have e4 := hA.η_le
  have hφ := hA.φ_nonneg
  have e5 : (f.u - f.v) * f.φ ≤ (f.u - f.v) * (μ * (w * f.φ)) := by
    refine mul_le_mul_of_nonneg_left ?_ (by linarith)
    have : 1 ≤ μ * w := by nlinarith
    nlinarith
  refine ⟨?_, h.bnd⟩
  have : (κ * (1 + f.v) - 1) * M + (μ * (1 + f.u) - κ * (1 + f.v)) * (w * f.φ) =
    (f.v * (κ * M + (μ - κ) * (w * f.φ)) + (f.u - f.v) * (μ * (w * f.φ))) + ((κ - 1) * M + (μ - κ) * (w * f.φ)) := by ring
  linarith

/-- multiplication by a twiddle factor -/
theorem CErr.tw (hA : f.Acc) {κ μ w M : ℝ} {b' b ω' ω : ℂ} (hκ : 1 ≤ κ) (hμ : κ ≤ μ) (hw : 1 ≤ w) (hω : ‖ω‖ = 1)
    (htw : ‖ω' - ω‖ ≤ f.τ) (hf : f.fits ((1 + f.τ) * (μ * (M + w * f.φ)))) (h : CErr f κ μ w M b' b) :
    CErr f (κ * (1 + f.v) * (1 + f.τ)) (μ * (1 + f.u) * (1 + f.τ)) w M (Arith.mul b' ω') (b * ω) := by
  have ht := hA.τ_nonneg
  have hv := hA.v_nonneg
  have hω' : ‖ω'‖ ≤ 1 + f.τ := by
    have := norm_add_le (ω' - ω) ω
    rw [sub_add_cancel, hω] at this
    linarith
  have hs := h.size hA.toGood hκ hμ (by linarith)
  have hfit : f.fits ‖b' * ω'‖ := by
    refine hA.fits_mono _ _ ?_ hf
    rw [norm_mul, mul_comm]
    exact mul_le_mul hω' hs (norm_nonneg _) (by linarith)
  have h1 : CErr f (κ * (1 + f.τ)) (μ * (1 + f.τ)) w M (b' * ω') (b * ω) := by
    refine ⟨?_, by rw [norm_mul, hω, mul_one]; exact h.bnd⟩
    have e1 : ‖b' * ω' - b * ω‖ ≤ ‖b' * (ω' - ω)‖ + ‖(b' - b) * ω‖ := by
      have := norm_add_le (b' * (ω' - ω)) ((b' - b) * ω)
      rwa [show b' * (ω' - ω) + (b' - b) * ω = b' * ω' - b * ω by ring] at this
    rw [norm_mul, norm_mul, hω, mul_one] at e1
    have e2 : ‖b'‖ * ‖ω' - ω‖ ≤ (κ * M + (μ - κ) * (w * f.φ)) * f.τ :=
      mul_le_mul h.bnd' htw (norm_nonneg _) ((norm_nonneg _).trans h.bnd')
    have e3 := h.err
    have : (κ * (1 + f.τ) - 1) * M + (μ * (1 + f.τ) - κ * (1 + f.τ)) * (w * f.φ) =
      (κ * M + (μ - κ) * (w * f.φ)) * f.τ + ((κ - 1) * M + (μ - κ) * (w * f.φ)) := by ring
    linarith
  have hfb : f.fits ‖b'‖ := by
    refine hA.fits_mono _ _ (hs.trans ?_) hf
    exact le_mul_of_one_le_left ((norm_nonneg _).trans hs) (by linarith)
  have h2 := h1.round hA (by nlinarith) hw (hA.mul _ _ hfb (hA.fits_mono _ _ hω' hA.fits_tw) hfit)
  rw [show κ * (1 + f.v) * (1 + f.τ) = κ * (1 + f.τ) * (1 + f.v) by ring,
    show μ * (1 + f.u) * (1 + f.τ) = μ * (1 + f.τ) * (1 + f.u) by ring]
  exact h2

omit [Arith] in
theorem CErr.mono (hG : f.Good) {κ μ κ' μ' w M : ℝ} {z' z : ℂ} (h : CErr f κ μ w M z' z) (hw : 0 ≤ w)
    (hκ : κ ≤ κ') (hμ : μ - κ ≤ μ' - κ') : CErr f κ' μ' w M z' z := by
  have hM : 0 ≤ M := (norm_nonneg _).trans h.bnd
  have h2 : 0 ≤ w * f.φ := mul_nonneg hw hG.φ_nonneg
  refine ⟨h.err.trans ?_, h.bnd⟩
  have e1 := mul_le_mul_of_nonneg_right (show κ - 1 ≤ κ' - 1 by linarith) hM
  have e2 := mul_le_mul_of_nonneg_right hμ h2
  linarith

/-- sum or difference -/
theorem CErr.op (hA : f.Acc) {κ μ M M' : ℝ} {a' a b' b : ℂ} {σ : ℂ} (hσ : ‖σ‖ = 1) {r : ℂ} (hμ1 : 1 ≤ μ)
    (h : CErr f κ μ 1 M a' a) (h' : CErr f κ μ 1 M' b' b) (hr : ‖r - (a' + σ * b')‖ ≤ f.v * ‖a' + σ * b'‖ + f.η) :
    CErr f (κ * (1 + f.v)) (μ * (1 + f.u)) 2 (M + M') r (a + σ * b) := by
  have h1 : CErr f κ μ 2 (M + M') (a' + σ * b') (a + σ * b) := by
    refine ⟨?_, (norm_add_le _ _).trans (add_le_add h.bnd (by rw [norm_mul, hσ, one_mul]; exact h'.bnd))⟩
    rw [show (a' + σ * b') - (a + σ * b) = (a' - a) + σ * (b' - b) by ring]
    refine (norm_add_le _ _).trans ?_
    rw [norm_mul, hσ, one_mul]
    have e1 := h.err
    have e2 := h'.err
    linarith
  exact h1.round hA hμ1 (by norm_num) hr

theorem CErr.half (hA : f.Acc) {κ μ M : ℝ} {z' z : ℂ} (hμ1 : 1 ≤ μ) (h : CErr f κ μ 2 M z' z) (hf : f.fits ‖z'‖) :
    CErr f (κ * (1 + f.v)) (μ * (1 + f.u)) 1 (M / 2) (Arith.half z') (z / 2) := by
  have n2 : ‖z / 2‖ = ‖z‖ / 2 := by simp
  have n3 : ‖z' / 2 - z / 2‖ = ‖z' - z‖ / 2 := by rw [← sub_div]; simp
  have h1 : CErr f κ μ 1 (M / 2) (z' / 2) (z / 2) := by
    refine ⟨?_, by rw [n2]; linarith [h.bnd]⟩
    rw [n3]
    have := h.err
    linarith
  refine h1.round hA hμ1 (by norm_num) (hA.half _ hf (hA.fits_mono _ _ ?_ hf))
  have n4 : ‖z' / 2‖ = ‖z'‖ / 2 := by simp
  rw [n4]
  linarith [norm_nonneg z']

/-- one sample of one inverse level -/
theorem CErr.ilev (hA : f.Acc) {κ μ : ℝ} (hκ : 1 ≤ κ) (hμ : κ ≤ μ) {z' z : ℕ → ℂ} {a : ℕ} (haL : a < f.L) (x : ℕ) {M M' : ℝ}
    (hf : f.fits (μ * lvl f.u f.τ * (M + M' + 2 * f.φ)))
    (h1 : CErr f κ μ 1 M (z' (low (2^a) x)) (z (low (2^a) x))) (h2 : CErr f κ μ 1 M' (z' (low (2^a) x + 2^a)) (z (low (2^a) x + 2^a))) :
    CErr f (κ * lvl f.v f.τ) (μ * lvl f.u f.τ) 1 ((M + M') / 2) (R.ilev (2^a) z' x) (Proofs.ilev (2^a) z x) := by
  have hu := hA.u_nonneg
  have hv := hA.v_nonneg
  have hvu := hA.v_le
  have ht := hA.τ_nonneg
  have hφ := hA.φ_nonneg
  have hpos : 0 < 2^a := by positivity
  have hM : 0 ≤ M := (norm_nonneg _).trans h1.bnd
  have hM' : 0 ≤ M' := (norm_nonneg _).trans h2.bnd
  have hω : ‖(omega (2 * 2^a))⁻¹ ^ (low (2^a) x % (2 * 2^a))‖ = 1 := by rw [norm_pow, norm_inv, norm_omega, inv_one, one_pow]
  have gu : 1 ≤ 1 + f.u := by linarith
  have gt : 1 ≤ 1 + f.τ := by linarith
  have hμ1 : 1 ≤ μ := hκ.trans hμ
  have eL : μ * lvl f.u f.τ = μ * (1 + f.u) * (1 + f.τ) * (1 + f.u) * (1 + f.u) := by unfold lvl; ring
  have eK : κ * lvl f.v f.τ = κ * (1 + f.v) * (1 + f.τ) * (1 + f.v) * (1 + f.v) := by unfold lvl; ring
  have p1 : μ * (1 + f.u) * (1 + f.τ) ≤ μ * (1 + f.u) * (1 + f.τ) * (1 + f.u) := le_mul_of_one_le_right (by positivity) gu
  have p2 : μ * (1 + f.u) * (1 + f.τ) * (1 + f.u) ≤ μ * lvl f.u f.τ := by rw [eL]; exact le_mul_of_one_le_right (by positivity) gu
  have t2 := h2.tw hA hκ hμ le_rfl hω (hA.twI a haL _ (low_mod hpos x)) (hA.fits_mono _ _ (by
    have q1 : (1 + f.τ) * μ ≤ μ * (1 + f.u) * (1 + f.τ) := by
      have : 0 ≤ f.u * ((1 + f.τ) * μ) := by positivity
      linarith
    rw [← mul_assoc]
    exact mul_le_mul (q1.trans (p1.trans p2)) (by linarith) (by linarith)
      (mul_nonneg (by linarith) (by linarith [one_le_lvl' hu ht]))) hf)
  have hk2 : κ ≤ κ * (1 + f.v) * (1 + f.τ) := by
    have : 1 ≤ (1 + f.v) * (1 + f.τ) := by nlinarith [mul_nonneg hv ht]
    nlinarith
  have hk3 : μ - κ ≤ μ * (1 + f.u) * (1 + f.τ) - κ * (1 + f.v) * (1 + f.τ) := by
    have g1 : 1 ≤ (1 + f.v) * (1 + f.τ) := by nlinarith [mul_nonneg hv ht]
    have g2 : μ * ((1 + f.v) * (1 + f.τ)) ≤ μ * ((1 + f.u) * (1 + f.τ)) :=
      mul_le_mul_of_nonneg_left (mul_le_mul_of_nonneg_right (by linarith) (by linarith)) (by linarith)
    nlinarith [mul_le_mul_of_nonneg_left g1 (sub_nonneg.mpr hμ)]
  have t1 := h1.mono hA.toGood (by norm_num) hk2 hk3
  have hμt : κ * (1 + f.v) * (1 + f.τ) ≤ μ * (1 + f.u) * (1 + f.τ) := by linarith
  have hkt1 : 1 ≤ κ * (1 + f.v) * (1 + f.τ) := hκ.trans hk2
  have hμt1 : 1 ≤ μ * (1 + f.u) * (1 + f.τ) := hkt1.trans hμt
  have s1 := t1.size hA.toGood hkt1 hμt (by norm_num)
  have s2 := t2.size hA.toGood hkt1 hμt (by norm_num)
  have hsum : μ * (1 + f.u) * (1 + f.τ) * (M + 1 * f.φ) + μ * (1 + f.u) * (1 + f.τ) * (M' + 1 * f.φ) ≤
      μ * (1 + f.u) * (1 + f.τ) * (1 + f.u) * (M + M' + 2 * f.φ) := by
    have : 0 ≤ f.u * (μ * (1 + f.u) * (1 + f.τ) * (M + M' + 2 * f.φ)) := by positivity
    linarith
  have hsum2 : μ * (1 + f.u) * (1 + f.τ) * (1 + f.u) * (M + M' + 2 * f.φ) ≤ μ * lvl f.u f.τ * (M + M' + 2 * f.φ) :=
    mul_le_mul_of_nonneg_right p2 (by positivity)
  have hm1 : 1 ≤ μ * (1 + f.u) * (1 + f.τ) * (1 + f.u) := hμt1.trans p1
  have hkm : κ * (1 + f.v) * (1 + f.τ) * (1 + f.v) ≤ μ * (1 + f.u) * (1 + f.τ) * (1 + f.u) :=
    mul_le_mul hμt (by linarith) (by linarith) (by linarith)
  have hk1 : 1 ≤ κ * (1 + f.v) * (1 + f.τ) * (1 + f.v) := hkt1.trans (le_mul_of_one_le_right (by linarith) (by linarith))
  have fin : ∀ {r q : ℂ}, CErr f (κ * (1 + f.v) * (1 + f.τ) * (1 + f.v)) (μ * (1 + f.u) * (1 + f.τ) * (1 + f.u)) 2 (M + M') r q →
      CErr f (κ * lvl f.v f.τ) (μ * lvl f.u f.τ) 1 ((M + M') / 2) (Arith.half r) (q / 2) := by
    intro r q hr
    rw [eL, eK]
    refine hr.half hA hm1 (hA.fits_mono _ _ ?_ hf)
    exact (hr.size hA.toGood hk1 hkm (by norm_num)).trans hsum2
  have hc : 0 ≤ μ * (1 + f.u) * (1 + f.τ) := by linarith
  have ho1 := hA.fits_mono _ _ (s1.trans (((le_add_of_nonneg_right (by positivity)).trans hsum).trans hsum2)) hf
  have ho2 := hA.fits_mono _ _ (s2.trans (((le_add_of_nonneg_left (by positivity)).trans hsum).trans hsum2)) hf
  unfold R.ilev Proofs.ilev
  split
  · have hfit : f.fits ‖z' (low (2^a) x) + Arith.mul (z' (low (2^a) x + 2^a)) (Arith.twI (2 * 2^a) (low (2^a) x % (2 * 2^a)))‖ :=
      hA.fits_mono _ _ ((norm_add_le _ _).trans (by linarith)) hf
    have := fin (CErr.op hA (σ := 1) (by simp) hμt1 t1 t2 (by simpa using hA.add _ _ ho1 ho2 hfit))
    simpa [div_eq_mul_inv] using this
  · have hfit : f.fits ‖z' (low (2^a) x) - Arith.mul (z' (low (2^a) x + 2^a)) (Arith.twI (2 * 2^a) (low (2^a) x % (2 * 2^a)))‖ :=
      hA.fits_mono _ _ ((norm_sub_le _ _).trans (by linarith)) hf
    have := fin (CErr.op hA (σ := -1) (by simp) hμt1 t1 t2 (by simpa [← sub_eq_add_neg] using hA.sub _ _ ho1 ho2 hfit))
    simpa [div_eq_mul_inv, sub_eq_add_neg] using this

/-- mean magnitude of the block of `2^m` entries that contains `x` -/
noncomputable def blkMean (m : ℕ) (z : ℕ → ℂ) (x : ℕ) : ℝ := (∑ j ∈ range (2^m), ‖z (x / 2^m * 2^m + j)‖) / 2^m

omit [Arith] in
theorem blkMean_succ (m : ℕ) (z : ℕ → ℂ) (x : ℕ) :
    (blkMean m z (low (2^m) x) + blkMean m z (low (2^m) x + 2^m)) / 2 = blkMean (m+1) z x := by
  have hpos : 0 < 2^m := by positivity
  have hl : low (2^m) x / 2^m * 2^m = x / 2^(m+1) * 2^(m+1) ∧ (low (2^m) x + 2^m) / 2^m * 2^m = x / 2^(m+1) * 2^(m+1) + 2^m := by
    have h1 : low (2^m) x / 2^m = 2 * (x / 2^(m+1)) := by
      have hx := Nat.div_add_mod x (2 * 2^m)
      have hlm := low_mod hpos x
      have hlow : low (2^m) x = (x / (2 * 2^m)) * 2 * 2^m + low (2^m) x % (2 * 2^m) := by
        have h2 := Nat.div_add_mod (low (2^m) x) (2 * 2^m)
        have h3 : low (2^m) x / (2 * 2^m) = x / (2 * 2^m) := by
          unfold low
          split
          · rfl
          · next hge =>
            have hlt := Nat.mod_lt x (show 0 < 2 * 2^m by positivity)
            apply Nat.div_eq_of_lt_le
            · rw [mul_comm]; omega
            · rw [Nat.add_mul, one_mul, mul_comm (x / (2 * 2^m))]; omega
        rw [h3] at h2
        rw [← h2]
        congr 1
        · ring
        · rw [h2]
      rw [hlow, Nat.add_comm, Nat.add_mul_div_right _ _ hpos, Nat.div_eq_of_lt hlm, pow_succ', zero_add, mul_comm]
    refine ⟨by rw [h1, pow_succ]; ring, ?_⟩
    rw [Nat.add_div_right _ hpos, h1, pow_succ]; ring
  unfold blkMean
  rw [hl.1, hl.2, pow_succ 2 m, mul_two, sum_range_add]
  have hp : (2:ℝ)^m ≠ 0 := by positivity
  simp only [add_assoc]
  rw [pow_succ]
  field_simp

omit [Arith] in
/-- a block of entries is not more than all of them -/
theorem blkMean_le {m n : ℕ} (hm : m ≤ n) (z : ℕ → ℂ) {x : ℕ} (hx : x < 2^n) : blkMean m z x * 2^m ≤ l1 (2^n) z := by
  have hp : (2:ℝ)^m ≠ 0 := by positivity
  unfold blkMean l1
  rw [div_mul_cancel₀ _ hp]
  have hN : 2^n = 2^(n-m) * 2^m := by rw [← pow_add]; congr 1; omega
  have hq : x / 2^m < 2^(n-m) := by rw [Nat.div_lt_iff_lt_mul (by positivity), ← hN]; exact hx
  rw [hN, sum_range_mul]
  exact single_le_sum (f := fun q => ∑ j ∈ range (2^m), ‖z (q * 2^m + j)‖) (fun _ _ => sum_nonneg fun _ _ => norm_nonneg _) (mem_range.mpr hq)

theorem up_pt (hA : f.Acc) {n : ℕ} {S : ℝ} (z : ℕ → ℂ) (hS : l1 (2^n) z ≤ S) {m : ℕ} (hmn : m ≤ n) (hmL : m ≤ f.L)
    (hf : f.fits (lvl f.u f.τ ^ m * (2 * (S + f.φ)))) {x : ℕ} (hx : x < 2^n) :
    CErr f (lvl f.v f.τ ^ m) (lvl f.u f.τ ^ m) 1 (blkMean m z x) (R.up m z x) (Proofs.up m z x) := by
  have hu := hA.u_nonneg
  have ht := hA.τ_nonneg
  have hlv := one_le_lvl' hA.v_nonneg ht
  have hlu := one_le_lvl' hu ht
  have hvu : lvl f.v f.τ ≤ lvl f.u f.τ := by
    unfold lvl
    exact mul_le_mul_of_nonneg_right (pow_le_pow_left₀ (by linarith [hA.v_nonneg]) (by linarith [hA.v_le]) 3) (by linarith)
  have hS0 : 0 ≤ S := (l1_nonneg _ _).trans hS
  have hφ := hA.φ_nonneg
  induction m generalizing x with
  | zero => exact ⟨by simp [R.up, Proofs.up], by simp [R.up, Proofs.up, blkMean]⟩
  | succ m ih =>
    have hpos : 0 < 2^m := by positivity
    have hlow : low (2^m) x < 2^n ∧ low (2^m) x + 2^m < 2^n := by
      obtain ⟨G, hG⟩ : ∃ G, (2:ℕ)^n = G * (2 * 2^m) := ⟨2^(n-1-m), by rw [← pow_succ', ← pow_add]; congr 1; omega⟩
      have h1 := Nat.div_add_mod x (2 * 2^m)
      have h2 := Nat.mod_lt x (show 0 < 2 * 2^m by positivity)
      have h3 : x / (2 * 2^m) < G := by rw [Nat.div_lt_iff_lt_mul (by positivity), ← hG]; exact hx
      have h4 : (x / (2 * 2^m) + 1) * (2 * 2^m) ≤ 2^n := by rw [hG]; exact Nat.mul_le_mul_right _ h3
      have h5 : (x / (2 * 2^m) + 1) * (2 * 2^m) = 2 * 2^m * (x / (2 * 2^m)) + 2 * 2^m := by ring
      unfold low
      split <;> constructor <;> omega
    have hf' : f.fits (lvl f.u f.τ ^ m * (2 * (S + f.φ))) :=
      hA.fits_mono _ _ (mul_le_mul_of_nonneg_right (pow_le_pow_right₀ hlu (by omega)) (by positivity)) hf
    have i1 := ih (by omega) (by omega) hf' hlow.1
    have i2 := ih (by omega) (by omega) hf' hlow.2
    have hsm : ∀ y < 2^n, blkMean m z y ≤ S := by
      intro y hy
      have h1 := blkMean_le (show m ≤ n by omega) z hy
      have h2 : 0 ≤ blkMean m z y := by unfold blkMean; exact div_nonneg (sum_nonneg fun _ _ => norm_nonneg _) (by positivity)
      have h3 : (1:ℝ) ≤ 2^m := one_le_pow₀ (by norm_num)
      nlinarith
    rw [← blkMean_succ, pow_succ (lvl f.v f.τ), pow_succ (lvl f.u f.τ)]
    refine CErr.ilev hA (one_le_pow₀ hlv) (pow_le_pow_left₀ (by linarith) hvu m) (by omega) x (hA.fits_mono _ _ ?_ hf) i1 i2
    rw [← pow_succ]
    exact mul_le_mul_of_nonneg_left (by linarith [hsm _ hlow.1, hsm _ hlow.2]) (by positivity)

omit [Arith] in
theorem up_sub (m : ℕ) (a b : ℕ → ℂ) : Proofs.up m (fun i => a i - b i) = fun i => Proofs.up m a i - Proofs.up m b i := by
  induction m with
  | zero => rfl
  | succ m ih =>
    show Proofs.ilev (2^m) (Proofs.up m fun i => a i - b i) = fun i => Proofs.ilev (2^m) (Proofs.up m a) i - Proofs.ilev (2^m) (Proofs.up m b) i
    rw [ih]
    funext i
    unfold Proofs.ilev; split <;> ring

omit [Arith] in
/-- the exact inverse transform does not exceed the mean magnitude -/
theorem up_mean (m : ℕ) (z : ℕ → ℂ) (x : ℕ) : ‖Proofs.up m z x‖ ≤ blkMean m z x := by
  induction m generalizing x with
  | zero => simp [Proofs.up, blkMean]
  | succ m ih =>
    rw [← blkMean_succ]
    have h1 := ih (low (2^m) x)
    have h2 := ih (low (2^m) x + 2^m)
    have hω : ‖(omega (2 * 2^m))⁻¹ ^ (low (2^m) x % (2 * 2^m))‖ = 1 := by rw [norm_pow, norm_inv, norm_omega, inv_one, one_pow]
    show ‖Proofs.ilev (2^m) (Proofs.up m z) x‖ ≤ _
    unfold Proofs.ilev
    split
    · rw [norm_mul]
      have := norm_add_le (Proofs.up m z (low (2^m) x)) (Proofs.up m z (low (2^m) x + 2^m) * (omega (2 * 2^m))⁻¹ ^ (low (2^m) x % (2 * 2^m)))
      rw [norm_mul, hω, mul_one] at this
      have e : ‖(1/2 : ℂ)‖ = 1/2 := by norm_num
      first | rw [e] | simp only [e]
      linarith
    · rw [norm_mul]
      have := norm_sub_le (Proofs.up m z (low (2^m) x)) (Proofs.up m z (low (2^m) x + 2^m) * (omega (2 * 2^m))⁻¹ ^ (low (2^m) x % (2 * 2^m)))
      rw [norm_mul, hω, mul_one] at this
      have e : ‖(1/2 : ℂ)‖ = 1/2 := by norm_num
      first | rw [e] | simp only [e]
      linarith

/-- every sample of the inverse transform -/
theorem V1Near.up (hA : f.Acc) {n : ℕ} (hL : n ≤ f.L) {κ M : ℝ} {z' z : ℕ → ℂ} (hfl : 2^n * f.φ ≤ M)
    (hf : f.fits (4 * (κ * lvl f.u f.τ ^ n * M))) (h : V1Near (2^n) κ M z' z) {i : ℕ}
    (hi : i < 2^n) : CNear (κ * lvl f.u f.τ ^ n) (M / 2^n) (R.up n z' i) (Proofs.up n z i) := by
  have hmean : ∀ y : ℕ → ℂ, blkMean n y i = l1 (2^n) y / 2^n := by
    intro y
    unfold blkMean l1
    rw [Nat.div_eq_of_lt hi]
    simp
  have hp : (0:ℝ) < 2^n := by positivity
  have hp1 : (1:ℝ) ≤ 2^n := one_le_pow₀ (by norm_num)
  have hk := h.one
  have hM := h.nonneg
  have hφ := hA.φ_nonneg
  have hlv := one_le_lvl' hA.v_nonneg hA.τ_nonneg
  have hlu := one_le_lvl' hA.u_nonneg hA.τ_nonneg
  have hvu : lvl f.v f.τ ≤ lvl f.u f.τ := by
    unfold lvl
    exact mul_le_mul_of_nonneg_right (pow_le_pow_left₀ (by linarith [hA.v_nonneg]) (by linarith [hA.v_le]) 3) (by linarith [hA.τ_nonneg])
  have hvun : lvl f.v f.τ ^ n ≤ lvl f.u f.τ ^ n := pow_le_pow_left₀ (by linarith) hvu n
  have hlun : 1 ≤ lvl f.u f.τ ^ n := one_le_pow₀ hlu
  have hφM : f.φ ≤ M := by nlinarith
  have hφk : f.φ ≤ κ * M := by nlinarith
  have h1 := up_pt hA z' h.bnd' le_rfl hL (hA.fits_mono _ _ (by
    have : lvl f.u f.τ ^ n * (2 * (κ * M + f.φ)) ≤ lvl f.u f.τ ^ n * (2 * (κ * M + κ * M)) :=
      mul_le_mul_of_nonneg_left (by linarith) (by linarith)
    refine this.trans (le_of_eq ?_)
    ring) hf) hi
  have h2 := up_mean n (fun i => z' i - z i) i
  have h3 := up_mean n z i
  rw [hmean] at h1 h2 h3
  rw [up_sub] at h2
  refine ⟨?_, h3.trans (div_le_div_of_nonneg_right h.bnd hp.le)⟩
  have b1 : l1 (2^n) z' / 2^n ≤ κ * M / 2^n := div_le_div_of_nonneg_right h.bnd' hp.le
  have b2 : 1 * f.φ ≤ κ * M / 2^n := by
    rw [one_mul, le_div_iff₀ hp]
    nlinarith
  have hl1 : 1 ≤ lvl f.v f.τ ^ n := one_le_pow₀ hlv
  have e1 := mul_le_mul_of_nonneg_left b1 (show 0 ≤ lvl f.v f.τ ^ n - 1 by linarith)
  have e1' := mul_le_mul_of_nonneg_left b2 (show 0 ≤ lvl f.u f.τ ^ n - lvl f.v f.τ ^ n by linarith)
  have e2 : l1 (2^n) (fun i => z' i - z i) / 2^n ≤ (κ - 1) * M / 2^n := div_le_div_of_nonneg_right h.err hp.le
  have e3 : ‖R.up n z' i - Proofs.up n z i‖ ≤ ‖R.up n z' i - Proofs.up n z' i‖ + ‖Proofs.up n z' i - Proofs.up n z i‖ := by
    have := norm_add_le (R.up n z' i - Proofs.up n z' i) (Proofs.up n z' i - Proofs.up n z i); simpa using this
  have e4 := h1.err
  have : (κ * lvl f.u f.τ ^ n - 1) * (M / 2^n) = ((lvl f.v f.τ ^ n - 1) * (κ * M / 2^n) + (lvl f.u f.τ ^ n - lvl f.v f.τ ^ n) * (κ * M / 2^n)) + (κ - 1) * M / 2^n := by ring
  linarith

end Zones.Proofs.R
