import Verif.Proofs.RBound
import Verif.Spec.FloatRange

/-! # Kinds of arithmetic: without and with a limited range of exponents -/

open Finset Zones.Spec Zones.Model

namespace Zones.Proofs.R

/-- no underflow, no overflow -/
def Fp.ideal (u τ ε : ℝ) (L : ℕ) : Fp where
  u := u
  v := u
  η := 0
  φ := 0
  θ := 0
  τ := τ
  ε := ε
  L := L
  fits _ := True
  lev X := 0 ≤ X

/-- results up to `Ω`, levels from `θ` to `Xm` -/
def Fp.within (u v η φ θ τ ε Ω Xm : ℝ) (L : ℕ) : Fp where
  u := u
  v := v
  η := η
  φ := φ
  θ := θ
  τ := τ
  ε := ε
  L := L
  fits r := r ≤ Ω
  lev X := θ ≤ X ∧ X ≤ Xm

variable [Arith]

theorem zeroLaws {u τ : ℝ} {L : ℕ} (hA : Accurate u τ L) : ZeroLaws where
  addF := by have := hA.addF 0 0; simpa using this
  add := by have := hA.add 0 0; simpa using this
  sub := by have := hA.sub 0 0; simpa using this
  mul z := by have := hA.mul 0 z; simpa using this
  half := by have := hA.half 0; simpa using this

theorem ideal_acc {u τ ε : ℝ} {L : ℕ} (hA : Accurate u τ L) (hε : 0 ≤ ε) : (Fp.ideal u τ ε L).Acc where
  v_nonneg := hA.u_nonneg
  v_le := le_rfl
  η_nonneg := le_rfl
  η_le := by simp [Fp.ideal]
  φ_nonneg := le_rfl
  θ_nonneg := le_rfl
  φθ := by simp [Fp.ideal]
  φθ2 := by simp [Fp.ideal]
  τ_nonneg := hA.τ_nonneg
  ε_nonneg := hε
  fits_mono := fun _ _ _ _ => trivial
  lev_ge := fun _ h => h
  addF a b _ _ _ := (hA.addF a b).trans (le_of_eq (add_zero _).symm)
  add a b _ _ _ := (hA.add a b).trans (le_of_eq (add_zero _).symm)
  sub a b _ _ _ := (hA.sub a b).trans (le_of_eq (add_zero _).symm)
  mul a b _ _ _ := (hA.mul a b).trans (le_of_eq (add_zero _).symm)
  half a _ _ := (hA.half a).trans (le_of_eq (add_zero _).symm)
  twF := hA.twF
  twI := hA.twI
  fits_tw := trivial
  zero := have := zeroLaws hA; inferInstance
  mul_zero z _ := (zeroLaws hA).mul z

omit [Arith] in
theorem ideal_fft {u τ ε : ℝ} {L : ℕ} {F : RealFFT} (hF : Approx F ε) : (Fp.ideal u τ ε L).Fft F where
  fwd o ho d M hM _ _ := (hF.fwd o ho d).trans
    (mul_le_mul_of_nonneg_left (mul_le_mul_of_nonneg_left hM (Real.sqrt_nonneg _)) hF.nonneg)
  inv o ho d M hM _ _ n hn := (hF.inv o ho d n hn).trans
    (mul_le_mul_of_nonneg_left (mul_le_mul_of_nonneg_left hM (by positivity)) hF.nonneg)

theorem within_acc {u v η φ θ τ ε Ω Xm : ℝ} {L : ℕ} (hA : AccurateIn v η Ω τ L) (hε : 0 ≤ ε) (hv : v ≤ u) (hη : η ≤ (u - v) * φ)
    (hφ : 0 ≤ φ) (hφθ : 2 * φ ≤ θ) (hφθ2 : φ ≤ θ * θ) : (Fp.within u v η φ θ τ ε Ω Xm L).Acc where
  v_nonneg := hA.v_nonneg
  v_le := hv
  η_nonneg := hA.η_nonneg
  η_le := hη
  φ_nonneg := hφ
  θ_nonneg := by show 0 ≤ θ; linarith
  φθ := hφθ
  φθ2 := hφθ2
  τ_nonneg := hA.τ_nonneg
  ε_nonneg := hε
  fits_mono := fun _ _ h h' => le_trans h h'
  lev_ge := fun _ h => h.1
  addF := hA.addF
  add := hA.add
  sub := hA.sub
  mul := hA.mul
  half a h _ := hA.half a h
  twF := hA.twF
  twI := hA.twI
  fits_tw := hA.τ_le
  zero := ⟨hA.addF_zero, hA.add_zero, hA.sub_zero, hA.twF_zero, hA.twI_zero, hA.half_zero⟩
  mul_zero := hA.mul_zero

omit [Arith] in
theorem within_fft {u v η φ θ τ ε Ω Xm : ℝ} {L : ℕ} {F : RealFFT} (hF : ApproxIn F ε φ Ω) :
    (Fp.within u v η φ θ τ ε Ω Xm L).Fft F where
  fwd o ho d M hM hφ hr := by
    have hε := hF.nonneg
    have h1 : max (√(2 ^ o) * φ) (l2 (2 ^ o) (fun j => (d j : ℂ))) ≤ M := max_le hφ hM
    have h2 := mul_le_mul_of_nonneg_left h1 (Real.sqrt_nonneg (2 ^ o))
    have h3 := mul_le_mul_of_nonneg_left h2 (show 0 ≤ 1 + ε by linarith)
    exact (hF.fwd o ho d _ rfl (h3.trans hr)).trans (mul_le_mul_of_nonneg_left h2 hε)
  inv o ho d M hM hφ hr n hn := by
    have hε := hF.nonneg
    have h1 : max (2 ^ o * φ) (l1 (2 ^ o / 2 + 1) (bin d)) ≤ M := max_le hφ hM
    have h3 := mul_le_mul_of_nonneg_left h1 (show 0 ≤ 1 + ε by linarith)
    exact (hF.inv o ho d _ rfl (h3.trans hr) n hn).trans
      (mul_le_mul_of_nonneg_left (mul_le_mul_of_nonneg_left h1 (by positivity)) hε)

end Zones.Proofs.R
