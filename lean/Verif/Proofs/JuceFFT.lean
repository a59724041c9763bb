import Verif.Spec.JuceFFT
import Verif.Proofs.UPC

/-! # The contract of `juce::dsp::FFT` can be met -/

open Finset Zones.Spec Zones.Model

namespace Zones.Proofs

theorem star_omega (N : ℕ) : star (omega N) = (omega N)⁻¹ := by
  unfold omega
  rw [← Complex.exp_neg, Complex.star_def, ← Complex.exp_conj]
  congr 1
  have h2 : (starRingEnd ℂ) 2 = 2 := Complex.conj_ofNat 2
  simp [Complex.conj_ofReal, h2]
  ring

theorem dft_real_symm {N : ℕ} (x : ℕ → ℝ) {k : ℕ} (hk : k ≤ N) (hN : 0 < N) :
    dft N (fun j => (x j : ℂ)) (N - k) = star (dft N (fun j => (x j : ℂ)) k) := by
  unfold dft
  rw [star_sum]
  refine sum_congr rfl fun j _ => ?_
  rw [star_mul', star_pow, star_omega]
  have h1 : star ((x j : ℝ) : ℂ) = (x j : ℂ) := by rw [Complex.star_def, Complex.conj_ofReal]
  rw [h1]
  congr 1
  rw [inv_pow]
  apply eq_inv_of_mul_eq_one_left
  rw [← pow_add, ← Nat.mul_add,
    Nat.sub_add_cancel hk, mul_comm, pow_mul, omega_pow_self N hN, one_pow]

theorem dft_real_inj {o : ℕ} (ho : 0 < o) {y z : ℕ → ℝ}
    (h : ∀ k ≤ 2^o / 2, dft (2^o) (fun j => (y j : ℂ)) k = dft (2^o) (fun j => (z j : ℂ)) k) :
    ∀ n < 2^o, y n = z n := by
  have hpos : 0 < 2^o := by positivity
  have hNe : 2 * (2^o / 2) = 2^o := by
    obtain ⟨q, rfl⟩ : ∃ q, o = q + 1 := ⟨o - 1, by omega⟩
    rw [pow_succ]; omega
  have hall : ∀ k < 2^o, dft (2^o) (fun j => (y j : ℂ)) k = dft (2^o) (fun j => (z j : ℂ)) k := by
    intro k hk
    by_cases hk2 : k ≤ 2^o / 2
    · exact h k hk2
    · have e : k = 2^o - (2^o - k) := by omega
      rw [e, dft_real_symm y (by omega) hpos, dft_real_symm z (by omega) hpos, h _ (by omega)]
  intro n hn
  have hd : ∀ k < 2^o, down o (fun j => (y j : ℂ)) k = down o (fun j => (z j : ℂ)) k := by
    intro k hk
    rw [down_dft _ _ _ hk, down_dft _ _ _ hk]
    exact hall _ (bitrev_lt o k)
  have := up_congrOn (m := o) (S := InBlk o 0) (fun a ha => closed_block ha)
    (d := down o (fun j => (y j : ℂ))) (d' := down o (fun j => (z j : ℂ)))
    (fun x hx => hd x (by have := hx.2; omega)) n ⟨by omega, by omega⟩
  rw [up_down, up_down] at this
  exact_mod_cast this

open Classical in
/-- a transform that meets the contract -/
noncomputable def referenceFFT : RealFFT where
  fwd o d i := if i % 2 = 0 then (dft (2^o) (fun j => (d j : ℂ)) (i/2)).re else (dft (2^o) (fun j => (d j : ℂ)) (i/2)).im
  inv o d n := if h : ∃ y : ℕ → ℝ, ∀ k ≤ 2^o / 2, (⟨d (2*k), d (2*k+1)⟩ : ℂ) = dft (2^o) (fun j => (y j : ℂ)) k
    then Classical.choose h n else 0

theorem referenceFFT_lawful : Lawful referenceFFT where
  fwd o _ d k _ := by
    simp only [referenceFFT]
    rw [if_pos (by omega), if_neg (by omega), show 2 * k / 2 = k by omega, show (2*k+1)/2 = k by omega]
  inv o ho d y hy n hn := by
    have hex : ∃ y : ℕ → ℝ, ∀ k ≤ 2^o / 2, (⟨d (2*k), d (2*k+1)⟩ : ℂ) = dft (2^o) (fun j => (y j : ℂ)) k := ⟨y, hy⟩
    simp only [referenceFFT]
    rw [dif_pos hex]
    exact dft_real_inj ho (fun k hk => by rw [← hy k hk, ← Classical.choose_spec hex k hk]) n hn

end Zones.Proofs
