import Verif.Proofs.RBound

/-! # Rounding errors: the numbers in a convolver stay in range -/

open Finset Zones.Spec Zones.Model

namespace Zones.Proofs.R

variable {f : Fp}

theorem tfits_of (hg : f.Good) {G W Xm : ℝ} {m K L : ℕ} {h : ℕ → ℝ} (hL : m + 1 ≤ L) (hlev : ∀ X, f.lev X → X ≤ Xm) (hX : 1 ≤ Xm)
    (hG1 : lvl f.u f.τ ^ (m+1) ≤ G) (hG2 : tdK f.u f.τ (m+1) K ≤ G)
    (hw : 2 * (√(2 * 2^m : ℕ) * ∑ i ∈ range K, pnF f.θ (2^m) h i) ≤ W)
    (hfit : ∀ r, r ≤ G * (2^(L+1) * (Xm * (1 + W))) → f.fits r) : TFits f (m+1) (2^m) K h := by
  have hu := hg.u_nonneg
  have hτ := hg.τ_nonneg
  have hS0 : 0 ≤ ∑ i ∈ range K, pnF f.θ (2^m) h i := sum_nonneg fun _ _ => pnF_nonneg _ _ _ _
  have hs0 : 0 ≤ √((2 * 2^m : ℕ) : ℝ) := Real.sqrt_nonneg _
  have hq0 : 0 ≤ √((2^m : ℕ) : ℝ) := Real.sqrt_nonneg _
  have hqs : √((2^m : ℕ) : ℝ) ≤ √((2 * 2^m : ℕ) : ℝ) := Real.sqrt_le_sqrt (by exact_mod_cast (by omega : 2^m ≤ 2 * 2^m))
  have hss : √((2 * 2^m : ℕ) : ℝ) * √((2 * 2^m : ℕ) : ℝ) = 2 ^ (m+1) := by
    rw [Real.mul_self_sqrt (Nat.cast_nonneg _)]; push_cast; ring
  have hs2 : √2 ^ (m+1) = √((2 * 2^m : ℕ) : ℝ) := by rw [sqrt_two_pow, pow_succ']; push_cast; rfl
  have hpow : (2:ℝ) ^ (m+1) ≤ 2 ^ L := pow_le_pow_right₀ (by norm_num) hL
  have h1 : (1:ℝ) ≤ 2 ^ L := one_le_pow₀ (by norm_num)
  have hlv : 0 ≤ lvl f.u f.τ ^ (m+1) := pow_nonneg (by unfold lvl; positivity) _
  have htd : 0 ≤ tdK f.u f.τ (m+1) K := by unfold tdK lvl; positivity
  have hG0 : 0 ≤ G := hlv.trans hG1
  have hLp : (2:ℝ) ^ (L+1) = 2 * 2 ^ L := pow_succ' _ _
  have hW0 : 0 ≤ W := le_trans (by positivity) hw
  refine ⟨fun X hl => hfit _ ?_, fun i hi => hfit _ ?_, fun X hl => hfit _ ?_⟩
  · have hX0 : 0 ≤ X := hg.lev_nonneg hl
    have hXm := hlev X hl
    refine mul_le_mul hG1 ?_ (by positivity) hG0
    rw [hs2, ← mul_assoc]
    have : √((2 * 2^m : ℕ) : ℝ) * √((2^m : ℕ) : ℝ) ≤ 2 ^ (L+1) := by
      have := mul_le_mul_of_nonneg_left hqs hs0
      rw [hss] at this
      linarith
    refine mul_le_mul this ?_ hX0 (by positivity)
    nlinarith
  · have h2 : pnF f.θ (2^m) h i ≤ ∑ i ∈ range K, pnF f.θ (2^m) h i :=
      single_le_sum (f := fun i => pnF f.θ (2^m) h i) (fun _ _ => pnF_nonneg _ _ _ _) (mem_range.mpr hi)
    have h0 := pnF_nonneg f.θ (2^m) h i
    refine mul_le_mul hG1 ?_ (by positivity) hG0
    rw [hs2]
    have h3 := mul_le_mul_of_nonneg_left h2 hs0
    have h4 : 1 + W ≤ Xm * (1 + W) := by nlinarith
    have h5 : Xm * (1 + W) ≤ 2 ^ (L+1) * (Xm * (1 + W)) := le_mul_of_one_le_left (by positivity) (by linarith)
    linarith
  · have hX0 : 0 ≤ X := hg.lev_nonneg hl
    have hXm := hlev X hl
    rw [mul_left_comm]
    refine mul_le_mul hG2 ?_ (by positivity) hG0
    have h2 : √((2^m : ℕ) : ℝ) * X * ∑ i ∈ range K, pnF f.θ (2^m) h i ≤ Xm * (W / 2) := by
      have h3 : √((2^m : ℕ) : ℝ) * ∑ i ∈ range K, pnF f.θ (2^m) h i ≤ W / 2 := by
        have := mul_le_mul_of_nonneg_right hqs hS0
        linarith
      have := mul_le_mul hXm h3 (by positivity) (by linarith)
      linarith
    have h3 : 2 ^ (m+1) * (√((2^m : ℕ) : ℝ) * X * ∑ i ∈ range K, pnF f.θ (2^m) h i) ≤ 2 ^ L * (Xm * (W / 2)) :=
      mul_le_mul hpow h2 (by positivity) (by positivity)
    rw [hLp]
    have h4 : 0 ≤ 2 ^ L * Xm := by positivity
    have e1 : 2 * 2 ^ L * (Xm * (1 + W)) = 2 * (2 ^ L * Xm) + 4 * (2 ^ L * (Xm * (W / 2))) := by ring
    linarith

theorem ufits_of (hg : f.Good) {G W Xm : ℝ} {b nch L : ℕ} {seg : Buf} (hL : 2 * 2^b ≤ 2^L) (hlev : ∀ X, f.lev X → X ≤ Xm)
    (hX : 1 ≤ Xm) (hG1 : 1 + f.ε ≤ G) (hG2 : upK f.u f.ε (segK (2^b) seg) ≤ G)
    (hw : ∀ ch < nch, 2 * (√(2 * 2^b : ℕ) * ∑ i ∈ range (segK (2^b) seg), pnF f.θ (2^b) (zext seg (ch % seg.ch)) i) ≤ W) (hW0 : 0 ≤ W)
    (hfit : ∀ r, r ≤ G * (2^(L+1) * (Xm * (1 + W))) → f.fits r) : UFits f (uPar (2^b) nch seg) := by
  have hu := hg.u_nonneg
  have hε := hg.ε_nonneg
  have hN : (uPar (2^b) nch seg).N ≤ 2 * 2^b := fftN_le
  have hNs : √((uPar (2^b) nch seg).N : ℝ) ≤ √((2 * 2^b : ℕ) : ℝ) := Real.sqrt_le_sqrt (by exact_mod_cast hN)
  have hNL : ((uPar (2^b) nch seg).N : ℝ) ≤ 2 ^ L := by exact_mod_cast hN.trans hL
  have h1 : (1:ℝ) ≤ 2 ^ L := one_le_pow₀ (by norm_num)
  have hG0 : 0 ≤ G := le_trans (by linarith) hG1
  have hLp : (2:ℝ) ^ (L+1) = 2 * 2 ^ L := pow_succ' _ _
  have hup : 0 ≤ upK f.u f.ε (segK (2^b) seg) := by unfold upK; positivity
  have hs0 : 0 ≤ √((uPar (2^b) nch seg).N : ℝ) := Real.sqrt_nonneg _
  refine ⟨fun X hl => hfit _ ?_, fun ch hch i hi => hfit _ ?_, fun ch hch X hl => hfit _ ?_⟩
  · have hX0 : 0 ≤ X := hg.lev_nonneg hl
    have hXm := hlev X hl
    refine mul_le_mul hG1 ?_ (by positivity) hG0
    refine mul_le_mul (by linarith) ?_ hX0 (by positivity)
    nlinarith
  · have h2 : pnF f.θ (2^b) (zext seg (ch % seg.ch)) i ≤ ∑ i ∈ range (segK (2^b) seg), pnF f.θ (2^b) (zext seg (ch % seg.ch)) i :=
      single_le_sum (f := fun i => pnF f.θ (2^b) (zext seg (ch % seg.ch)) i) (fun _ _ => pnF_nonneg _ _ _ _) (mem_range.mpr hi)
    have h0 := pnF_nonneg f.θ (2^b) (zext seg (ch % seg.ch)) i
    refine mul_le_mul hG1 ?_ (mul_nonneg hs0 h0) hG0
    have h3 := mul_le_mul hNs h2 h0 (Real.sqrt_nonneg _)
    have h4 : 1 + W ≤ Xm * (1 + W) := by nlinarith
    have h5 : Xm * (1 + W) ≤ 2 ^ (L+1) * (Xm * (1 + W)) := le_mul_of_one_le_left (by positivity) (by linarith)
    have h6 := hw ch hch
    exact h3.trans (by linarith)
  · have hX0 : 0 ≤ X := hg.lev_nonneg hl
    have hXm := hlev X hl
    have hS0 : 0 ≤ ∑ i ∈ range (segK (2^b) seg), pnF f.θ (2^b) (zext seg (ch % seg.ch)) i := sum_nonneg fun _ _ => pnF_nonneg _ _ _ _
    have hw' := hw ch hch
    have h3 : √((uPar (2^b) nch seg).N : ℝ) * ∑ i ∈ range (segK (2^b) seg), pnF f.θ (2^b) (zext seg (ch % seg.ch)) i ≤ W / 2 := by
      have := mul_le_mul_of_nonneg_right hNs hS0
      linarith
    have h2 : (uPar (2^b) nch seg).N * X ≤ 2 ^ L * Xm := mul_le_mul hNL hXm hX0 (by positivity)
    have h4 := mul_le_mul h2 h3 (mul_nonneg hs0 hS0) (by positivity)
    refine mul_le_mul hG2 (h4.trans ?_) (mul_nonneg (by positivity) (mul_nonneg hs0 hS0)) hG0
    rw [hLp]
    have e1 : 2 * 2 ^ L * (Xm * (1 + W)) = 2 * (2 ^ L * Xm) + 4 * (2 ^ L * Xm * (W / 2)) := by ring
    have h6 : 0 ≤ 2 ^ L * Xm * (W / 2) := by positivity
    have h7 : 0 ≤ 2 ^ L * Xm := by positivity
    linarith

/-! ## The whole convolver -/

/-- the weights of all channels -/
noncomputable def weights (θ : ℝ) (B : ℕ) (ir : Buf) (sch : List Layout) : ℝ :=
  ∑ c ∈ range ir.ch, schemeNormF θ B (zext ir c) 0 sch

theorem weights_nonneg (θ : ℝ) (B : ℕ) (ir : Buf) (sch : List Layout) : 0 ≤ weights θ B ir sch :=
  sum_nonneg fun _ _ => schemeNormF_nonneg _ _ _ _ _

theorem le_weights (θ : ℝ) (B : ℕ) (ir : Buf) (sch : List Layout) {c : ℕ} (hc : c < ir.ch) :
    schemeNormF θ B (zext ir c) 0 sch ≤ weights θ B ir sch :=
  single_le_sum (f := fun c => schemeNormF θ B (zext ir c) 0 sch) (fun _ _ => schemeNormF_nonneg _ _ _ _ _) (mem_range.mpr hc)

variable {b n0 K : ℕ} {ir : Buf} {rest : List Layout} {Xm : ℝ} {W : ℕ}

/-- all factors are at most the total one -/
theorem worst_le_total (hg : f.Good) (n : ℕ) : worst f.u f.τ f.ε f.L K ≤ worst f.u f.τ f.ε f.L K * (1 + f.u) ^ n := by
  have h1 := one_le_worst hg.u_nonneg hg.τ_nonneg hg.ε_nonneg f.L K
  exact le_mul_of_one_le_right (by linarith) (one_le_pow₀ (by linarith [hg.u_nonneg]))

theorem lvl_le_worst (hg : f.Good) {n : ℕ} (hn : n ≤ f.L) : lvl f.u f.τ ^ n ≤ worst f.u f.τ f.ε f.L K := by
  have hu := hg.u_nonneg
  have h1 := one_le_lvl' hu hg.τ_nonneg
  have h2 : lvl f.u f.τ ^ n ≤ tdK f.u f.τ n 0 := by
    unfold tdK
    have h3 : lvl f.u f.τ ^ n ≤ lvl f.u f.τ ^ (3 * n) := pow_le_pow_right₀ h1 (by omega)
    have h4 : 1 ≤ (1 + f.u) ^ (0 + 2) := one_le_pow₀ (by linarith)
    exact h3.trans (le_mul_of_one_le_right (by positivity) h4)
  exact h2.trans (tdK_le_worst hu hg.τ_nonneg hg.ε_nonneg (Nat.zero_le _) hn)

theorem eps_le_worst (hg : f.Good) : 1 + f.ε ≤ worst f.u f.τ f.ε f.L K := by
  have hu := hg.u_nonneg
  have hε := hg.ε_nonneg
  refine le_trans ?_ (upK_le_worst (k := 0) hu hg.τ_nonneg hε (Nat.zero_le _))
  unfold upK
  have h3 : 1 + f.ε ≤ (1 + f.ε) ^ 3 := le_self_pow₀ (by linarith) (by norm_num)
  exact h3.trans (le_mul_of_one_le_right (by positivity) (one_le_pow₀ (by linarith)))

/-- every number in the convolver is at most the total error factor times the headroom -/
theorem range_of (hg : f.Good) (hgood : GoodRest (2^b) ir.n (n0 * 2^b) rest)
    (hL : ∀ l ∈ (⟨1, n0⟩ :: rest : List Layout), 2 * (l.psb * 2^b) ≤ 2^f.L ∧ l.np ≤ K)
    (hlev : ∀ X, f.lev X → X ≤ Xm) (hX : 1 ≤ Xm)
    (hfit : ∀ r, r ≤ worst f.u f.τ f.ε f.L K * (1 + f.u) ^ (rest.length + 1 + ir.ch) *
      (2^(f.L+1) * (Xm * (1 + weights f.θ (2^b) ir (⟨1, n0⟩ :: rest)))) → f.fits r) :
    (∀ a ∈ (nPar (2^b) ir.ch ir n0 rest).specs, ∀ c < ir.ch,
      TFits f (b+a.p+1) (2^(b+a.p)) (segK (2^(b+a.p)) a.seg) (zext a.seg (c % a.seg.ch))) ∧
    NFits ⟨f, worst f.u f.τ f.ε f.L K, W⟩ (nPar (2^b) ir.ch ir n0 rest) ∧
    ∀ (outR : ℕ → ℕ) (o : ℕ) (X : ℕ → ℝ), (∀ c < ir.ch, outR c = o → f.lev (X c)) →
      f.fits (mixK ⟨f, worst f.u f.τ f.ε f.L K, W⟩ ir rest * mixM f.θ (2^b) ir n0 rest outR X o) := by
  have hu := hg.u_nonneg
  have hW0 := weights_nonneg f.θ (2^b) ir (⟨1, n0⟩ :: rest)
  have hw1 := one_le_worst hu hg.τ_nonneg hg.ε_nonneg f.L K
  have htot := worst_le_total (K := K) hg (rest.length + 1 + ir.ch)
  have h2L : (1:ℝ) ≤ 2 ^ (f.L+1) := one_le_pow₀ (by norm_num)
  have hmix : ∀ m, m ≤ Xm * weights f.θ (2^b) ir (⟨1, n0⟩ :: rest) →
      m ≤ 2^(f.L+1) * (Xm * (1 + weights f.θ (2^b) ir (⟨1, n0⟩ :: rest))) := by
    intro m hm
    have h3 : 0 ≤ Xm * (1 + weights f.θ (2^b) ir (⟨1, n0⟩ :: rest)) := by positivity
    have h4 := le_mul_of_one_le_left h3 h2L
    nlinarith
  refine ⟨fun a ha c hc => ?_, ⟨?_, fun ch hch X hl => hfit _ ?_⟩, fun outR o X hl => hfit _ ?_⟩
  · obtain ⟨h1, h2⟩ := specs_kappa hu hg.τ_nonneg hg.ε_nonneg rest _ hgood (fun l hl => hL l (List.mem_cons_of_mem _ hl)) a ha
    exact tfits_of hg h1 hlev hX ((lvl_le_worst hg h1).trans htot) (h2.trans htot)
      ((specs_sum hc rest _ hgood a ha).trans (rest_sum.trans (le_weights _ _ _ _ hc))) hfit
  · have h1 := hL ⟨1, n0⟩ (List.mem_cons_self ..)
    rw [one_mul] at h1
    refine ufits_of hg h1.1 hlev hX ((eps_le_worst hg).trans htot) ((upK_le_worst hu hg.τ_nonneg hg.ε_nonneg ?_).trans htot)
      (fun ch hch => (first_sum hch).trans (le_weights _ _ _ _ hch)) hW0 hfit
    refine (segK_le (by positivity) ?_).trans h1.2
    show min (n0 * _) _ ≤ _
    exact min_le_left _ _
  · have hX0 := hg.lev_nonneg hl
    have h1 := nPar_size (θ := f.θ) hX0 hch hgood
    have hM0 : 0 ≤ NPar.M f.θ (nPar (2^b) ir.ch ir n0 rest) X ch := by
      unfold NPar.M NPar.M0
      refine add_nonneg ?_ (List.sum_nonneg ?_)
      · unfold msize
        exact mul_nonneg (by positivity) (sum_nonneg fun _ _ => pnF_nonneg _ _ _ _)
      · intro y hy
        obtain ⟨a, _, rfl⟩ := List.mem_map.mp hy
        unfold SubSpec.M segM msize
        exact mul_nonneg (by positivity) (sum_nonneg fun _ _ => pnF_nonneg _ _ _ _)
    refine mul_le_mul (mul_le_mul_of_nonneg_left (pow_le_pow_right₀ (by linarith) ?_) (by linarith)) (hmix _ (h1.trans ?_)) hM0 (by positivity)
    · show (nPar (2^b) ir.ch ir n0 rest).specs.length + 1 ≤ _
      rw [specs_length]; omega
    · exact mul_le_mul (hlev X hl) (le_weights _ _ _ _ hch) (schemeNormF_nonneg _ _ _ _ _) (by linarith)
  · unfold mixK
    refine mul_le_mul_of_nonneg_left (hmix _ ?_) (by positivity)
    unfold mixM weights
    rw [mul_sum]
    refine sum_le_sum fun c hc => ?_
    rw [mem_range] at hc
    have hw0 := schemeNormF_nonneg f.θ (2^b) (zext ir c) (⟨1, n0⟩ :: rest) 0
    split
    · next hco =>
      exact (nPar_size (θ := f.θ) (hg.lev_nonneg (hl c hc hco)) hc hgood).trans (mul_le_mul_of_nonneg_right (hlev _ (hl c hc hco)) hw0)
    · positivity

end Zones.Proofs.R
