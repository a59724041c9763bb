import Verif.Proofs.RUPC

/-! # `UniformPartitionedConvolver` in rounded arithmetic: error of the output -/

open Finset Zones.Spec Zones.Model

namespace Zones.Proofs.R

variable [Arith] {f : Fp} {c : UPar} {s : UPC} {x : ℕ → ℕ → ℝ}

/-- the filters are transforms of the partitions -/
def GNear (f : Fp) (c : UPar) (G : ℕ → ℕ → ℕ → ℂ) : Prop :=
  ∀ i < c.K, ∀ ch < c.nch, VNear (c.N/2+1) (1 + f.ε) (√(c.N : ℕ) * pnF f.θ c.B (c.h ch) i) (G i ch) (c.ft (c.H ch i))

/-- error factor of the accumulated products -/
noncomputable def macK (u ε : ℝ) (K : ℕ) : ℝ := (1 + ε) * (1 + ε) * (1 + u) ^ K

/-- error factor of the uniform convolver with `K` partitions -/
noncomputable def upK (u ε : ℝ) (K : ℕ) : ℝ := (1 + ε) ^ 3 * (1 + u) ^ (K + 1)

/-- size of the accumulated products -/
noncomputable def macM (θ : ℝ) (c : UPar) (X : ℝ) (ch : ℕ) : ℝ :=
  ∑ i ∈ range (c.K - 1), (c.N * X) * (√(c.N : ℕ) * pnF θ c.B (c.h ch) (i+1))

/-- the numbers in the uniform convolver fit -/
structure UFits (f : Fp) (c : UPar) : Prop where
  hx : ∀ X, f.lev X → f.fits ((1 + f.ε) * (c.N * X))
  hg : ∀ ch < c.nch, ∀ i < c.K, f.fits ((1 + f.ε) * (√(c.N : ℕ) * pnF f.θ c.B (c.h ch) i))
  ho : ∀ ch < c.nch, ∀ X, f.lev X → f.fits (upK f.u f.ε c.K * (c.N * X * (√(c.N : ℕ) * ∑ i ∈ range c.K, pnF f.θ c.B (c.h ch) i)))

omit [Arith] in
theorem floor_prod (hg : f.Good) {N B : ℕ} (hB : 0 < B) (hN : 2 * B ≤ N) (h : ℕ → ℝ) (i : ℕ) {X : ℝ} (hX : f.θ ≤ X) :
    N * f.φ ≤ (N * X) * (√N * pnF f.θ B h i) := by
  have hθ := hg.θ_nonneg
  have h1 : 1 ≤ √(N:ℝ) := by rw [Real.one_le_sqrt]; exact_mod_cast (by omega : 1 ≤ N)
  have h2 : 1 ≤ √(B:ℝ) := by rw [Real.one_le_sqrt]; exact_mod_cast hB
  have h3 : f.θ ≤ pnF f.θ B h i := le_trans (by nlinarith) (le_max_left _ _)
  have h4 : f.θ * f.θ ≤ X * (√N * pnF f.θ B h i) := mul_le_mul hX (by nlinarith) hθ (hθ.trans hX)
  rw [mul_assoc]
  exact mul_le_mul_of_nonneg_left (hg.φθ2.trans h4) (Nat.cast_nonneg _)

omit [Arith] in
theorem macM_nonneg (θ : ℝ) (c : UPar) {X : ℝ} (hX : 0 ≤ X) (ch : ℕ) : 0 ≤ macM θ c X ch := by
  unfold macM
  exact sum_nonneg fun i _ => mul_nonneg (by positivity) (mul_nonneg (Real.sqrt_nonneg _) (pnF_nonneg _ _ _ _))

omit [Arith] in
/-- the first partition and the others -/
theorem macM_add (θ : ℝ) (c : UPar) (hK : 0 < c.K) (X : ℝ) (ch : ℕ) :
    (c.N * X) * (√(c.N : ℕ) * pnF θ c.B (c.h ch) 0) + macM θ c X ch =
      c.N * X * (√(c.N : ℕ) * ∑ i ∈ range c.K, pnF θ c.B (c.h ch) i) := by
  unfold macM
  obtain ⟨K', hK'⟩ : ∃ K', c.K = K' + 1 := ⟨c.K - 1, by omega⟩
  rw [hK', sum_range_succ' _ K', Nat.add_sub_cancel, ← mul_sum, ← mul_sum]
  ring

omit [Arith] in
theorem macK_upK (hg : f.Good) (K : ℕ) : 1 ≤ macK f.u f.ε K ∧ macK f.u f.ε K * (1 + f.u) * (1 + f.ε) = upK f.u f.ε K := by
  have hu := hg.u_nonneg
  have hε := hg.ε_nonneg
  unfold macK upK
  have : 1 ≤ (1 + f.u) ^ K := one_le_pow₀ (by linarith)
  refine ⟨by nlinarith, by ring⟩

omit [Arith] in
theorem mac_le {κ κ' M M' : ℝ} (h1 : κ ≤ κ') (h2 : M ≤ M') (h3 : 0 ≤ κ') (h4 : 0 ≤ M) : κ * M ≤ κ' * M' :=
  (mul_le_mul_of_nonneg_right h1 h4).trans (mul_le_mul_of_nonneg_left h2 h3)

/-- window `q`, partially filled with `e` samples, before the next samples are added -/
structure UMid (f : Fp) (c : UPar) (x : ℕ → ℕ → ℝ) (q e : ℕ) (s : UPC) : Prop where
  ex : ∃ G R F V, URep c G e R F V s ∧ GNear f c G ∧
    (∀ ch < c.nch, ∀ j < c.N, ∃ i, q * c.B ≤ i + c.N ∧ i < q * c.B + e ∧ R ch j = x ch i) ∧
    (∀ ch < c.nch, ∀ j < c.D + e, R ch j = uwin c x q ch j) ∧
    (∀ i, 0 < i → i < c.K → ∀ ch < c.nch, ∀ X, f.lev X → (∀ j < c.N, |uwin c x (q-i) ch j| ≤ X) → VNear (c.N/2+1) (1 + f.ε) (c.N * X) (F i ch) (c.ft (uwin c x (q-i) ch))) ∧
    (∀ ch < c.nch, ∀ X, f.lev X → (∀ i < c.K - 1, ∀ j < c.N, |uwin c x (q-(i+1)) ch j| ≤ X) → V1Near (c.N/2+1) (macK f.u f.ε c.K) (macM f.θ c X ch) (V ch)
      (fun k => ∑ i ∈ range (c.K - 1), c.ft (uwin c x (q-(i+1)) ch) k * c.ft (c.H ch (i+1)) k))

/-- state after `T` samples of the (virtual) stream -/
structure UCore (f : Fp) (c : UPar) (x : ℕ → ℕ → ℝ) (T : ℕ) (s : UPC) : Prop where
  ex : ∃ q e G R F V, 0 < e ∧ e ≤ c.B ∧ T = q * c.B + e ∧ c.K + 3 ≤ q ∧ URep c G (e % c.B) R F V s ∧ GNear f c G ∧
    (∀ ch < c.nch, ∀ j < c.N, ∃ i, q * c.B ≤ i + c.N ∧ i < q * c.B + e ∧ R ch j = x ch i) ∧
    (∀ ch < c.nch, ∀ j < c.D + e, R ch j = uwin c x q ch j) ∧
    (e = c.B → ∀ ch < c.nch, ∀ X, f.lev X → (∀ j < c.N, |uwin c x q ch j| ≤ X) → VNear (c.N/2+1) (1 + f.ε) (c.N * X) (F 0 ch) (c.ft (uwin c x q ch))) ∧
    (∀ i, 0 < i → i < c.K → ∀ ch < c.nch, ∀ X, f.lev X → (∀ j < c.N, |uwin c x (q-i) ch j| ≤ X) → VNear (c.N/2+1) (1 + f.ε) (c.N * X) (F i ch) (c.ft (uwin c x (q-i) ch))) ∧
    (∀ ch < c.nch, ∀ X, f.lev X → (∀ i < c.K - 1, ∀ j < c.N, |uwin c x (q-(i+1)) ch j| ≤ X) → V1Near (c.N/2+1) (macK f.u f.ε c.K) (macM f.θ c X ch) (V ch)
      (fun k => ∑ i ∈ range (c.K - 1), c.ft (uwin c x (q-(i+1)) ch) k * c.ft (c.H ch (i+1)) k))

theorem UCore.prelude (hA : f.Acc) (hr : UFits f c) {T : ℕ} (h : UCore f c x T s) :
    ∃ s' q e, s.preludeR = some s' ∧ e < c.B ∧ T = q * c.B + e ∧ c.K + 3 ≤ q ∧ UMid f c x q e s' := by
  obtain ⟨q, e, G, R, F, V, he, he2, hT, hq, rep, hG, hRX, hR, hF0, hF, hV⟩ := h.ex
  rcases Nat.eq_or_lt_of_le he2 with heq | hlt
  · subst heq
    rw [Nat.mod_self] at rep
    obtain ⟨s', F', e1, hF', rep'⟩ := rep.prelude_zero
    have hDN := rep.hDN
    have hN2 := rep.hN2
    have hN4 := rep.hN4
    have hqD : c.D ≤ q * c.B := by
      have : 4 * c.B ≤ q * c.B := Nat.mul_le_mul_right _ (by have := rep.hK; omega)
      omega
    have hq1 : (q+1) * c.B = q * c.B + c.B := by ring
    have hFs : ∀ i < c.K, ∀ ch < c.nch, ∀ X, f.lev X → (∀ j < c.N, |uwin c x (q + 1 - (i+1)) ch j| ≤ X) →
        VNear (c.N/2+1) (1 + f.ε) (c.N * X) (F i ch) (c.ft (uwin c x (q + 1 - (i+1)) ch)) := by
      intro i hi ch hch
      by_cases hi0 : i = 0
      · subst hi0; exact hF0 rfl ch hch
      · rw [show q + 1 - (i+1) = q - i by omega]; exact hF i (by omega) hi ch hch
    have hK := rep.hK
    refine ⟨s', q+1, 0, e1, he, by rw [hT, hq1]; rfl, by omega, ⟨_, _, _, _, rep', hG, ?_, ?_, ?_, ?_⟩⟩
    · intro ch hch j hj
      have hsl := slot_lt (n := c.N) (by omega : c.B < c.N) hj
      exact ⟨q * c.B - c.D + slot c.N c.B j, by omega, by omega, by rw [hR ch hch _ (by omega)]; rfl⟩
    · intro ch hch j hj
      have : slot c.N c.B j = c.B + j := by unfold slot; rw [if_pos (by omega)]
      simp only [this]
      rw [hR ch hch _ (by omega)]
      unfold uwin
      congr 1; omega
    · intro i hi hiK ch hch
      obtain ⟨i, rfl⟩ : ∃ i', i = i' + 1 := ⟨i-1, by omega⟩
      rw [hF']
      exact hFs i (by omega) ch hch
    · intro ch hch X hX0 hXw
      have hε := hA.ε_nonneg
      have hu := hA.u_nonneg
      have hXθ := hA.lev_ge X hX0
      have hXn := hA.lev_nonneg hX0
      have hKe : (1 + f.ε) * (1 + f.ε) * (1 + f.u) * (1 + f.u) ^ (c.K - 1) = macK f.u f.ε c.K := by
        unfold macK
        rw [show c.K = c.K - 1 + 1 by omega, pow_succ]
        simp only [Nat.add_sub_cancel]
        ring
      have hku := macK_upK hA.toGood c.K
      have hm0 := macM_nonneg f.θ c hXn ch
      have hma := macM_add f.θ c hK X ch
      have hp0 := pnF_nonneg f.θ c.B (c.h ch) 0
      have m := VNear.macs hA (N := c.N/2+1) (κ := 1 + f.ε) (κ' := 1 + f.ε) (by linarith) (by linarith) (c.K - 1)
        (M := fun _ => c.N * X) (M' := fun i => √(c.N : ℕ) * pnF f.θ c.B (c.h ch) (i+1))
        (fun i hi => by
          refine le_trans ?_ (floor_prod hA.toGood rep.hB hN2 (c.h ch) (i+1) hXθ)
          refine mul_le_mul_of_nonneg_right ?_ hA.φ_nonneg
          exact_mod_cast (by omega : c.N/2+1 ≤ c.N))
        (fun i hi => hr.hx X hX0) (fun i hi => hr.hg ch hch (i+1) (by omega))
        (by
          rw [hKe]
          refine hA.fits_mono _ _ ?_ (hr.ho ch hch X hX0)
          refine mac_le ?_ ?_ (by unfold upK; positivity) hm0
          · rw [← hku.2]
            have : 1 ≤ (1 + f.u) * (1 + f.ε) := by nlinarith
            nlinarith [hku.1]
          · rw [← hma]
            have : 0 ≤ ↑c.N * X * (√(c.N : ℕ) * pnF f.θ c.B (c.h ch) 0) := by positivity
            change macM f.θ c X ch ≤ _
            linarith)
        (X' := fun i => F i ch) (X := fun i => c.ft (uwin c x (q + 1 - (i+1)) ch))
        (H' := fun i => G (i+1) ch) (H := fun i => c.ft (c.H ch (i+1)))
        (fun i hi => hFs i (by omega) ch hch X hX0 (hXw i hi)) (fun i hi => hG (i+1) (by omega) ch hch)
      exact m.mono (le_of_eq hKe) le_rfl
  · rw [Nat.mod_eq_of_lt hlt] at rep
    exact ⟨s, q, e, rep.prelude_pos (by omega), hlt, hT, hq, ⟨G, R, F, V, rep, hG, hRX, hR, hF, hV⟩⟩

theorem l2_win {N : ℕ} {R : ℕ → ℝ} {X : ℝ} (hX0 : 0 ≤ X) (h : ∀ j < N, |R j| ≤ X) :
    l2 N (fun j => (R j : ℂ)) ≤ √(N : ℕ) * X :=
  l2_le_sup hX0 fun j hj => by rw [Complex.norm_real]; exact h j hj

theorem UMid.body (hA : f.Acc) (hr : UFits f c) {F' : RealFFT} (hF' : f.Fft F') {q e : ℕ} (h : UMid f c x q e s) (he : e < c.B)
    (hq : c.K + 3 ≤ q)
    {blk : Buf} {done k : ℕ} (hk : 0 < k) (hek : e + k ≤ c.B) (hd : done + k ≤ blk.n) (hch : blk.ch = c.nch)
    (hin : ∀ ch < c.nch, ∀ i < k, blk.data ch (done + i) = x ch (q * c.B + e + i)) :
    ∃ s' blk', s.bodyR F' blk done k = some (s', blk') ∧ blk'.n = blk.n ∧ blk'.ch = c.nch ∧
      (∀ ch < c.nch, ∀ i < blk.n, done ≤ i → i < done + k → ∀ X, Recent f (x ch) c.B (c.N + c.K * c.B) (q * c.B + e + (i - done)) X → Near (upK f.u f.ε c.K) (msize f.θ c.N c.B c.K (c.h ch) X) (blk'.data ch i)
        (∑ m ∈ range (c.K * c.B), c.h ch m * x ch (q * c.B + e + (i - done) - m))) ∧
      (∀ ch < c.nch, ∀ i < blk.n, ¬ (done ≤ i ∧ i < done + k) → blk'.data ch i = blk.data ch i) ∧
      UCore f c x (q * c.B + e + k) s' := by
  obtain ⟨G, R, F, V, rep, hG, hRX, hR, hF, hV⟩ := h.ex
  have hDN := rep.hDN
  have hN2 := rep.hN2
  have hN4 := rep.hN4
  have hB := rep.hB
  have hK := rep.hK
  have hord := rep.order_pos
  have hqB : (c.K + 3) * c.B ≤ q * c.B := Nat.mul_le_mul_right _ hq
  have hKB : (c.K + 3) * c.B = c.K * c.B + 3 * c.B := by ring
  have hKB1 : c.B ≤ c.K * c.B := Nat.le_mul_of_pos_left _ hK
  set R' : ℕ → ℕ → ℝ := fun ch j =>
    if c.D + e ≤ j ∧ j < c.D + e + k then blk.data ch (done + (j - (c.D + e))) else R ch j with hR'
  have hRw : ∀ ch < c.nch, ∀ j < c.D + (e + k), R' ch j = uwin c x q ch j := by
    intro ch hc j hj
    simp only [hR']
    split
    · next hj2 =>
      rw [hin ch hc _ (by omega)]; unfold uwin; congr 1; omega
    · next hj2 => exact hR ch hc j (by omega)
  have hRX' : ∀ ch < c.nch, ∀ j < c.N, ∃ i, q * c.B ≤ i + c.N ∧ i < q * c.B + (e + k) ∧ R' ch j = x ch i := by
    intro ch hc j hj
    by_cases hjD : j < c.D + (e + k)
    · exact ⟨q * c.B - c.D + j, by omega, by omega, hRw ch hc j hjD⟩
    · obtain ⟨i, i1, i2, i3⟩ := hRX ch hc j hj
      exact ⟨i, i1, by omega, by simp only [hR']; rw [if_neg (by omega)]; exact i3⟩
  set y : ℕ → ℕ → ℝ := fun ch n => rcirc (2^c.o) (R' ch) (c.H ch 0) n +
    ∑ i ∈ range (c.K - 1), rcirc (2^c.o) (uwin c x (q-(i+1)) ch) (c.H ch (i+1)) n with hy
  obtain ⟨s', blk', X0, Y, e1, n1, c1, d1, hX0', hY, rep'⟩ := rep.body F' hk hek hd hch R' (fun _ _ _ _ => rfl)
  have hsq : √(2^c.o : ℝ) * √(2^c.o : ℝ) = (c.N : ℕ) := by
    rw [Real.mul_self_sqrt (by positivity)]; push_cast; rfl
  have hXn : ∀ ch < c.nch, ∀ X, f.lev X → (∀ j < c.N, |R' ch j| ≤ X) → VNear (c.N/2+1) (1 + f.ε) (c.N * X) (X0 ch) (c.ft (R' ch)) := by
    intro ch hc X hX0 hRX'
    obtain ⟨d, g1, g2⟩ := hX0' ch hc
    have hXn := hA.lev_nonneg hX0
    have hXθ := hA.lev_ge X hX0
    have hcN : ((2:ℝ)^c.o) = (c.N : ℕ) := by push_cast [UPar.N]; rfl
    have := near_fwd hA.toGood hF' hord (d := d) (r := R' ch) (fun j hj => g1 j hj) (l2_win hXn hRX') (by
        rw [hcN]
        refine mul_le_mul_of_nonneg_left ?_ (Real.sqrt_nonneg _)
        linarith [hA.φθ, hA.φ_nonneg]) (by
        have := hr.hx X hX0
        rw [show √((2:ℝ)^c.o) * (√((2^c.o : ℕ):ℝ) * X) = c.N * X by
          rw [← mul_assoc, Nat.cast_pow, Nat.cast_ofNat, hsq]; push_cast; rfl]
        exact this)
    refine (this.mono le_rfl (le_of_eq ?_)).congr (fun k hk => g2 k (Nat.lt_succ_iff.mp hk)) (fun k _ => rfl)
    push_cast
    rw [← mul_assoc, hsq]; push_cast; rfl
  have hYn : ∀ ch < c.nch, ∀ X, f.lev X → (∀ j < c.N, |R' ch j| ≤ X) → (∀ i < c.K - 1, ∀ j < c.N, |uwin c x (q-(i+1)) ch j| ≤ X) →
      ∀ n < c.N, Near (upK f.u f.ε c.K) (msize f.θ c.N c.B c.K (c.h ch) X) (Y ch n) (y ch n) := by
    intro ch hc X hX0 hRX' hXw n hn
    obtain ⟨d, g1, g2⟩ := hY ch hc
    have hu := hA.u_nonneg
    have hε := hA.ε_nonneg
    have hXθ := hA.lev_ge X hX0
    have hXn' := hA.lev_nonneg hX0
    have hku := macK_upK hA.toGood c.K
    have hm0 := macM_nonneg f.θ c hXn' ch
    have hma := macM_add f.θ c hK X ch
    have hp0 := pnF_nonneg f.θ c.B (c.h ch) 0
    have hfp := floor_prod hA.toGood hB hN2 (c.h ch) 0 hXθ
    have hhalf : ((c.N/2+1 : ℕ) : ℝ) * f.φ ≤ c.N * f.φ := mul_le_mul_of_nonneg_right (by exact_mod_cast (by omega : c.N/2+1 ≤ c.N)) hA.φ_nonneg
    have hM0 : 0 ≤ ↑c.N * X * (√(c.N : ℕ) * pnF f.θ c.B (c.h ch) 0) := by positivity
    have hMle : ↑c.N * X * (√(c.N : ℕ) * pnF f.θ c.B (c.h ch) 0) ≤ c.N * X * (√(c.N : ℕ) * ∑ i ∈ range c.K, pnF f.θ c.B (c.h ch) i) := by
      rw [← hma]; linarith
    have hUp : 0 ≤ upK f.u f.ε c.K := by unfold upK; positivity
    have hm1 : macK f.u f.ε c.K ≤ upK f.u f.ε c.K := by
      rw [← hku.2]
      have : 1 ≤ (1 + f.u) * (1 + f.ε) := by nlinarith
      nlinarith [hku.1]
    have hm2 : macK f.u f.ε c.K * (1 + f.u) ≤ upK f.u f.ε c.K := by
      rw [← hku.2]
      have : 0 ≤ macK f.u f.ε c.K * (1 + f.u) * f.ε := by
        have := hku.1
        positivity
      nlinarith
    have hp1 : (1 + f.ε) * (1 + f.ε) * (1 + f.u) ≤ macK f.u f.ε c.K := by
      unfold macK
      have : (1 + f.u) ^ 1 ≤ (1 + f.u) ^ c.K := pow_le_pow_right₀ (by linarith) hK
      rw [pow_one] at this
      exact mul_le_mul_of_nonneg_left this (by positivity)
    have m1 := (hXn ch hc X hX0 hRX').mul hA (hhalf.trans hfp) (hr.hx X hX0) (hr.hg ch hc 0 hK)
      (hA.fits_mono _ _ (mac_le (hp1.trans hm1) hMle hUp hM0) (hr.ho ch hc X hX0)) (hG 0 hK ch hc)
    have m2 := (m1.mono (κ' := macK f.u f.ε c.K) hp1 le_rfl).add hA (by linarith)
      (by
        rw [hma]
        exact hA.fits_mono _ _ (mul_le_mul_of_nonneg_right hm2 (hM0.trans hMle)) (hr.ho ch hc X hX0)) (hV ch hc X hX0 hXw)
    have m3 := near_inv hA.toGood hF' hord (d := d) (y := y ch) (m2.congr (fun k hk => g1 k (by omega)) (fun k _ => by
      show c.ft (y ch) k = _
      simp only [hy]
      rw [ft_add c (rcirc (2^c.o) (R' ch) (c.H ch 0)), ft_sum c (c.K - 1) (fun i => rcirc (2^c.o) (uwin c x (q-(i+1)) ch) (c.H ch (i+1))),
        ft_rcirc]
      congr 1
      refine sum_congr rfl fun i _ => ?_
      rw [ft_rcirc])) (by
        have hcN : ((2:ℝ)^c.o) = (c.N : ℕ) := by push_cast [UPar.N]; rfl
        rw [hcN]; linarith) (by
        rw [hma, hku.2]; exact hr.ho ch hc X hX0) hn
    rw [g2 n hn]
    refine m3.mono (le_of_eq ?_) (le_of_eq ?_)
    · exact hku.2
    · rw [hma]
      unfold msize
      have hN0 : ((2:ℝ)^c.o) ≠ 0 := by positivity
      have hNc : ((c.N : ℕ) : ℝ) = 2^c.o := by push_cast [UPar.N]; rfl
      rw [hNc]
      field_simp
  refine ⟨s', blk', e1, n1, c1, ?_, ?_, ⟨q, e + k, G, R', _, V, by omega, hek, by ring, hq, rep', hG, hRX', hRw, ?_, ?_, hV⟩⟩
  · intro ch hc i hi hdi1 hdi2 X hXr
    rw [d1 ch hc i hi, if_pos ⟨hdi1, hdi2⟩]
    obtain ⟨j, rfl⟩ : ∃ j, i = done + j := ⟨i - done, by omega⟩
    rw [Nat.add_sub_cancel_left]
    have hH0 : ∀ i j, c.B ≤ j → c.H ch i j = 0 := by
      intro i j hj; unfold UPar.H; rw [if_neg (by omega)]
    have term : ∀ i < c.K, ∀ X : ℕ → ℝ, (∀ j' ≤ c.D + (e + j), X j' = uwin c x (q - i) ch j') →
        rcirc (2^c.o) X (c.H ch i) (c.D + e + j) = ∑ m ∈ range c.B, c.h ch (i * c.B + m) * x ch (q * c.B + e + j - (i * c.B + m)) := by
      intro i hi X hX
      rw [show c.D + e + j = c.D + (e + j) by omega, rcirc_at hB hN2 hDN (hH0 i) (by omega) hX]
      refine sum_congr rfl fun m hm => ?_
      rw [mem_range] at hm
      have hiB : i * c.B + c.B ≤ c.K * c.B := by
        calc i * c.B + c.B = (i+1) * c.B := by ring
          _ ≤ _ := Nat.mul_le_mul_right _ hi
      have hqi : (q - i) * c.B = q * c.B - i * c.B := by rw [Nat.sub_mul]
      unfold UPar.H uwin
      rw [if_pos hm, hqi]
      congr 2
      omega
    have key : y ch (c.D + e + j) = ∑ m ∈ range (c.K * c.B), c.h ch m * x ch (q * c.B + e + j - m) := by
      simp only [hy]
      rw [term 0 hK (R' ch) (fun j' hj' => hRw ch hc j' (by omega))]
      have : ∀ i ∈ range (c.K - 1), rcirc (2^c.o) (uwin c x (q-(i+1)) ch) (c.H ch (i+1)) (c.D + e + j) =
          ∑ m ∈ range c.B, c.h ch ((i+1) * c.B + m) * x ch (q * c.B + e + j - ((i+1) * c.B + m)) := by
        intro i hi
        rw [mem_range] at hi
        exact term (i+1) (by omega) _ (fun j' _ => rfl)
      rw [sum_congr rfl this, sum_range_mul]
      obtain ⟨K', hK'⟩ : ∃ K', c.K = K' + 1 := ⟨c.K - 1, by omega⟩
      rw [hK', sum_range_succ', Nat.add_sub_cancel, add_comm]
    rw [← key]
    have hxb := hXr.bnd
    rw [Nat.add_sub_cancel_left] at hxb
    refine hYn ch hc X hXr.lev ?_ ?_ _ (by omega)
    · intro j' hj'
      obtain ⟨i, i1, i2, i3⟩ := hRX' ch hc j' hj'
      rw [i3]
      exact hxb i (by omega) (by omega)
    · intro i hi j' hj'
      have w1 : (q - (i+1)) * c.B = q * c.B - (i+1) * c.B := Nat.sub_mul _ _ _
      have w2 : (i+1) * c.B + c.B ≤ c.K * c.B := by
        rw [← Nat.succ_mul]; exact Nat.mul_le_mul_right _ (by omega)
      have w3 : c.B ≤ (i+1) * c.B := Nat.le_mul_of_pos_left _ (by omega)
      exact hxb _ (by omega) (by omega)
  · intro ch hc i hi hdi
    rw [d1 ch hc i hi, if_neg hdi]
  · intro heB ch hc X hX0 hXw
    refine (hXn ch hc X hX0 (fun j hj => by rw [hRw ch hc j (by omega)]; exact hXw j hj)).congr (fun k _ => by simp only [if_true]) (fun k _ => ?_)
    unfold UPar.ft dft
    refine sum_congr rfl fun j hj => ?_
    rw [mem_range] at hj
    have hj' : j < c.N := hj
    beta_reduce
    rw [hRw ch hc j (by omega)]
  · intro i hi hiK ch hc X hX0 hXw
    refine (hF i hi hiK ch hc X hX0 hXw).congr (fun k _ => by rw [if_neg (by omega)]) (fun _ _ => rfl)

theorem UCore.loop (hA : f.Acc) (hr : UFits f c) {F' : RealFFT} (hF' : f.Fft F')
    (fuel : ℕ) : ∀ {s : UPC} {T : ℕ} {blk : Buf} {done : ℕ}, UCore f c x T s →
    blk.ch = c.nch → done ≤ blk.n →
    (done < blk.n → blk.n - done + T % c.B ≤ fuel * c.B) →
    (∀ ch < c.nch, ∀ i < blk.n - done, blk.data ch (done + i) = x ch (T + i)) →
    ∃ s' blk', UPC.loopR F' fuel s blk done = some (s', blk') ∧ blk'.n = blk.n ∧ blk'.ch = c.nch ∧
      (∀ ch < c.nch, ∀ i < blk.n, done ≤ i → ∀ X, Recent f (x ch) c.B (c.N + c.K * c.B) (T + (i - done)) X → Near (upK f.u f.ε c.K) (msize f.θ c.N c.B c.K (c.h ch) X) (blk'.data ch i)
        (∑ m ∈ range (c.K * c.B), c.h ch m * x ch (T + (i - done) - m))) ∧
      (∀ ch < c.nch, ∀ i < blk.n, i < done → blk'.data ch i = blk.data ch i) ∧
      UCore f c x (T + (blk.n - done)) s' := by
  induction fuel with
  | zero =>
    intro s T blk done h hch hdn hfuel hin
    have hdn' : ¬ done < blk.n := fun hc => by have := hfuel hc; omega
    exact ⟨s, blk, by unfold UPC.loopR; rw [if_neg hdn'], rfl, hch, fun ch _ i hi hdi => by omega, fun _ _ _ _ _ => rfl,
      by rw [show blk.n - done = 0 by omega]; exact h⟩
  | succ fuel ih =>
    intro s T blk done h hch hdn hfuel hin
    by_cases hdn' : done < blk.n
    · obtain ⟨s1, q, e, e1, he, hT, hq, hmid⟩ := h.prelude hA hr
      obtain ⟨G, R, F, V, rep, _⟩ := hmid.ex
      set k := min (blk.n - done) (c.B - e) with hk
      have hTmod : T % c.B = e := by rw [hT, add_comm, Nat.add_mul_mod_self_right, Nat.mod_eq_of_lt he]
      obtain ⟨s2, blk2, e2, n2, c2, d2, d2', core2⟩ := hmid.body hA hr hF' he hq (blk := blk) (done := done) (k := k)
        (by omega) (by omega) (by omega) hch (by
          intro ch hc i hi
          rw [hin ch hc i (by omega), hT])
      rw [← hT] at core2 d2
      obtain ⟨s3, blk3, e3, n3, c3, d3, d3', core3⟩ := ih core2 c2 (done := done + k) (by omega) (by
          intro hlt
          rw [n2] at hlt
          have hkB : k = c.B - e := by omega
          have : (T + k) % c.B = 0 := by
            rw [hT, hkB, show q * c.B + e + (c.B - e) = c.B * (q+1) by rw [mul_add, mul_comm]; omega, Nat.mul_mod_right]
          rw [this, n2]
          have hf := hfuel hdn'
          rw [hTmod, Nat.add_mul, one_mul] at hf
          omega) (by
          intro ch hc i hi
          rw [n2] at hi
          rw [d2' ch hc _ (by omega) (by omega), show done + k + i = done + (k + i) by ring,
            hin ch hc _ (by omega), add_assoc])
      refine ⟨s3, blk3, ?_, by rw [n3, n2], c3, ?_, ?_, ?_⟩
      · unfold UPC.loopR
        rw [if_pos hdn', e1]
        simp only [Option.bind_eq_bind, Option.bind_some]
        rw [rep.partSize, rep.col, ← hk, e2]
        exact e3
      · intro ch hc i hi hdi
        by_cases h1 : done + k ≤ i
        · have := d3 ch hc i (by omega) h1
          rw [show T + k + (i - (done + k)) = T + (i - done) by omega] at this
          exact this
        · rw [d3' ch hc i (by omega) (by omega)]
          exact d2 ch hc i hi hdi (by omega)
      · intro ch hc i hi hdi
        rw [d3' ch hc i (by omega) (by omega), d2' ch hc i hi (by omega)]
      · rw [n2] at core3
        rw [show T + (blk.n - done) = T + k + (blk.n - (done + k)) by omega]; exact core3
    · exact ⟨s, blk, by unfold UPC.loopR; rw [if_neg hdn'], rfl, hch, fun ch _ i hi hdi => by omega, fun _ _ _ _ _ => rfl,
        by rw [show blk.n - done = 0 by omega]; exact h⟩

/-! ## Reset and construction -/

theorem VNear.zero' {N : ℕ} {κ M : ℝ} (hκ : 1 ≤ κ) (hM : 0 ≤ M) {z : ℕ → ℂ} (hz : ∀ i < N, z i = 0) :
    VNear N κ M (fun _ => 0) z :=
  ((VNear.refl (N := N) (z := fun _ => 0) (M := M) (by rw [l2_zero]; exact hM)).mono hκ le_rfl).congr (fun _ _ => rfl) hz

theorem V1Near.zero' {N : ℕ} {κ M : ℝ} (hκ : 1 ≤ κ) (hM : 0 ≤ M) {z : ℕ → ℂ} (hz : ∀ i < N, z i = 0) :
    V1Near N κ M (fun _ => 0) z :=
  ((V1Near.refl (N := N) (z := fun _ => 0) (M := M) (by rw [l1_zero]; exact hM)).mono hκ le_rfl).congr (fun _ _ => rfl) hz

/-- a state with all buffers zero is a state of any stream that is silent so far -/
theorem UCore.of_zero {T0 : ℕ} {G : ℕ → ℕ → ℕ → ℂ} (hg : f.Good)
    (h : URep c G 0 (fun _ _ => 0) (fun _ _ _ => 0) (fun _ _ => 0) s) (hG : GNear f c G)
    (hT : c.K + 5 ≤ T0) (hx : ∀ ch, ∀ i < T0 * c.B, x ch i = 0) : UCore f c x (T0 * c.B) s := by
  have hu := hg.u_nonneg
  have hε := hg.ε_nonneg
  have hDN := h.hDN
  have hB := h.hB
  have hN4 := h.hN4
  have hq : (T0 - 1) * c.B + c.B = T0 * c.B := by
    obtain ⟨q, rfl⟩ : ∃ q, T0 = q + 1 := ⟨T0 - 1, by omega⟩
    rw [Nat.add_sub_cancel]; ring
  have hw : ∀ i < c.K, ∀ ch, ∀ j < c.N, uwin c x (T0 - 1 - i) ch j = 0 := by
    intro i hi ch j hj
    unfold uwin
    have h1 : (T0 - 1 - i) * c.B ≤ (T0 - 1) * c.B := Nat.mul_le_mul_right _ (by omega)
    have h2 : 5 * c.B ≤ (T0 - 1 - i) * c.B := Nat.mul_le_mul_right _ (by omega)
    exact hx ch _ (by omega)
  have hft : ∀ i < c.K, ∀ ch k, c.ft (uwin c x (T0 - 1 - i) ch) k = 0 := by
    intro i hi ch k
    unfold UPar.ft dft
    refine sum_eq_zero fun j hj => ?_
    rw [mem_range] at hj
    beta_reduce
    rw [hw i hi ch j hj]; simp
  have hK := h.hK
  refine ⟨T0 - 1, c.B, G, _, _, _, hB, le_rfl, hq.symm, by omega, by rw [Nat.mod_self]; exact h, hG, ?_, ?_, ?_, ?_, ?_⟩
  · intro ch _ j hj
    have : 5 * c.B ≤ T0 * c.B := Nat.mul_le_mul_right _ (by omega)
    exact ⟨T0 * c.B - 1, by omega, by omega, (hx ch _ (by omega)).symm⟩
  · intro ch _ j hj
    exact (hw 0 hK ch j (by omega)).symm
  · intro _ ch _ X hX0 _
    exact VNear.zero' (by linarith) (mul_nonneg (Nat.cast_nonneg _) (hg.lev_nonneg hX0)) fun k _ => hft 0 hK ch k
  · intro i _ hi ch _ X hX0 _
    exact VNear.zero' (by linarith) (mul_nonneg (Nat.cast_nonneg _) (hg.lev_nonneg hX0)) fun k _ => hft i hi ch k
  · intro ch _ X hX0 _
    refine V1Near.zero' ?_ ?_ fun k _ => sum_eq_zero fun i hi => ?_
    · exact (macK_upK hg c.K).1
    · exact macM_nonneg _ _ (hg.lev_nonneg hX0) _
    · rw [mem_range] at hi
      rw [hft (i+1) (by omega) ch k, zero_mul]

/-- state after `t` samples of `x` since the start or the last reset -/
def UInv (f : Fp) (c : UPar) (x : ℕ → ℕ → ℝ) (t : ℕ) (s : UPC) : Prop :=
  ∃ T0, c.K + 5 ≤ T0 ∧ UCore f c (fun ch => shift (T0 * c.B) (x ch)) (T0 * c.B + t) s

theorem UInv.of_zero {G : ℕ → ℕ → ℕ → ℂ} (hg : f.Good)
    (h : URep c G 0 (fun _ _ => 0) (fun _ _ _ => 0) (fun _ _ => 0) s) (hG : GNear f c G) (x : ℕ → ℕ → ℝ) :
    UInv f c x 0 s := by
  refine ⟨c.K + 5, le_rfl, UCore.of_zero hg h hG le_rfl ?_⟩
  intro ch i hi
  unfold shift; rw [if_pos hi]

theorem UInv.rep {t : ℕ} (h : UInv f c x t s) : ∃ G R F V, URep c G (t % c.B) R F V s ∧ GNear f c G := by
  obtain ⟨T0, _, h⟩ := h
  obtain ⟨q, e, G, R, F, V, _, he, hT, _, rep, hG, _⟩ := h.ex
  refine ⟨G, R, F, V, ?_, hG⟩
  have : t % c.B = e % c.B := by
    rw [← Nat.mul_add_mod c.B T0 t, mul_comm c.B, hT, add_comm, Nat.add_mul_mod_self_right]
  rw [this]; exact rep

theorem UInv.reset (hg : f.Good) {t : ℕ} (h : UInv f c x t s) (x' : ℕ → ℕ → ℝ) :
    UInv f c x' 0 s.reset := by
  obtain ⟨G, R, F, V, rep, hG⟩ := h.rep
  exact UInv.of_zero hg rep.reset hG x'

/-- `Process` on any block size -/
theorem UInv.step (hA : f.Acc) (hr : UFits f c) {F' : RealFFT} (hF' : f.Fft F')
    {t : ℕ} (h : UInv f c x t s) {blk : Buf} (hch : blk.ch = c.nch)
    (hin : ∀ ch < c.nch, ∀ i < blk.n, blk.data ch i = x ch (t + i)) :
    ∃ s' blk', s.processR F' blk = some (s', blk') ∧ blk'.n = blk.n ∧ blk'.ch = c.nch ∧
      (∀ ch < c.nch, ∀ i < blk.n, ∀ X, Recent f (x ch) c.B (c.N + c.K * c.B) (t + i) X →
        Near (upK f.u f.ε c.K) (msize f.θ c.N c.B c.K (c.h ch) X) (blk'.data ch i) (linConv (c.K * c.B) (c.h ch) (x ch) (t + i))) ∧
      UInv f c x (t + blk.n) s' := by
  obtain ⟨G, R, F, V, rep, _⟩ := h.rep
  obtain ⟨T0, hT0, hc⟩ := h
  have hmod : (T0 * c.B + t) % c.B = t % c.B := by rw [mul_comm, Nat.mul_add_mod]
  obtain ⟨s', blk', e1, n1, c1, d1, _, core⟩ := hc.loop hA hr hF' blk.n
    (blk := blk) (done := 0) hch (by omega)
    (by rw [hmod]; exact fun hn => fuel_enough (Nat.mod_lt _ rep.hB) hn) (by
      intro ch hc i hi
      rw [zero_add, hin ch hc i (by omega)]
      unfold shift; rw [if_neg (by omega)]; congr 1; omega)
  refine ⟨s', blk', e1, n1, c1, ?_, T0, hT0, by rw [← add_assoc]; exact core⟩
  intro ch hc i hi X hX
  have key : linConv (c.K * c.B) (c.h ch) (x ch) (t + i) =
      ∑ m ∈ range (c.K * c.B), c.h ch m * shift (T0 * c.B) (x ch) (T0 * c.B + t + (i - 0) - m) := by
    have hb : (c.K + 5) * c.B ≤ T0 * c.B := Nat.mul_le_mul_right _ hT0
    have hb2 : (c.K + 5) * c.B = c.K * c.B + 5 * c.B := by ring
    have := sum_dconv (a := T0 * c.B) (n := t + i) (D := 0) (m := c.K * c.B) (h := c.h ch) (x := x ch) (by omega)
    unfold dconv at this
    rw [if_pos (by omega)] at this
    rw [← Nat.sub_zero (t + i), ← this]
    refine sum_congr rfl fun m _ => ?_
    congr 2; omega
  rw [key]
  refine d1 ch hc i hi (by omega) X ⟨hX.lev, fun j hj hj' => ?_⟩
  unfold shift
  split
  · rw [abs_zero]; exact hA.lev_nonneg hX.lev
  · exact hX.bnd _ (by omega) (by omega)

theorem UInv.create (hg : f.Good) {F' : RealFFT} (hF' : f.Fft F') {B nch : ℕ} (hB : 0 < B) (hB' : B ≤ 2^24) {ir : Buf}
    (hn : 0 < ir.n) (hn' : ir.n ≤ 2^24) (hch : 0 < nch → 0 < ir.ch) (ring0 : ℕ → ℕ → ℝ) :
    ∃ s, UPC.create F' B nch ir ring0 = some s ∧ (UFits f (uPar B nch ir) → ∀ x, UInv f (uPar B nch ir) x 0 s) := by
  obtain ⟨o1, o2, o3⟩ := order_bounds hB
  unfold UPC.create
  rw [if_neg (by omega)]
  simp only [numPartitionsFor_eq hB hn' hB']
  obtain ⟨v, ev, hv⟩ := buildVec_eq (CBuf.mk0 0 0) (f := UPC.filterPartition F' B (fftOrder B) nch ir) (n := segK B ir)
    (Q := fun i b => b.np = 2^(fftOrder B) ∧ b.ch = nch ∧
      ∀ ch < nch, ∃ d : ℕ → ℝ, (∀ j < 2^(fftOrder B), d j = if j < B then zext ir (ch % ir.ch) (i * B + j) else 0) ∧
        ∀ k ≤ 2^(fftOrder B) / 2, b.get ch k = bin (F'.fwd (fftOrder B) d) k)
    (fun i hi => filterPartition_eq F' o1 o2 hch (by
      rw [Nat.lt_div_iff_mul_lt hB] at hi; omega))
  rw [ev]
  have hpos : 0 < 2^(fftOrder B) := by positivity
  refine ⟨_, rfl, fun hr x => UInv.of_zero hg (G := fun i => (v i).get) ?_ ?_ x⟩
  · refine URep.reset (R := fun ch j => ring0 ch (slot (2^fftOrder B) 0 j))
      (F := fun _ => (CBuf.mk0 (2^fftOrder B) nch).clear.get) (V := (CBuf.mk0 (2^fftOrder B) nch).get) (col := 0) ?_
    exact
      { hB := hB, hN2 := o2, hN4 := o3, hK := Nat.div_pos (by omega) hB, partSize := rfl, order := rfl, discard := rfl
        col := rfl, Kf := rfl, filt := fun i hi => ⟨(hv i hi).1, (hv i hi).2.1, fun _ _ _ _ => rfl⟩, fdlK := rfl
        fdlh := Nat.div_pos (by omega) hB, fdl := fun i _ => ⟨rfl, rfl⟩
        conv := ⟨rfl, rfl⟩, ifft := ⟨rfl, rfl⟩, rn := rfl, rc := rfl, rh := hpos, hR := fun ch _ j _ => rfl
        hF := fun i _ ch _ k _ => rfl, hV := fun ch _ k _ => rfl }
  · intro i hi ch hc
    obtain ⟨d, d1, d2⟩ := (hv i hi).2.2 ch hc
    have hl : l2 (2^(fftOrder B)) (fun j => (((uPar B nch ir).H ch i j : ℝ) : ℂ)) ≤ pnF f.θ B (zext ir (ch % ir.ch)) i := by
      have : (fun j => (((uPar B nch ir).H ch i j : ℝ) : ℂ)) =
          fun j => if j < B then ((zext ir (ch % ir.ch) (i * B + j) : ℝ) : ℂ) else 0 := by
        funext j; unfold UPar.H; split <;> simp
      rw [this, l2_pad (by omega)]; exact le_max_right _ _
    have := near_fwd hg hF' o1 (d := d) (r := (uPar B nch ir).H ch i) (fun j hj => d1 j hj) hl (by
      have := floor_pn hg o3 (zext ir (ch % ir.ch)) i
      rw [Nat.cast_pow, Nat.cast_ofNat] at this
      exact this) (by
      have := hr.hg ch hc i hi
      simp only [uPar, UPar.N] at this
      rw [Nat.cast_pow, Nat.cast_ofNat] at this
      exact this)
    refine (this.mono le_rfl (le_of_eq ?_)).congr (fun k hk => d2 k ?_) (fun k _ => rfl)
    · push_cast; rfl
    · have : k < 2^(fftOrder B)/2+1 := hk
      omega

end Zones.Proofs.R
