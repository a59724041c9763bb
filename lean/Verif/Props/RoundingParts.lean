import Verif.Props.SubConvolvers
import Verif.Proofs.RIdeal
import Verif.Proofs.RFloat

/-!
# The transforms and the sub convolvers in floating point (C69, C70)

`Accurate u τ L` and `Approx F ε` (`Verif.Spec.Rounding`) are what is assumed of the arithmetic.
-/

open Finset Zones.Spec Zones.Model Zones.Proofs Zones.Proofs.R

namespace Zones.Props

theorem pnorm_eq {P : ℕ} {ir : Buf} {c i : ℕ} : pnorm P (zext ir c) i = blockNorm (extended ir c) (i * P) P := by
  unfold pnorm l2 blockNorm
  congr 1
  refine sum_congr rfl fun j _ => ?_
  rw [Complex.norm_real, Real.norm_eq_abs, sq_abs]
  rfl

theorem pnF_eq {P : ℕ} {ir : Buf} {c i : ℕ} : pnF 0 P (zext ir c) i = blockNorm (extended ir c) (i * P) P := by
  unfold pnF
  rw [mul_zero, max_eq_right (pnorm_nonneg _ _ _), pnorm_eq]

theorem order_lt {B : ℕ} (hB : 0 < B) : 2 ^ fftOrder B < 4 * B := by
  unfold fftOrder
  have := Nat.pow_pred_clog_lt_self (b := 2) (by norm_num) (x := B * 2) (by omega)
  have h3 : 0 < Nat.clog 2 (B * 2) := Nat.clog_pos (by norm_num) (by omega)
  obtain ⟨k, hk⟩ : ∃ k, Nat.clog 2 (B * 2) = k + 1 := ⟨Nat.clog 2 (B * 2) - 1, by omega⟩
  rw [hk] at this ⊢
  simp only [Nat.pred_eq_sub_one, Nat.add_sub_cancel] at this
  rw [pow_succ]; omega

theorem window_le {B : ℕ} (hB : 0 < B) (ir : Buf) : 2 ^ fftOrder B + segK B ir * B ≤ ir.n + 5 * B := by
  have h1 := segK_mul hB ir
  have h2 := order_lt hB
  omega

theorem upc_size {B : ℕ} (hB : 0 < B) {ir : Buf} {c : ℕ} {X : ℝ} (hX : 0 ≤ X) :
    msize 0 (2 ^ fftOrder B) B (segK B ir) (zext ir c) X ≤
      X * (2 * √(4 * B) * ∑ i ∈ range ((ir.n + B - 1) / B), blockNorm (extended ir c) (i * B) B) := by
  unfold msize
  rw [sum_congr rfl fun i _ => pnF_eq]
  rw [show 2 * √((2 ^ fftOrder B : ℕ) : ℝ) * X * ∑ i ∈ range (segK B ir), blockNorm (extended ir c) (i * B) B =
    X * (2 * √((2 ^ fftOrder B : ℕ) : ℝ) * ∑ i ∈ range ((ir.n + B - 1) / B), blockNorm (extended ir c) (i * B) B) by ring]
  refine mul_le_mul_of_nonneg_left (mul_le_mul_of_nonneg_right (mul_le_mul_of_nonneg_left (Real.sqrt_le_sqrt ?_) (by norm_num))
    (sum_nonneg fun _ _ => Real.sqrt_nonneg _)) hX
  have h2 := (order_lt hB).le
  exact_mod_cast h2

theorem sqrt2_mul_half (n : ℕ) : (√2 / 2) ^ n * √2 ^ n = 1 := by
  rw [← mul_pow, div_mul_eq_mul_div, Real.mul_self_sqrt (by norm_num)]
  norm_num

variable [Arith] {u τ ε : ℝ} {L : ℕ}

theorem down_near (hA : Accurate u τ L) {n : ℕ} (hL : n ≤ L) {κ M : ℝ} {z' z : ℕ → ℂ} (h : VNear (2^n) κ M z' z) :
    VNear (2^n) (κ * lvl u τ ^ n) (√2 ^ n * M) (R.down n z') (Proofs.down n z) :=
  VNear.down (ideal_acc hA (le_refl (0:ℝ))) le_rfl hL (by simpa [Fp.ideal] using h.nonneg) trivial h

theorem up_near (hA : Accurate u τ L) {n : ℕ} (hL : n ≤ L) {κ M : ℝ} {z' z : ℕ → ℂ} (h : VNear (2^n) κ M z' z) :
    VNear (2^n) (κ * lvl u τ ^ n) ((√2 / 2) ^ n * M) (R.up n z') (Proofs.up n z) :=
  VNear.up (ideal_acc hA (le_refl (0:ℝ))) le_rfl hL (by
    have := h.nonneg
    simp only [Fp.ideal, mul_zero]
    positivity) trivial h

theorem up1_near (hA : Accurate u τ L) {n : ℕ} (hL : n ≤ L) {κ M : ℝ} {z' z : ℕ → ℂ} (h : V1Near (2^n) κ M z' z) {i : ℕ}
    (hi : i < 2^n) : CNear (κ * lvl u τ ^ n) (M / 2^n) (R.up n z' i) (Proofs.up n z i) :=
  V1Near.up (ideal_acc hA (le_refl (0:ℝ))) hL (by
    have := (l1_nonneg _ _).trans h.bnd
    simpa [Fp.ideal] using this) trivial h hi

theorem ideal_ufits {c : UPar} : UFits (Fp.ideal u τ ε L) c :=
  ⟨fun _ _ => trivial, fun _ _ _ _ => trivial, fun _ _ _ _ => trivial⟩

theorem ideal_tfits {n P K : ℕ} {h : ℕ → ℝ} : TFits (Fp.ideal u τ ε L) n P K h :=
  ⟨fun _ _ => trivial, fun _ _ => trivial, fun _ _ => trivial⟩

/-- **C69 (forward).** In floating point `ForwardFFTUnordered` still computes the DFT, in bit-reversed order: the error is at most
`((1+u)^3 (1+τ))^n - 1`, about `n (3u + τ)`, relative to the Euclidean norm of the exact result, `√(2^n) ‖d‖`. -/
theorem C69_forward_error (hA : Accurate u τ L) (n sz : ℕ) (hL : n ≤ L) (hsz : 2^n ≤ sz) (d : ℕ → ℂ) :
    ∃ r, forwardFFTUnorderedR sz 0 (2^n) d = some r ∧
      l2 (2^n) (fun k => r k - dft (2^n) d (bitrev n k)) ≤ (((1 + u) ^ 3 * (1 + τ)) ^ n - 1) * (√(2 ^ n) * l2 (2^n) d) ∧
      ∀ k ≥ 2^n, r k = d k := by
  have h := R.forwardFFT_eq (M := n) (s := 0) (sz := sz) (by omega) d
  rw [Nat.zero_mul] at h
  refine ⟨_, h, ?_, fun k hk => ?_⟩
  · have h1 := down_near hA hL (VNear.refl (N := 2^n) (z := d) le_rfl)
    rw [one_mul, sqrt_two_pow] at h1
    refine le_trans (le_of_eq (l2_congr fun k hk => ?_)) h1.err
    simp only [onSet, InBlk, Nat.zero_mul, zero_add, zero_le, true_and, hk, if_true]
    rw [Proofs.down_dft n d k hk]
  · simp only [onSet, InBlk, Nat.zero_mul, zero_add, zero_le, true_and]
    rw [if_neg (by omega)]

/-- **C69 (inverse).** When the buffer holds the DFT of `x` in bit-reversed order, `InverseFFTUnordered` recovers `x` up to the
same relative error: in the Euclidean norm, and for every single sample relative to the mean magnitude of the spectrum. -/
theorem C69_inverse_error (hA : Accurate u τ L) (n sz : ℕ) (hL : n ≤ L) (hsz : 2^n ≤ sz) (x y : ℕ → ℂ)
    (hy : ∀ k < 2^n, y k = dft (2^n) x (bitrev n k)) :
    ∃ r, inverseFFTUnorderedR sz 0 (2^n) y = some r ∧
      l2 (2^n) (fun k => r k - x k) ≤ (((1 + u) ^ 3 * (1 + τ)) ^ n - 1) * l2 (2^n) x ∧
      (∀ k < 2^n, ‖r k - x k‖ ≤ (((1 + u) ^ 3 * (1 + τ)) ^ n - 1) * (l1 (2^n) y / 2 ^ n)) ∧
      ∀ k ≥ 2^n, r k = y k := by
  have h := R.inverseFFT_eq (M := n) (s := 0) (sz := sz) (by omega) y
  rw [Nat.zero_mul] at h
  have hyd : ∀ k < 2^n, y k = Proofs.down n x k := fun k hk => by rw [hy k hk, Proofs.down_dft n x k hk]
  have hup : ∀ k < 2^n, Proofs.up n y k = x k := by
    intro k hk
    have h1 := Proofs.up_congrOn (S := InBlk n 0) (m := n) (fun a ha => closed_block ha) (d := y) (d' := Proofs.down n x)
      (fun j hj => hyd j (by have := hj.2; omega)) k ⟨by omega, by omega⟩
    rw [h1, Proofs.up_down]
  have hr : ∀ k < 2^n, onSet (InBlk n 0) (R.up n) y k = R.up n y k := by
    intro k hk
    rw [onSet, if_pos ⟨by omega, by omega⟩]
  refine ⟨_, h, ?_, fun k hk => ?_, fun k hk => ?_⟩
  · have h0 : l2 (2^n) y = √2 ^ n * l2 (2^n) x := by
      have h1 : l2 (2^n) y ≤ √2 ^ n * l2 (2^n) x := by
        rw [l2_congr hyd]
        have := (down_near hA hL (VNear.refl (N := 2^n) (z := x) le_rfl)).bnd
        exact this
      have h2 : l2 (2^n) x ≤ (√2 / 2) ^ n * l2 (2^n) y := by
        have := (up_near hA hL (VNear.refl (N := 2^n) (z := y) le_rfl)).bnd
        rw [l2_congr hup] at this
        exact this
      refine le_antisymm h1 ?_
      have h3 := mul_le_mul_of_nonneg_left h2 (show 0 ≤ √2 ^ n by positivity)
      rw [← mul_assoc, mul_comm (√2 ^ n) ((√2 / 2) ^ n), sqrt2_mul_half, one_mul] at h3
      exact h3
    have h1 := (up_near hA hL (VNear.refl (N := 2^n) (z := y) le_rfl)).err
    rw [one_mul, h0, ← mul_assoc ((√2 / 2) ^ n), sqrt2_mul_half, one_mul] at h1
    refine le_trans (le_of_eq (l2_congr fun k hk => ?_)) h1
    rw [hr k hk, hup k hk]
  · have h1 := (up1_near hA hL (V1Near.refl (z := y) le_rfl) hk).err
    rw [one_mul, hup k hk] at h1
    rw [hr k hk]
    exact h1
  · simp only [onSet, InBlk, Nat.zero_mul, zero_add, zero_le, true_and]
    rw [if_neg (by omega)]

/-- **C69 (round trip).** Transforming forth and back in floating point returns the data up to a relative error of
`((1+u)^3 (1+τ))^(2n) - 1`. -/
theorem C69_round_trip_error (hA : Accurate u τ L) (n sz : ℕ) (hL : n ≤ L) (hsz : 2^n ≤ sz) (d : ℕ → ℂ) :
    ∃ r b, forwardFFTUnorderedR sz 0 (2^n) d = some r ∧ inverseFFTUnorderedR sz 0 (2^n) r = some b ∧
      l2 (2^n) (fun k => b k - d k) ≤ (((1 + u) ^ 3 * (1 + τ)) ^ (2 * n) - 1) * l2 (2^n) d ∧ ∀ k ≥ 2^n, b k = d k := by
  have h := R.forwardFFT_eq (M := n) (s := 0) (sz := sz) (by omega) d
  rw [Nat.zero_mul] at h
  have h' := R.inverseFFT_eq (M := n) (s := 0) (sz := sz) (by omega) (onSet (InBlk n 0) (R.down n) d)
  rw [Nat.zero_mul] at h'
  refine ⟨_, _, h, h', ?_, fun k hk => ?_⟩
  · have h1 := up_near hA hL (down_near hA hL (VNear.refl (N := 2^n) (z := d) le_rfl))
    have h2 := h1.err
    rw [one_mul, ← mul_assoc ((√2 / 2) ^ n), sqrt2_mul_half, one_mul, Proofs.up_down, ← pow_add, ← two_mul] at h2
    refine le_trans (le_of_eq (l2_congr fun k hk => ?_)) h2
    rw [onSet, if_pos ⟨by omega, by omega⟩]
    congr 1
    refine R.up_congrOn (S := InBlk n 0) (fun a ha => closed_block ha) (fun j hj => ?_) k ⟨by omega, by omega⟩
    rw [onSet, if_pos hj]
  · simp only [onSet, InBlk, Nat.zero_mul, zero_add, zero_le, true_and]
    rw [if_neg (by omega), if_neg (by omega)]

/-! ## Sub convolvers -/

/-- **C70 (uniform).** The uniform convolver in floating point, for any partition size and any division of the signal into blocks,
new or after any history that ended with `Reset`: the error of a sample is bounded by the input level around it and the norms of
the partitions. -/
theorem C70_uniform_error (hA : Accurate u τ L) {F : RealFFT} (hF : Approx F ε) {B nch : ℕ} (hB : 0 < B) (hB' : B ≤ 2^24) {ir : Buf}
    (hn : 0 < ir.n) (hn' : ir.n ≤ 2^24) (hch : 0 < ir.ch) (ring0 : ℕ → ℕ → ℝ) :
    ∃ c, UPC.create F B nch ir ring0 = some c ∧
      ∀ start, (start = c ∨ ∃ ops used, (∀ b, Op.process b ∈ ops → b.ch = nch) ∧
          history (UPC.processR F) UPC.reset c ops = some used ∧ start = used.reset) →
        ∀ blocks : List Buf, (∀ b ∈ blocks, b.ch = nch) →
          ∃ c' outs, feed (UPC.processR F) start blocks = some (c', outs) ∧ SameShape blocks outs ∧
            ∀ ch < nch, ∀ n < totalLen blocks, ∀ X, LevelAround (stream blocks ch) (ir.n + 5 * B) B n X →
              |stream outs ch n - linConv ir.n (ir.data (ch % ir.ch)) (stream blocks ch) n| ≤
                ((1 + ε) ^ 3 * (1 + u) ^ ((ir.n + B - 1) / B + 1) - 1) *
                  (X * (2 * √(4 * B) * ∑ i ∈ range ((ir.n + B - 1) / B), blockNorm (extended ir (ch % ir.ch)) (i * B) B)) := by
  have hI := ideal_acc hA hF.nonneg
  have hI' : (Fp.ideal u τ ε L).Fft F := ideal_fft hF
  obtain ⟨c, e, hc⟩ := R.UInv.create hI.toGood hI' (nch := nch) hB hB' hn hn' (fun _ => hch) ring0
  refine ⟨c, e, fun start hstart blocks hN => ?_⟩
  have hs : ∀ x, R.UInv (Fp.ideal u τ ε L) (uPar B nch ir) x 0 start := by
    rcases hstart with rfl | ⟨ops, used, hops, e1, rfl⟩
    · exact hc ideal_ufits
    · obtain ⟨used', e2, x, t, hi⟩ := history_rel (process := UPC.processR F) (reset := UPC.reset) (N := nch)
        (Inv := fun x t s => R.UInv (Fp.ideal u τ ε L) (uPar B nch ir) x t s)
        (fun x t s blk h hb hin => by
          obtain ⟨s', blk', e, _, _, _, h'⟩ := R.UInv.step hI ideal_ufits hI' h (blk := blk) hb hin
          exact ⟨s', blk', e, h'⟩)
        (fun x t s x' h => R.UInv.reset hI.toGood h x') ops (stream (lead ops)) 0 c (hc ideal_ufits _) hops
        (fun ch i _ => by rw [zero_add])
      rw [e1] at e2
      have := Option.some.inj e2
      subst this
      exact fun x' => R.UInv.reset hI.toGood hi x'
  obtain ⟨c', outs, e1, sh, d, _⟩ := feed_rel (process := UPC.processR F) (N := nch)
    (Inv := fun t s => R.UInv (Fp.ideal u τ ε L) (uPar B nch ir) (stream blocks) t s) (x := stream blocks)
    (R := fun ch n v => ∀ X, LevelAround (stream blocks ch) (ir.n + 5 * B) B n X →
      |v - linConv ir.n (ir.data (ch % ir.ch)) (stream blocks ch) n| ≤
        ((1 + ε) ^ 3 * (1 + u) ^ ((ir.n + B - 1) / B + 1) - 1) *
          (X * (2 * √(4 * B) * ∑ i ∈ range ((ir.n + B - 1) / B), blockNorm (extended ir (ch % ir.ch)) (i * B) B)))
    (fun t s blk h hb hin => by
      obtain ⟨s', blk', e, n1, c1, d, h'⟩ := R.UInv.step hI ideal_ufits hI' h (blk := blk) hb hin
      refine ⟨s', blk', e, n1, c1, fun o ho i hi X hX => ?_, h'⟩
      have h1 := d o ho i hi X ⟨hX.1, fun j hj hj' => hX.2 j (by
        have := window_le hB ir
        have h2 : t + i < j + (2 ^ fftOrder B + segK B ir * B) := hj'
        omega) hj⟩
      have h2 : linConv ((uPar B nch ir).K * (uPar B nch ir).B) ((uPar B nch ir).h o) (stream blocks o) (t + i) =
          linConv ir.n (ir.data (o % ir.ch)) (stream blocks o) (t + i) := linConv_seg hB ir (o % ir.ch) (stream blocks o) (t + i)
      rw [h2] at h1
      exact h1.errBound (upc_size hB hX.1) le_rfl)
    blocks 0 start (hs _) hN (fun ch _ i _ => by rw [zero_add])
  refine ⟨c', outs, e1, sh, fun ch hc n hn => ?_⟩
  have := d ch hc n hn
  rw [zero_add] at this
  exact this

/-- **C70 (time distributed).** The multichannel time distributed convolver in floating point, new or after any history that
ended with `Reset`: a delayed convolution, with an error bounded by the input level around the sample and the norms of the
partitions. -/
theorem C70_time_distributed_error (hA : Accurate u τ L) {b p nch : ℕ} (hp : 1 ≤ p) (hL : b + p + 1 ≤ L) {seg : Buf}
    (hseg : 0 < seg.n) (hn : seg.n ≤ 2^24) (hch : 0 < seg.ch) (hP : 2^(b+p) ≤ 2^24) (tail0 : ℕ → ℕ → ℕ → ℝ) :
    ∃ m, Multi.createR (2^b) nch (2^p) seg tail0 = some m ∧
      ∀ start, (start = m ∨ ∃ ops used, (∀ blk, Op.process blk ∈ ops → blk.ch = nch ∧ blk.n = 2^b) ∧
          history Multi.processR Multi.reset m ops = some used ∧ start = used.reset) →
        ∀ blocks : List Buf, (∀ blk ∈ blocks, blk.ch = nch ∧ blk.n = 2^b) →
          ∃ m' outs, feed Multi.processR start blocks = some (m', outs) ∧ SameShape blocks outs ∧
            ∀ ch < nch, ∀ n < totalLen blocks, ∀ X, LevelAround (stream blocks ch) (seg.n + 4 * 2^(b+p)) 1 n X →
              |stream outs ch n - delayedConv (2 * 2^(b+p)) seg.n (seg.data (ch % seg.ch)) (stream blocks ch) n| ≤
                (((1 + u) ^ 3 * (1 + τ)) ^ (3 * (b + p + 1)) * (1 + u) ^ ((seg.n + 2^(b+p) - 1) / 2^(b+p) + 2) - 1) *
                  (X * (2 * √(2^(b+p)) * ∑ i ∈ range ((seg.n + 2^(b+p) - 1) / 2^(b+p)),
                    blockNorm (extended seg (ch % seg.ch)) (i * 2^(b+p)) (2^(b+p)))) := by
  have hP0 : 0 < 2^(b+p) := by positivity
  have hI := ideal_acc hA (le_refl (0:ℝ))
  obtain ⟨m, e, hm⟩ := R.MInv.create hI (nch := nch) hp hseg (fun _ => hch) hn hP tail0
  replace hm := hm hL (fun _ _ => ideal_tfits)
  have step : ∀ (x : ℕ → ℕ → ℝ) t s (blk : Buf), (∃ q, t = q * 2^b ∧ R.MInv b p seg nch x q s) → blk.ch = nch → blk.n = 2^b →
      (∀ ch < nch, ∀ i < blk.n, blk.data ch i = x ch (t + i)) →
      ∃ s' blk', s.processR blk = some (s', blk') ∧ blk'.n = blk.n ∧ blk'.ch = nch ∧
        (∀ ch < nch, ∀ i < blk.n, ∀ X, LevelAround (x ch) (seg.n + 4 * 2^(b+p)) 1 (t + i) X →
          |blk'.data ch i - delayedConv (2 * 2^(b+p)) seg.n (seg.data (ch % seg.ch)) (x ch) (t + i)| ≤
            (((1 + u) ^ 3 * (1 + τ)) ^ (3 * (b + p + 1)) * (1 + u) ^ ((seg.n + 2^(b+p) - 1) / 2^(b+p) + 2) - 1) *
              (X * (2 * √(2^(b+p)) * ∑ i ∈ range ((seg.n + 2^(b+p) - 1) / 2^(b+p)),
                blockNorm (extended seg (ch % seg.ch)) (i * 2^(b+p)) (2^(b+p))))) ∧
        ∃ q, t + blk.n = q * 2^b ∧ R.MInv b p seg nch x q s' := by
    rintro x t s blk ⟨q, rfl, h⟩ hc hb hin
    obtain ⟨s', blk', e, c1, n1, d, h'⟩ := R.MInv.step hI hL (fun _ _ => ideal_tfits) h hc hb (fun c hc i hi => hin c hc i (by omega))
    refine ⟨s', blk', e, by rw [n1, hb], c1, fun ch hc i hi X hX => ?_, q + 1, by rw [hb]; ring, h'⟩
    have h1 := d ch hc i (by omega) X ⟨hX.1, fun j hj hj' => hX.2 j (by
      have := segK_mul hP0 seg
      rw [Nat.add_mul] at hj'
      omega) hj⟩
    refine h1.errBound (le_of_eq ?_) le_rfl
    unfold segM msize
    rw [show (Fp.ideal u τ 0 L).θ = 0 from rfl]
    rw [sum_congr rfl fun i _ => pnF_eq]
    push_cast
    ring
  refine ⟨m, e, fun start hstart blocks hN => ?_⟩
  have hs : ∀ x, R.MInv b p seg nch x 0 start := by
    rcases hstart with rfl | ⟨ops, used, hops, e1, rfl⟩
    · exact hm
    · obtain ⟨used', e2, x, t, q, rfl, hi⟩ := history_rel_ok (process := Multi.processR) (reset := Multi.reset) (N := nch)
        (ok := fun blk => blk.n = 2^b) (Inv := fun x t s => ∃ q, t = q * 2^b ∧ R.MInv b p seg nch x q s)
        (fun x t s blk h hb ho hin => by
          obtain ⟨s', blk', e, _, _, _, h'⟩ := step x t s blk h hb ho hin
          exact ⟨s', blk', e, h'⟩)
        (fun x t s x' ⟨q, _, h⟩ => ⟨0, by rw [zero_mul], h.reset hI hL (fun _ _ => ideal_tfits) x'⟩) ops (stream (lead ops)) 0 m ⟨0, by rw [zero_mul], hm _⟩ hops
        (fun ch i _ => by rw [zero_add])
      rw [e1] at e2
      have := Option.some.inj e2
      subst this
      exact fun x' => hi.reset hI hL (fun _ _ => ideal_tfits) x'
  obtain ⟨c', outs, e1, sh, d, _⟩ := feed_rel_ok (process := Multi.processR) (N := nch) (ok := fun blk => blk.n = 2^b)
    (Inv := fun t s => ∃ q, t = q * 2^b ∧ R.MInv b p seg nch (stream blocks) q s) (x := stream blocks)
    (R := fun ch n v => ∀ X, LevelAround (stream blocks ch) (seg.n + 4 * 2^(b+p)) 1 n X →
      |v - delayedConv (2 * 2^(b+p)) seg.n (seg.data (ch % seg.ch)) (stream blocks ch) n| ≤
        (((1 + u) ^ 3 * (1 + τ)) ^ (3 * (b + p + 1)) * (1 + u) ^ ((seg.n + 2^(b+p) - 1) / 2^(b+p) + 2) - 1) *
          (X * (2 * √(2^(b+p)) * ∑ i ∈ range ((seg.n + 2^(b+p) - 1) / 2^(b+p)),
            blockNorm (extended seg (ch % seg.ch)) (i * 2^(b+p)) (2^(b+p)))))
    (fun t s blk h hb ho hin => step _ t s blk h hb ho hin)
    blocks 0 start ⟨0, by rw [zero_mul], hs _⟩ hN (fun ch _ i _ => by rw [zero_add])
  refine ⟨c', outs, e1, sh, fun ch hc n hn => ?_⟩
  have := d ch hc n hn
  rw [zero_add] at this
  exact this

end Zones.Props
