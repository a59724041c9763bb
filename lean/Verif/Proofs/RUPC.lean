import Verif.Proofs.RDFT
import Verif.Proofs.RMulti
import Verif.Proofs.UPCInv

/-! # `UniformPartitionedConvolver` in rounded arithmetic -/

open Finset Zones.Spec Zones.Model

namespace Zones.Proofs.R

/-! ## Transforms -/

/-- the real-only transforms are as good as `f` says -/
structure Fp.Fft (f : Fp) (F : RealFFT) : Prop where
  fwd : ∀ o, 0 < o → ∀ (d : ℕ → ℝ) (M : ℝ), l2 (2 ^ o) (fun j => (d j : ℂ)) ≤ M → √(2 ^ o) * f.φ ≤ M →
    f.fits ((1 + f.ε) * (√(2 ^ o) * M)) →
    l2 (2 ^ o / 2 + 1) (fun k => bin (F.fwd o d) k - dft (2 ^ o) (fun j => (d j : ℂ)) k) ≤ f.ε * (√(2 ^ o) * M)
  inv : ∀ o, 0 < o → ∀ (d : ℕ → ℝ) (M : ℝ), l1 (2 ^ o / 2 + 1) (bin d) ≤ M → 2 ^ o * f.φ ≤ M →
    f.fits ((1 + f.ε) * M) → ∀ n < 2 ^ o, |F.inv o d n - realInv (2 ^ o) (bin d) n| ≤ f.ε * (2 / 2 ^ o * M)

theorem near_fwd {f : Fp} (hg : f.Good) {F : RealFFT} (hF : f.Fft F) {o : ℕ} (ho : 0 < o) {d r : ℕ → ℝ}
    (hd : ∀ j < 2^o, d j = r j)
    {M : ℝ} (hM : l2 (2^o) (fun j => (r j : ℂ)) ≤ M) (hfl : √(2 ^ o) * f.φ ≤ M) (hf : f.fits ((1 + f.ε) * (√(2 ^ o) * M))) :
    VNear (2^o/2+1) (1 + f.ε) (√(2^o) * M) (bin (F.fwd o d)) (dft (2^o) (fun j => (r j : ℂ))) := by
  have h0 := hg.ε_nonneg
  have e1 : l2 (2^o) (fun j => (d j : ℂ)) = l2 (2^o) (fun j => (r j : ℂ)) := l2_congr fun j hj => by rw [hd j hj]
  have e2 : dft (2^o) (fun j => (d j : ℂ)) = dft (2^o) (fun j => (r j : ℂ)) := by
    funext k; unfold dft; exact sum_congr rfl fun j hj => by beta_reduce; rw [hd j (mem_range.mp hj)]
  have h1 := hF.fwd o ho d M (by rw [e1]; exact hM) hfl hf
  rw [e2] at h1
  refine ⟨by linarith, ?_, (l2_half_dft ho _).trans (mul_le_mul_of_nonneg_left hM (Real.sqrt_nonneg _))⟩
  refine h1.trans ?_
  rw [add_sub_cancel_left]

theorem near_inv {f : Fp} (hg : f.Good) {F : RealFFT} (hF : f.Fft F) {o : ℕ} (ho : 0 < o) {d y : ℕ → ℝ} {κ M : ℝ}
    (h : V1Near (2^o/2+1) κ M (bin d) (dft (2^o) (fun j => (y j : ℂ)))) (hfl : 2 ^ o * f.φ ≤ M)
    (hf : f.fits (κ * (1 + f.ε) * M)) {n : ℕ} (hn : n < 2^o) :
    Near (κ * (1 + f.ε)) (2/2^o * M) (F.inv o d n) (y n) := by
  have h0 := hg.ε_nonneg
  have hk := h.one
  have hs : 0 ≤ (2/2^o : ℝ) := by positivity
  have hM : 0 ≤ M := (mul_nonneg (by positivity) hg.φ_nonneg).trans hfl
  set Y := dft (2^o) (fun j => (y j : ℂ)) with hY
  have hy : y n = realInv (2^o) Y n := by rw [realInv_dft ho y (fun k _ => rfl) hn]
  have b1 : |y n| ≤ 2/2^o * M := by
    rw [hy]
    exact (abs_realInv Y n).trans (mul_le_mul_of_nonneg_left h.bnd hs)
  refine ⟨by nlinarith, ?_, b1⟩
  have e1 : |F.inv o d n - y n| ≤ |F.inv o d n - realInv (2^o) (bin d) n| + |realInv (2^o) (bin d) n - realInv (2^o) Y n| := by
    rw [hy]; exact abs_sub_le _ _ _
  have e3 : |realInv (2^o) (bin d) n - realInv (2^o) Y n| ≤ 2/2^o * ((κ - 1) * M) := by
    rw [← realInv_sub]
    exact (abs_realInv _ n).trans (mul_le_mul_of_nonneg_left h.err hs)
  have e4 := hF.inv o ho d (κ * M) h.bnd' (hfl.trans (by nlinarith)) (by
    rw [show (1 + f.ε) * (κ * M) = κ * (1 + f.ε) * M by ring]; exact hf) n hn
  have : (κ * (1 + f.ε) - 1) * (2/2^o * M) = f.ε * (2/2^o * (κ * M)) + 2/2^o * ((κ - 1) * M) := by ring
  linarith

/-- the state `s` has the shape given by `c` and its buffers hold `G R F V` -/
structure URep (c : UPar) (G : ℕ → ℕ → ℕ → ℂ) (col : ℕ) (R : ℕ → ℕ → ℝ) (F : ℕ → ℕ → ℕ → ℂ) (V : ℕ → ℕ → ℂ) (s : UPC) : Prop where
  hB : 0 < c.B
  hN2 : 2 * c.B ≤ c.N
  hN4 : c.N ≤ 4 * c.B
  hK : 0 < c.K
  partSize : s.partSize = c.B
  order : s.order = c.o
  discard : s.discard = c.D
  col : s.collected = col
  Kf : s.numFilters = c.K
  filt : ∀ i < c.K, (s.filters i).np = c.N ∧ (s.filters i).ch = c.nch ∧
    ∀ ch < c.nch, ∀ k ≤ c.N / 2, (s.filters i).get ch k = G i ch k
  fdlK : s.fdl.numBlocks = c.K
  fdlh : s.fdl.head < c.K
  fdl : ∀ i < c.K, (s.fdl.line i).ch = c.nch ∧ (s.fdl.line i).np = c.N
  conv : s.conv.ch = c.nch ∧ s.conv.np = c.N
  ifft : s.ifft.ch = c.nch ∧ s.ifft.np = c.N
  rn : s.ring.buf.n = c.N
  rc : s.ring.buf.ch = c.nch
  rh : s.ring.head < c.N
  hR : ∀ ch < c.nch, ∀ j < c.N, s.ring.buf.data ch (slot c.N s.ring.head j) = R ch j
  hF : ∀ i < c.K, ∀ ch < c.nch, ∀ k ≤ c.N / 2, (s.fdl.line (s.fdl.idx i)).get ch k = F i ch k
  hV : ∀ ch < c.nch, ∀ k ≤ c.N / 2, s.conv.get ch k = V ch k

variable {c : UPar} {G : ℕ → ℕ → ℕ → ℂ} {col : ℕ} {R : ℕ → ℕ → ℝ} {F : ℕ → ℕ → ℕ → ℂ} {V : ℕ → ℕ → ℂ} {s : UPC}

theorem URep.half_lt (h : URep c G col R F V s) : c.N / 2 < c.N := by
  have := h.hB; have := h.hN2; omega

theorem URep.hDN (h : URep c G col R F V s) : c.D + c.B = c.N := by
  have h2 := h.hN2
  simp only [UPar.D, UPar.N] at h2 ⊢; omega

theorem URep.order_pos (h : URep c G col R F V s) : 0 < c.o := by
  have := h.hB; have h2 := h.hN2
  by_contra hc
  have : c.o = 0 := by omega
  simp only [UPar.N, this, pow_zero] at h2; omega

theorem URep.reset {col : ℕ} {R : ℕ → ℕ → ℝ} {F : ℕ → ℕ → ℕ → ℂ} {V : ℕ → ℕ → ℂ} (h : URep c G col R F V s) :
    URep c G 0 (fun _ _ => 0) (fun _ _ _ => 0) (fun _ _ => 0) s.reset := by
  have hlt := h.half_lt
  exact { h with
    col := rfl
    fdlK := h.fdlK
    fdlh := h.fdlh
    fdl := by
      intro i hi
      simp only [UPC.reset, FDL.clear, h.fdlK, hi, if_true]
      exact h.fdl i hi
    conv := h.conv
    ifft := h.ifft
    rn := h.rn
    rc := h.rc
    rh := h.rh
    hR := by
      intro ch hc j hj
      simp only [UPC.reset, Buf.clear]
      rw [if_pos]
      exact ⟨by rw [h.rc]; exact hc, by rw [h.rn]; exact slot_lt h.rh hj⟩
    hF := by
      intro i hi ch hc k hk
      have hidx : s.fdl.idx i < c.K := by unfold FDL.idx; rw [h.fdlK]; exact Nat.mod_lt _ h.hK
      have hline : s.reset.fdl.line (s.reset.fdl.idx i) = (s.fdl.line (s.fdl.idx i)).clear := by
        show (if s.fdl.idx i < s.fdl.numBlocks then _ else _) = _
        rw [if_pos (by rw [h.fdlK]; exact hidx)]; rfl
      rw [hline]
      apply get_clear
      · rw [(h.fdl _ hidx).1]; exact hc
      · rw [(h.fdl _ hidx).2]; omega
    hV := by
      intro ch hc k hk
      apply get_clear
      · rw [h.conv.1]; exact hc
      · rw [h.conv.2]; omega }

theorem filterPartition_eq (F' : RealFFT) {o B nch : ℕ} (ho : 0 < o) (hBN : 2 * B ≤ 2^o) {ir : Buf}
    (hir : 0 < nch → 0 < ir.ch) {i : ℕ} (hi : i * B < ir.n) :
    ∃ b, UPC.filterPartition F' B o nch ir i = some b ∧ b.np = 2^o ∧ b.ch = nch ∧
      ∀ ch < nch, ∃ d : ℕ → ℝ, (∀ j < 2^o, d j = if j < B then zext ir (ch % ir.ch) (i * B + j) else 0) ∧ ∀ k ≤ 2^o / 2, b.get ch k = bin (F'.fwd o d) k := by
  unfold UPC.filterPartition
  have hsub : ir.sub (i * B) (min B (ir.n - i * B)) =
      some ⟨ir.ch, min B (ir.n - i * B), fun c j => ir.data c (i * B + j)⟩ := by
    unfold Buf.sub; rw [if_pos ⟨hi, by omega⟩]
  simp only [hsub, Option.bind_eq_bind, Option.bind_some]
  set part : Buf := ⟨ir.ch, min B (ir.n - i * B), fun c j => ir.data c (i * B + j)⟩ with hpart
  have hpos : 0 < 2^o := by positivity
  have hNe : 2 * (2^o / 2) = 2^o := by
    obtain ⟨q, rfl⟩ : ∃ q, o = q + 1 := ⟨o - 1, by omega⟩
    rw [pow_succ]; omega
  have main : ∀ m ≤ nch, ∃ b, (List.range m).foldlM (UPC.filterChannel F' o part) (CBuf.mk0 (2^o) nch).clear = some b ∧
      b.np = 2^o ∧ b.ch = nch ∧
      (∀ ch < m, ∃ d : ℕ → ℝ, (∀ j < 2^o, d j = if j < B then zext ir (ch % ir.ch) (i * B + j) else 0) ∧ ∀ k ≤ 2^o / 2, b.get ch k = bin (F'.fwd o d) k) ∧
      ∀ ch < nch, m ≤ ch → ∀ j < 2 * 2^o, b.floats.data ch j = 0 := by
    intro m hm
    induction m with
    | zero =>
      refine ⟨_, rfl, rfl, rfl, fun ch hc => by omega, fun ch hc _ j hj => ?_⟩
      have hz : (CBuf.mk0 (2^o) nch).clear.get ch (j/2) = 0 := get_clear hc (by show j / 2 < 2^o; omega)
      simp only [CBuf.floats]
      rw [hz]; simp
    | succ m ih =>
      obtain ⟨b1, e1, n1, c1, g1, z1⟩ := ih (by omega)
      rw [List.range_succ, List.foldlM_append, e1]
      simp only [Option.bind_eq_bind, Option.bind_some, List.foldlM_cons, List.foldlM_nil]
      unfold UPC.filterChannel
      have hmod : m % part.ch < part.ch := Nat.mod_lt _ (hir (by omega))
      rw [if_neg (by show ¬ ir.ch = 0; omega)]
      have hs1 : part.single (m % part.ch) = some ⟨1, part.n, fun _ j => part.data (m % part.ch) j⟩ := by
        unfold Buf.single; rw [if_pos hmod]
      have hs2 : b1.floats.single m = some ⟨1, b1.floats.n, fun _ j => b1.floats.data m j⟩ := by
        unfold Buf.single; rw [if_pos (by show m < b1.ch; omega)]
      simp only [hs1, hs2, Option.bind_eq_bind, Option.bind_some]
      set src : ℕ → ℝ := (Buf.copyFrom ⟨1, b1.floats.n, fun _ j => b1.floats.data m j⟩
        ⟨1, part.n, fun _ j => part.data (m % part.ch) j⟩).data 0 with hsrc
      set b2 := b1.ofFloats (b1.floats.putChannel m src) with hb2
      have hb2n : b2.np = 2^o := n1
      have hb2c : b2.ch = nch := c1
      have hfn : b1.floats.n = 2 * 2^o := by show 2 * b1.np = _; rw [n1]
      have hsrcv : ∀ j < 2^o, src j = if j < B then zext ir (m % ir.ch) (i * B + j) else 0 := by
        intro j hj
        simp only [hsrc, Buf.copyFrom, hpart, zext]
        rw [hfn, z1 m (by omega) le_rfl j (by omega)]
        by_cases h1 : j < B
        · rw [if_pos h1]
          by_cases h2 : i * B + j < ir.n
          · rw [if_pos (by omega), if_pos h2]
          · rw [if_neg (by omega), if_neg h2]
        · rw [if_neg h1, if_neg (by omega)]
      have hb2f : ∀ ch < nch, ∀ j < 2 * 2^o, b2.floats.data ch j = if ch = m then src j else b1.floats.data ch j := by
        intro ch hc j hj
        rw [hb2, floats_ofFloats (by omega) (by omega)]
        unfold Buf.putChannel
        simp only
        by_cases hcm : ch = m
        · rw [if_pos ⟨hcm, by omega⟩, if_pos hcm]
        · rw [if_neg (by tauto), if_neg hcm]
      unfold UPC.transformChannel
      rw [if_pos (by omega)]
      have hb3f : ∀ ch < nch, ∀ j < 2 * 2^o, (b2.ofFloats (b2.floats.putChannel m (F'.fwd o (b2.floats.data m)))).floats.data ch j
          = if ch = m then F'.fwd o (b2.floats.data m) j else b1.floats.data ch j := by
        intro ch hc j hj
        rw [floats_ofFloats (by omega) (by omega)]
        unfold Buf.putChannel
        simp only
        have hfn2 : b2.floats.n = 2 * 2^o := by show 2 * b2.np = _; rw [hb2n]
        by_cases hcm : ch = m
        · rw [if_pos ⟨hcm, by omega⟩, if_pos hcm]
        · rw [if_neg (by tauto), if_neg hcm, hb2f ch hc j hj, if_neg hcm]
      refine ⟨_, rfl, hb2n, hb2c, ?_, ?_⟩
      · intro ch hc
        by_cases hcm : ch = m
        · subst hcm
          refine ⟨b2.floats.data ch, fun j hj => by rw [hb2f ch (by omega) j (by omega), if_pos rfl, hsrcv j hj], fun k hk => ?_⟩
          rw [get_eq_floats, hb3f ch (by omega) _ (by omega), hb3f ch (by omega) _ (by omega), if_pos rfl, if_pos rfl]
          rfl
        · obtain ⟨d, d1, d2⟩ := g1 ch (by omega)
          refine ⟨d, d1, fun k hk => ?_⟩
          rw [get_eq_floats, hb3f ch (by omega) _ (by omega), hb3f ch (by omega) _ (by omega), if_neg hcm, if_neg hcm,
            ← get_eq_floats]
          exact d2 k hk
      · intro ch hc hmc j hj
        rw [hb3f ch hc j hj, if_neg (by omega)]
        exact z1 ch hc (by omega) j hj
  obtain ⟨b, e, n1, c1, g, _⟩ := main nch le_rfl
  exact ⟨b, e, n1, c1, g⟩

variable [Arith] {u τ : ℝ} {L : ℕ}

theorem mulFrom_eq {b x y : CBuf} (h1 : b.ch = x.ch) (h2 : x.ch = y.ch) (h3 : b.np = x.np)
    (h4 : x.np = y.np) : ∃ r, b.mulFromR x y = some r ∧ r.np = b.np ∧ r.ch = b.ch ∧
      ∀ c < b.ch, ∀ p < b.np, r.get c p = Arith.mul (x.get c p) (y.get c p) := by
  unfold CBuf.mulFromR
  rw [if_pos ⟨⟨h1, h2⟩, h3, h4⟩]
  refine ⟨_, rfl, rfl, rfl, fun c hc p hp => ?_⟩
  simp only [CBuf.get, CBuf.size]
  rw [if_pos (cidx_lt hc hp), ← h4, ← h3]

theorem addFrom_eq {b x : CBuf} (h1 : b.ch = x.ch) (h3 : b.np = x.np) :
    ∃ r, b.addFromR x = some r ∧ r.np = b.np ∧ r.ch = b.ch ∧
      ∀ c < b.ch, ∀ p < b.np, r.get c p = Arith.add (b.get c p) (x.get c p) := by
  unfold CBuf.addFromR
  rw [if_pos ⟨h1, h3⟩]
  refine ⟨_, rfl, rfl, rfl, fun c hc p hp => ?_⟩
  simp only [CBuf.get, CBuf.size]
  rw [if_pos (cidx_lt hc hp), ← h3]

theorem mulAccFrom_eq {b x y : CBuf} (h1 : b.ch = x.ch) (h2 : x.ch = y.ch) (h3 : b.np = x.np)
    (h4 : x.np = y.np) : ∃ r, b.mulAccFromR x y = some r ∧ r.np = b.np ∧ r.ch = b.ch ∧
      ∀ c < b.ch, ∀ p < b.np, r.get c p = Arith.add (b.get c p) (Arith.mul (x.get c p) (y.get c p)) := by
  unfold CBuf.mulAccFromR
  rw [if_pos ⟨⟨h1, h2⟩, h3, h4⟩]
  refine ⟨_, rfl, rfl, rfl, fun c hc p hp => ?_⟩
  simp only [CBuf.get, CBuf.size]
  rw [if_pos (cidx_lt hc hp), ← h4, ← h3]

theorem URep.prelude_pos (h : URep c G col R F V s) (hc : col ≠ 0) : s.preludeR = some s := by
  unfold UPC.preludeR; rw [if_neg (by rw [h.col]; exact hc)]

theorem URep.prelude_zero (h : URep c G 0 R F V s) :
    ∃ s' F', s.preludeR = some s' ∧ (∀ i, F' (i+1) = F i) ∧
      URep c G 0 (fun ch j => R ch (slot c.N c.B j)) F'
        (fun ch k => macs (c.K - 1) (fun i => F i ch k) (fun i => G (i+1) ch k) 0) s' := by
  have hK := h.hK
  have hB := h.hB
  have hN2 := h.hN2
  have hKf := h.fdlK
  have hlt := h.half_lt
  unfold UPC.preludeR
  rw [if_pos h.col, fdl_getNext (by rw [h.fdlK]; exact h.hK) (by rw [h.fdlK]; exact h.fdlh)]
  simp only [Option.bind_eq_bind, Option.bind_some]
  have hrn : 0 < s.ring.buf.n := by rw [h.rn]; omega
  -- the accumulation loop
  set s1 : UPC := { s with fdl := { s.fdl with head := (s.fdl.head + s.fdl.numBlocks - 1) % s.fdl.numBlocks } } with hs1
  have hline : ∀ i < c.K, ∀ ch < c.nch, ∀ k ≤ c.N / 2, i + 1 < c.K →
      (s1.fdl.line (s1.fdl.idx (i+1))).get ch k = F i ch k := by
    intro i hi ch hch k hk _
    rw [← h.hF i hi ch hch k hk]
    simp only [hs1, FDL.idx, hKf]
    rw [fdl_idx_shift hK]
  have main : ∀ m ≤ c.K - 1, ∃ b', ((List.range m).map (· + 1)).foldlM (UPC.macOneR s1) s.conv.clear = some b' ∧
      b'.ch = c.nch ∧ b'.np = c.N ∧ ∀ ch < c.nch, ∀ k ≤ c.N / 2,
        b'.get ch k = macs m (fun i => F i ch k) (fun i => G (i+1) ch k) 0 := by
    intro m hm
    induction m with
    | zero =>
      refine ⟨_, rfl, h.conv.1, h.conv.2, fun ch hch k hk => ?_⟩
      rw [get_clear (by rw [h.conv.1]; exact hch) (by rw [h.conv.2]; omega)]; rfl
    | succ m ih =>
      obtain ⟨b1, e1, c1, n1, g1⟩ := ih (by omega)
      have hidx : s1.fdl.idx (m+1) < c.K := by simp only [hs1, FDL.idx, hKf]; exact Nat.mod_lt _ hK
      have hl := h.fdl _ hidx
      have hf := h.filt (m+1) (by omega)
      obtain ⟨b2, e2, n2, c2, g2⟩ := mulAccFrom_eq (b := b1) (x := s.fdl.line (s1.fdl.idx (m+1)))
        (y := s.filters (m+1)) (by rw [c1, hl.1]) (by rw [hl.1, hf.2.1]) (by rw [n1, hl.2]) (by rw [hl.2, hf.1])
      refine ⟨b2, ?_, by rw [c2, c1], by rw [n2, n1], ?_⟩
      · rw [List.range_succ, List.map_append, List.foldlM_append, e1]
        simp only [Option.bind_eq_bind, Option.bind_some, List.map_cons, List.map_nil, List.foldlM_cons, List.foldlM_nil]
        unfold UPC.macOneR FDL.getOffset
        have hnb : s1.fdl.numBlocks = c.K := hKf
        have hnf : s1.numFilters = c.K := h.Kf
        rw [hnb, hnf, if_neg (by omega)]
        simp only [Option.bind_eq_bind, Option.bind_some]
        rw [if_pos (by omega)]
        exact (congrArg (fun z => Option.bind z _) e2).trans rfl
      · intro ch hch k hk
        rw [g2 ch (by omega) k (by omega), g1 ch hch k hk, macs_succ, hf.2.2 ch hch k hk,
          ← hline m (by omega) ch hch k hk (by omega)]
  obtain ⟨conv', e1, c1, n1, g1⟩ := main (c.K - 1) le_rfl
  have e1' : List.foldlM (UPC.macOneR s1) s1.conv.clear (List.map (· + 1) (List.range (s1.numFilters - 1))) = some conv' := by
    rw [show s1.numFilters = c.K from h.Kf]; exact e1
  rw [e1']
  simp only [Option.bind_some]
  rw [getNext_eq (r := s1.ring) hrn]
  simp only [Option.bind_some, if_true]
  refine ⟨_, fun i => if i = 0 then fun ch k => (s1.fdl.line (s1.fdl.idx 0)).get ch k else F (i-1), rfl, ?_, ?_⟩
  · intro i; simp
  · have hhead : (s.ring.head + s.partSize) % s.ring.buf.n = slot c.N s.ring.head c.B := by
      rw [h.rn, h.partSize, slot_eq_mod h.rh (by omega)]
    exact { h with
      fdlK := hKf
      fdlh := by simp only [hs1, hKf]; exact Nat.mod_lt _ hK
      conv := ⟨c1, n1⟩
      rn := h.rn
      rc := h.rc
      rh := by
        show (s.ring.head + s.partSize) % s.ring.buf.n < _
        rw [hhead]; exact slot_lt h.rh (by omega)
      hR := by
        intro ch hch j hj
        show s.ring.buf.data ch (slot c.N ((s.ring.head + s.partSize) % s.ring.buf.n) j) = _
        rw [hhead, slot_add h.rh (by omega) hj]
        exact h.hR ch hch _ (slot_lt (by omega) hj)
      hF := by
        intro i hi ch hch k hk
        by_cases hi0 : i = 0
        · subst hi0; rw [if_pos rfl]
        · rw [if_neg hi0]
          obtain ⟨i, rfl⟩ : ∃ i', i = i' + 1 := ⟨i-1, by omega⟩
          exact hline i (by omega) ch hch k hk hi
      hV := g1 }

theorem URep.body (F' : RealFFT) (h : URep c G col R F V s) {blk : Buf} {done k : ℕ} (hk : 0 < k) (hcol : col + k ≤ c.B)
    (hd : done + k ≤ blk.n) (hch : blk.ch = c.nch) (R' : ℕ → ℕ → ℝ)
    (hR' : ∀ ch < c.nch, ∀ j < c.N, R' ch j =
      if c.D + col ≤ j ∧ j < c.D + col + k then blk.data ch (done + (j - (c.D + col))) else R ch j) :
    ∃ (s' : UPC) (blk' : Buf) (X0 : ℕ → ℕ → ℂ) (Y : ℕ → ℕ → ℝ), s.bodyR F' blk done k = some (s', blk') ∧ blk'.n = blk.n ∧ blk'.ch = c.nch ∧
      (∀ ch < c.nch, ∀ i < blk.n, blk'.data ch i =
        if done ≤ i ∧ i < done + k then Y ch (c.D + col + (i - done)) else blk.data ch i) ∧
      (∀ ch < c.nch, ∃ d : ℕ → ℝ, (∀ j < c.N, d j = R' ch j) ∧ ∀ k ≤ c.N / 2, X0 ch k = bin (F'.fwd c.o d) k) ∧
      (∀ ch < c.nch, ∃ d : ℕ → ℝ, (∀ k ≤ c.N / 2, bin d k = Arith.add (Arith.mul (X0 ch k) (G 0 ch k)) (V ch k)) ∧
        ∀ n < c.N, Y ch n = F'.inv c.o d n) ∧
      URep c G ((col + k) % c.B) R' (fun i ch k => if i = 0 then X0 ch k else F i ch k) V s' := by
  have hK := h.hK
  have hB := h.hB
  have hN2 := h.hN2
  have hKf := h.fdlK
  have hlt := h.half_lt
  have hord := h.order_pos
  have hNe : c.N = 2 * (c.N / 2) := by
    simp only [UPar.N]
    obtain ⟨q, hq⟩ : ∃ q, c.o = q + 1 := ⟨c.o - 1, by omega⟩
    rw [hq, pow_succ]; omega
  have hrn : 0 < s.ring.buf.n := by rw [h.rn]; omega
  have hDN := h.hDN
  unfold UPC.bodyR
  have hidx : s.fdl.idx 0 < c.K := by unfold FDL.idx; rw [hKf]; exact Nat.mod_lt _ hK
  have hl := h.fdl _ hidx
  have hsub : blk.sub done k = some ⟨blk.ch, k, fun c i => blk.data c (done + i)⟩ := by
    unfold Buf.sub; rw [if_pos ⟨by omega, hd⟩]
  have hnx1 : (s.ring.head + (s.discard + s.collected)) % s.ring.buf.n = slot c.N s.ring.head (c.D + col) := by
    rw [h.rn, h.discard, h.col, slot_eq_mod h.rh (by omega)]
  obtain ⟨buf', e1, bn, bc, bd⟩ := split_copyFrom (n := c.N) (nx := slot c.N s.ring.head (c.D + col)) (ch := c.nch)
    (k := c.N) (slot_lt h.rh (by omega)) (by omega) le_rfl (r := s.ring.buf)
    (block := ⟨blk.ch, k, fun c i => blk.data c (done + i)⟩) h.rn h.rc (by simp only; omega)
  have hbufR : ∀ ch < c.nch, ∀ j < c.N, buf'.data ch (slot c.N s.ring.head j) = R' ch j := by
    intro ch hc j hj
    rw [hR' ch hc j hj]
    obtain ⟨j', hj', ej⟩ := slot_surj (n := c.N) (nx := c.D + col) (i := j) (by omega) hj
    have e2 : slot c.N s.ring.head j = slot c.N (slot c.N s.ring.head (c.D + col)) j' := by
      rw [slot_add h.rh (by omega) hj', ej]
    have hD : c.D + col + k ≤ c.N := by omega
    rw [e2, bd ch j' hj', ← e2, hch, min_self]
    simp only [hc, true_and]
    unfold slot at ej
    by_cases hjk : j' < k
    · rw [if_pos (by omega)] at ej
      rw [if_pos hjk, if_pos (by omega)]
      congr 1; omega
    · rw [if_neg hjk, if_neg (by split at ej <;> omega), h.hR ch hc j hj]
  obtain ⟨fl, e3, fn, fc, fd⟩ := split_copyTo (n := c.N) (nx := slot c.N s.ring.head 0) (ch := c.nch)
    (slot_lt h.rh (by omega)) (r := buf') (block := (s.fdl.line (s.fdl.idx 0)).clear.floats) (by
      show c.N ≤ 2 * (s.fdl.line (s.fdl.idx 0)).np
      rw [hl.2]; omega)
  have hs0 : slot c.N s.ring.head 0 = s.ring.head := by unfold slot; rw [if_pos]; omega; have := h.rh; omega
  rw [hs0] at e3 fd
  have hflc : fl.ch = c.nch := by rw [fc]; exact hl.1
  have hfdR : ∀ ch < c.nch, ∀ j < c.N, fl.data ch j = R' ch j := by
    intro ch hc j hj
    rw [fd ch j, if_pos, hbufR ch hc j hj]
    refine ⟨?_, hj⟩
    show ch < min (s.fdl.line (s.fdl.idx 0)).ch c.nch
    rw [hl.1]; omega
  set first1 := (s.fdl.line (s.fdl.idx 0)).clear.ofFloats fl with hfirst1
  have hf1c : first1.ch = c.nch := hl.1
  have hf1n : first1.np = c.N := hl.2
  obtain ⟨first2, e4, f2c, f2n, f2g, _⟩ := transformChannels_eq (F'.fwd s.order) c.nch (b := first1) (by rw [hf1c])
    (Q := fun ch g => ∃ d : ℕ → ℝ, (∀ j < c.N, d j = R' ch j) ∧ g = F'.fwd c.o d) (by
      intro ch hc d hd
      refine ⟨d, fun j hj => ?_, by rw [h.order]⟩
      rw [hd j (by rw [hf1n]; simp only [UPar.N] at hj ⊢; omega), hfirst1, floats_ofFloats (by rw [clear_ch, hl.1]; exact hc)
        (by rw [clear_np, hl.2]; simp only [UPar.N] at hj ⊢; omega)]
      exact hfdR ch hc j hj)
  have hf2 : ∀ ch < c.nch, ∃ d : ℕ → ℝ, (∀ j < c.N, d j = R' ch j) ∧ ∀ k ≤ c.N / 2, first2.get ch k = bin (F'.fwd c.o d) k := by
    intro ch hc
    obtain ⟨g, ⟨d, g1, g3⟩, g2⟩ := f2g ch hc
    refine ⟨d, g1, fun k hk => ?_⟩
    rw [get_eq_floats, g2 _ (by omega), g2 _ (by omega), g3]; rfl
  have hfl0 := h.filt 0 hK
  obtain ⟨if1, e5, i1n, i1c, i1g⟩ := mulFrom_eq (b := s.ifft) (x := first2) (y := s.filters 0)
    (by rw [h.ifft.1, f2c, hf1c]) (by rw [f2c, hf1c, hfl0.2.1]) (by rw [h.ifft.2, f2n, hf1n]) (by rw [f2n, hf1n, hfl0.1])
  obtain ⟨if2, e6, i2n, i2c, i2g⟩ := addFrom_eq (b := if1) (x := s.conv)
    (by rw [i1c, h.ifft.1, h.conv.1]) (by rw [i1n, h.ifft.2, h.conv.2])
  have hi2c : if2.ch = c.nch := by rw [i2c, i1c, h.ifft.1]
  have hi2n : if2.np = c.N := by rw [i2n, i1n, h.ifft.2]
  obtain ⟨if3, e7, i3c, i3n, i3g, _⟩ := transformChannels_eq (F'.inv s.order) c.nch (b := if2) (by rw [hi2c])
    (Q := fun ch g => ∃ d : ℕ → ℝ, (∀ k ≤ c.N / 2, bin d k = Arith.add (Arith.mul (first2.get ch k) (G 0 ch k)) (V ch k)) ∧
      g = F'.inv c.o d) (by
      intro ch hc d hd
      refine ⟨d, fun k hk => ?_, by rw [h.order]⟩
      unfold bin
      rw [hd _ (by omega), hd _ (by omega), ← get_eq_floats, i2g ch (by omega) k (by omega),
        i1g ch (by rw [h.ifft.1]; exact hc) k (by rw [h.ifft.2]; omega), hfl0.2.2 ch hc k hk,
        h.hV ch hc k hk])
  have hsub2 : if3.floats.sub (s.discard + s.collected) k =
      some ⟨if3.ch, k, fun ch i => if3.floats.data ch (s.discard + s.collected + i)⟩ := by
    unfold Buf.sub
    have : if3.floats.n = 2 * c.N := by show 2 * if3.np = _; rw [i3n, hi2n]
    rw [if_pos (by rw [this, h.discard, h.col]; omega)]; rfl
  have hgo : s.fdl.getOffset 0 = some (s.fdl.line (s.fdl.idx 0)) := by
    unfold FDL.getOffset; rw [if_neg (by omega)]
  simp only [hgo, hsub, Option.bind_eq_bind, Option.bind_some]
  rw [getNext_eq hrn, hnx1]
  simp only [Option.bind_some]
  rw [show splitSub s.ring.buf.n (slot c.N s.ring.head (c.D + col)) s.ring.buf.ch s.ring.buf.n
    = splitSub c.N (slot c.N s.ring.head (c.D + col)) c.nch c.N by rw [h.rn, h.rc], e1]
  simp only [Option.bind_some]
  rw [getNext_eq (r := ⟨s.ring.head, buf'⟩) (by simp only; omega)]
  simp only [Option.bind_some, Nat.add_zero]
  rw [bn, bc, Nat.mod_eq_of_lt h.rh, e3]
  simp only [Option.bind_some]
  rw [hch, e4]
  simp only [Option.bind_some]
  rw [if_pos (by rw [h.Kf]; exact hK), e5]
  simp only [Option.bind_some]
  rw [e6]
  simp only [Option.bind_some]
  rw [e7]
  simp only [Option.bind_some]
  rw [hsub2]
  simp only [Option.bind_some]
  refine ⟨_, _, first2.get, if3.floats.data, rfl, rfl, hch, ?_, hf2, ?_, ?_⟩
  · intro ch hc i hi
    simp only [Buf.put, Buf.copyFrom]
    by_cases hin : done ≤ i ∧ i < done + k
    · rw [if_pos ⟨by omega, hin⟩, if_pos hin, if_pos ⟨by omega, by omega⟩]
      rw [h.discard, h.col]
    · rw [if_neg (by tauto), if_neg hin]
  · intro ch hc
    obtain ⟨g, ⟨d, g1, g3⟩, g2⟩ := i3g ch hc
    exact ⟨d, g1, fun n hn => by rw [g2 _ (by omega), g3]⟩
  · exact { h with
      col := by show (s.collected + k) % s.partSize = _; rw [h.col, h.partSize]
      fdlK := hKf
      fdlh := h.fdlh
      fdl := by
        intro i hi
        simp only [FDL.setOffset]
        by_cases e : i = s.fdl.idx 0
        · subst e; rw [Function.update_self]; exact ⟨by rw [f2c, hf1c], by rw [f2n, hf1n]⟩
        · rw [Function.update_of_ne e]; exact h.fdl i hi
      ifft := ⟨by rw [i3c, hi2c], by rw [i3n, hi2n]⟩
      rn := bn
      rc := bc
      rh := h.rh
      hR := hbufR
      hF := by
        intro i hi ch hc k hk
        have hidx' : (s.fdl.setOffset 0 first2).idx i = s.fdl.idx i := rfl
        simp only [hidx']
        simp only [FDL.setOffset]
        by_cases e : i = 0
        · subst e; rw [Function.update_self, if_pos rfl]
        · rw [Function.update_of_ne, if_neg e]
          · exact h.hF i hi ch hc k hk
          · intro hcc
            apply e
            unfold FDL.idx at hcc
            rw [hKf] at hcc
            exact fdl_idx_inj h.fdlh hi hK hcc
      hV := h.hV }

end Zones.Proofs.R
