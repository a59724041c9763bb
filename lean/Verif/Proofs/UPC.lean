import Verif.Spec.JuceFFT
import Verif.Proofs.Multi

/-! # `UniformPartitionedConvolver` -/

open Finset Zones.Spec Zones.Model

namespace Zones.Proofs

/-! ## Channel transforms -/

theorem floats_ofFloats {b : CBuf} {f : Buf} {c i : ℕ} (hc : c < b.ch) (hi : i < 2 * b.np) :
    (b.ofFloats f).floats.data c i = f.data c i := by
  have hp : i / 2 < b.np := by omega
  simp only [CBuf.floats]
  rw [get_ofFloats hc hp]
  split
  · next h => simp only; congr 1; omega
  · next h => simp only; congr 1; omega

theorem get_eq_floats {b : CBuf} {c k : ℕ} :
    b.get c k = ⟨b.floats.data c (2*k), b.floats.data c (2*k+1)⟩ := by
  rw [floats_data_even, floats_data_odd]

theorem transformChannels_eq (f : (ℕ → ℝ) → (ℕ → ℝ)) (m : ℕ) {b : CBuf} (hm : m ≤ b.ch)
    {Q : ℕ → (ℕ → ℝ) → Prop} 
    (hQ : ∀ c < m, ∀ d : ℕ → ℝ, (∀ i < 2 * b.np, d i = b.floats.data c i) → Q c (f d)) :
    ∃ b', (List.range m).foldlM (UPC.transformChannel f) b = some b' ∧ b'.ch = b.ch ∧ b'.np = b.np ∧
      (∀ c < m, ∃ g, Q c g ∧ ∀ i < 2 * b.np, b'.floats.data c i = g i) ∧
      ∀ c < b.ch, m ≤ c → ∀ i < 2 * b.np, b'.floats.data c i = b.floats.data c i := by
  induction m with
  | zero => exact ⟨b, rfl, rfl, rfl, fun c hc => by omega, fun c _ _ i _ => rfl⟩
  | succ m ih =>
    obtain ⟨b1, e1, c1, n1, g1, g2⟩ := ih (by omega) (fun c hc => hQ c (by omega))
    refine ⟨b1.ofFloats (b1.floats.putChannel m (f (b1.floats.data m))), ?_, c1, n1, ?_, ?_⟩
    · rw [List.range_succ, List.foldlM_append, e1]
      simp only [Option.bind_eq_bind, Option.bind_some, List.foldlM_cons, List.foldlM_nil]
      unfold UPC.transformChannel
      rw [if_pos (by omega)]; rfl
    · intro c hc
      by_cases hcm : c = m
      · subst hcm
        refine ⟨f (b1.floats.data c), hQ c (by omega) _ (fun i hi => g2 c (by omega) le_rfl i hi), ?_⟩
        intro i hi
        rw [floats_ofFloats (by omega) (by omega)]
        unfold Buf.putChannel
        simp only
        rw [if_pos]
        exact ⟨trivial, by show i < 2 * b1.np; omega⟩
      · obtain ⟨g, h1, h2⟩ := g1 c (by omega)
        refine ⟨g, h1, fun i hi => ?_⟩
        rw [floats_ofFloats (by omega) (by omega)]
        unfold Buf.putChannel
        simp only
        rw [if_neg (by tauto), h2 i hi]
    · intro c hc hcm i hi
      rw [floats_ofFloats (by omega) (by omega)]
      unfold Buf.putChannel
      simp only
      rw [if_neg (by omega), g2 c hc (by omega) i hi]

/-! ## Parameters and state -/

/-- parameters of the uniform convolver -/
structure UPar where
  B : ℕ
  o : ℕ
  K : ℕ
  nch : ℕ
  /-- impulse response of each channel, continued by zeros -/
  h : ℕ → ℕ → ℝ

namespace UPar
/-- transform size -/
abbrev N (c : UPar) : ℕ := 2^c.o
/-- number of samples to discard -/
abbrev D (c : UPar) : ℕ := 2^c.o - c.B
/-- partition `i` of channel `ch` -/
def H (c : UPar) (ch i j : ℕ) : ℝ := if j < c.B then c.h ch (i * c.B + j) else 0
/-- transform of a real signal -/
noncomputable abbrev ft (c : UPar) (y : ℕ → ℝ) (k : ℕ) : ℂ := dft (2^c.o) (fun j => (y j : ℂ)) k
end UPar

/-- the state `s` has the shape given by `c` and its buffers hold `R F V` -/
structure URep (c : UPar) (col : ℕ) (R : ℕ → ℕ → ℝ) (F : ℕ → ℕ → ℕ → ℂ) (V : ℕ → ℕ → ℂ) (s : UPC) : Prop where
  hB : 0 < c.B
  hN2 : 2 * c.B ≤ c.N
  hN4 : c.N ≤ 4 * c.B
  hK : 0 < c.K
  partSize : s.partSize = c.B
  order : s.order = c.o
  discard : s.discard = c.D
  col : s.collected = col
  Kf : s.numFilters = c.K
  filt : ∀ i < c.K, (s.filters i).np = c.N ∧ (s.filters i).ch = c.nch ∧
    ∀ ch < c.nch, ∀ k ≤ c.N / 2, (s.filters i).get ch k = c.ft (c.H ch i) k
  fdlK : s.fdl.numBlocks = c.K
  fdlh : s.fdl.head < c.K
  fdl : ∀ i < c.K, (s.fdl.line i).ch = c.nch ∧ (s.fdl.line i).np = c.N
  conv : s.conv.ch = c.nch ∧ s.conv.np = c.N
  ifft : s.ifft.ch = c.nch ∧ s.ifft.np = c.N
  rn : s.ring.buf.n = c.N
  rc : s.ring.buf.ch = c.nch
  rh : s.ring.head < c.N
  hR : ∀ ch < c.nch, ∀ j < c.N, s.ring.buf.data ch (slot c.N s.ring.head j) = R ch j
  hF : ∀ i < c.K, ∀ ch < c.nch, ∀ k ≤ c.N / 2, (s.fdl.line (s.fdl.idx i)).get ch k = F i ch k
  hV : ∀ ch < c.nch, ∀ k ≤ c.N / 2, s.conv.get ch k = V ch k

variable {c : UPar} {col : ℕ} {R : ℕ → ℕ → ℝ} {F : ℕ → ℕ → ℕ → ℂ} {V : ℕ → ℕ → ℂ} {s : UPC}

theorem URep.half_lt (h : URep c col R F V s) : c.N / 2 < c.N := by
  have := h.hB; have := h.hN2; omega

theorem URep.hDN (h : URep c col R F V s) : c.D + c.B = c.N := by
  have h2 := h.hN2
  simp only [UPar.D, UPar.N] at h2 ⊢; omega

theorem URep.order_pos (h : URep c col R F V s) : 0 < c.o := by
  have := h.hB; have h2 := h.hN2
  by_contra hc
  have : c.o = 0 := by omega
  simp only [UPar.N, this, pow_zero] at h2; omega

theorem URep.prelude_pos (h : URep c col R F V s) (hc : col ≠ 0) : s.prelude = some s := by
  unfold UPC.prelude; rw [if_neg (by rw [h.col]; exact hc)]

theorem slot_add {n nx a j : ℕ} (hnx : nx < n) (ha : a < n) (hj : j < n) :
    slot n (slot n nx a) j = slot n nx (slot n a j) := by
  unfold slot; split <;> split <;> split <;> split <;> omega

theorem URep.prelude_zero (h : URep c 0 R F V s) :
    ∃ s' F', s.prelude = some s' ∧ (∀ i, F' (i+1) = F i) ∧
      URep c 0 (fun ch j => R ch (slot c.N c.B j)) F'
        (fun ch k => ∑ i ∈ range (c.K - 1), F i ch k * c.ft (c.H ch (i+1)) k) s' := by
  have hK := h.hK
  have hB := h.hB
  have hN2 := h.hN2
  have hKf := h.fdlK
  have hlt := h.half_lt
  unfold UPC.prelude
  rw [if_pos h.col, fdl_getNext (by rw [h.fdlK]; exact h.hK) (by rw [h.fdlK]; exact h.fdlh)]
  simp only [Option.bind_eq_bind, Option.bind_some]
  have hrn : 0 < s.ring.buf.n := by rw [h.rn]; omega
  -- the accumulation loop
  set s1 : UPC := { s with fdl := { s.fdl with head := (s.fdl.head + s.fdl.numBlocks - 1) % s.fdl.numBlocks } } with hs1
  have hline : ∀ i < c.K, ∀ ch < c.nch, ∀ k ≤ c.N / 2, i + 1 < c.K →
      (s1.fdl.line (s1.fdl.idx (i+1))).get ch k = F i ch k := by
    intro i hi ch hch k hk _
    rw [← h.hF i hi ch hch k hk]
    simp only [hs1, FDL.idx, hKf]
    rw [fdl_idx_shift hK]
  have main : ∀ m ≤ c.K - 1, ∃ b', ((List.range m).map (· + 1)).foldlM (UPC.macOne s1) s.conv.clear = some b' ∧
      b'.ch = c.nch ∧ b'.np = c.N ∧ ∀ ch < c.nch, ∀ k ≤ c.N / 2,
        b'.get ch k = ∑ i ∈ range m, F i ch k * c.ft (c.H ch (i+1)) k := by
    intro m hm
    induction m with
    | zero =>
      refine ⟨_, rfl, h.conv.1, h.conv.2, fun ch hch k hk => ?_⟩
      rw [get_clear (by rw [h.conv.1]; exact hch) (by rw [h.conv.2]; omega)]; simp
    | succ m ih =>
      obtain ⟨b1, e1, c1, n1, g1⟩ := ih (by omega)
      have hidx : s1.fdl.idx (m+1) < c.K := by simp only [hs1, FDL.idx, hKf]; exact Nat.mod_lt _ hK
      have hl := h.fdl _ hidx
      have hf := h.filt (m+1) (by omega)
      obtain ⟨b2, e2, n2, c2, g2⟩ := mulAccFrom_eq (b := b1) (x := s.fdl.line (s1.fdl.idx (m+1)))
        (y := s.filters (m+1)) (by rw [c1, hl.1]) (by rw [hl.1, hf.2.1]) (by rw [n1, hl.2]) (by rw [hl.2, hf.1])
      refine ⟨b2, ?_, by rw [c2, c1], by rw [n2, n1], ?_⟩
      · rw [List.range_succ, List.map_append, List.foldlM_append, e1]
        simp only [Option.bind_eq_bind, Option.bind_some, List.map_cons, List.map_nil, List.foldlM_cons, List.foldlM_nil]
        unfold UPC.macOne FDL.getOffset
        have hnb : s1.fdl.numBlocks = c.K := hKf
        have hnf : s1.numFilters = c.K := h.Kf
        rw [hnb, hnf, if_neg (by omega)]
        simp only [Option.bind_eq_bind, Option.bind_some]
        rw [if_pos (by omega)]
        exact (congrArg (fun z => Option.bind z _) e2).trans rfl
      · intro ch hch k hk
        rw [g2 ch (by omega) k (by omega), g1 ch hch k hk, sum_range_succ, hf.2.2 ch hch k hk,
          ← hline m (by omega) ch hch k hk (by omega)]
  obtain ⟨conv', e1, c1, n1, g1⟩ := main (c.K - 1) le_rfl
  have e1' : List.foldlM (UPC.macOne s1) s1.conv.clear (List.map (· + 1) (List.range (s1.numFilters - 1))) = some conv' := by
    rw [show s1.numFilters = c.K from h.Kf]; exact e1
  rw [e1']
  simp only [Option.bind_some]
  rw [getNext_eq (r := s1.ring) hrn]
  simp only [Option.bind_some, if_true]
  refine ⟨_, fun i => if i = 0 then fun ch k => (s1.fdl.line (s1.fdl.idx 0)).get ch k else F (i-1), rfl, ?_, ?_⟩
  · intro i; simp
  · have hhead : (s.ring.head + s.partSize) % s.ring.buf.n = slot c.N s.ring.head c.B := by
      rw [h.rn, h.partSize, slot_eq_mod h.rh (by omega)]
    exact { h with
      fdlK := hKf
      fdlh := by simp only [hs1, hKf]; exact Nat.mod_lt _ hK
      conv := ⟨c1, n1⟩
      rn := h.rn
      rc := h.rc
      rh := by
        show (s.ring.head + s.partSize) % s.ring.buf.n < _
        rw [hhead]; exact slot_lt h.rh (by omega)
      hR := by
        intro ch hch j hj
        show s.ring.buf.data ch (slot c.N ((s.ring.head + s.partSize) % s.ring.buf.n) j) = _
        rw [hhead, slot_add h.rh (by omega) hj]
        exact h.hR ch hch _ (slot_lt (by omega) hj)
      hF := by
        intro i hi ch hch k hk
        by_cases hi0 : i = 0
        · subst hi0; rw [if_pos rfl]
        · rw [if_neg hi0]
          obtain ⟨i, rfl⟩ : ∃ i', i = i' + 1 := ⟨i-1, by omega⟩
          exact hline i (by omega) ch hch k hk hi
      hV := g1 }

theorem URep.body (F' : RealFFT) (hF' : Lawful F') (h : URep c col R F V s) {blk : Buf} {done k : ℕ} (hk : 0 < k) (hcol : col + k ≤ c.B)
    (hd : done + k ≤ blk.n) (hch : blk.ch = c.nch) (R' : ℕ → ℕ → ℝ)
    (hR' : ∀ ch < c.nch, ∀ j < c.N, R' ch j =
      if c.D + col ≤ j ∧ j < c.D + col + k then blk.data ch (done + (j - (c.D + col))) else R ch j)
    (y : ℕ → ℕ → ℝ)
    (hy : ∀ ch < c.nch, ∀ k ≤ c.N / 2, c.ft (R' ch) k * c.ft (c.H ch 0) k + V ch k = c.ft (y ch) k) :
    ∃ s' blk', s.body F' blk done k = some (s', blk') ∧ blk'.n = blk.n ∧ blk'.ch = c.nch ∧
      (∀ ch < c.nch, ∀ i < blk.n, blk'.data ch i =
        if done ≤ i ∧ i < done + k then y ch (c.D + col + (i - done)) else blk.data ch i) ∧
      URep c ((col + k) % c.B) R' (fun i ch k => if i = 0 then c.ft (R' ch) k else F i ch k) V s' := by
  have hK := h.hK
  have hB := h.hB
  have hN2 := h.hN2
  have hKf := h.fdlK
  have hlt := h.half_lt
  have hord := h.order_pos
  have hNe : c.N = 2 * (c.N / 2) := by
    simp only [UPar.N]
    obtain ⟨q, hq⟩ : ∃ q, c.o = q + 1 := ⟨c.o - 1, by omega⟩
    rw [hq, pow_succ]; omega
  have hrn : 0 < s.ring.buf.n := by rw [h.rn]; omega
  have hDN := h.hDN
  unfold UPC.body
  have hidx : s.fdl.idx 0 < c.K := by unfold FDL.idx; rw [hKf]; exact Nat.mod_lt _ hK
  have hl := h.fdl _ hidx
  have hsub : blk.sub done k = some ⟨blk.ch, k, fun c i => blk.data c (done + i)⟩ := by
    unfold Buf.sub; rw [if_pos ⟨by omega, hd⟩]
  have hnx1 : (s.ring.head + (s.discard + s.collected)) % s.ring.buf.n = slot c.N s.ring.head (c.D + col) := by
    rw [h.rn, h.discard, h.col, slot_eq_mod h.rh (by omega)]
  obtain ⟨buf', e1, bn, bc, bd⟩ := split_copyFrom (n := c.N) (nx := slot c.N s.ring.head (c.D + col)) (ch := c.nch)
    (k := c.N) (slot_lt h.rh (by omega)) (by omega) le_rfl (r := s.ring.buf)
    (block := ⟨blk.ch, k, fun c i => blk.data c (done + i)⟩) h.rn h.rc (by simp only; omega)
  have hbufR : ∀ ch < c.nch, ∀ j < c.N, buf'.data ch (slot c.N s.ring.head j) = R' ch j := by
    intro ch hc j hj
    rw [hR' ch hc j hj]
    obtain ⟨j', hj', ej⟩ := slot_surj (n := c.N) (nx := c.D + col) (i := j) (by omega) hj
    have e2 : slot c.N s.ring.head j = slot c.N (slot c.N s.ring.head (c.D + col)) j' := by
      rw [slot_add h.rh (by omega) hj', ej]
    have hD : c.D + col + k ≤ c.N := by omega
    rw [e2, bd ch j' hj', ← e2, hch, min_self]
    simp only [hc, true_and]
    unfold slot at ej
    by_cases hjk : j' < k
    · rw [if_pos (by omega)] at ej
      rw [if_pos hjk, if_pos (by omega)]
      congr 1; omega
    · rw [if_neg hjk, if_neg (by split at ej <;> omega), h.hR ch hc j hj]
  obtain ⟨fl, e3, fn, fc, fd⟩ := split_copyTo (n := c.N) (nx := slot c.N s.ring.head 0) (ch := c.nch)
    (slot_lt h.rh (by omega)) (r := buf') (block := (s.fdl.line (s.fdl.idx 0)).clear.floats) (by
      show c.N ≤ 2 * (s.fdl.line (s.fdl.idx 0)).np
      rw [hl.2]; omega)
  have hs0 : slot c.N s.ring.head 0 = s.ring.head := by unfold slot; rw [if_pos]; omega; have := h.rh; omega
  rw [hs0] at e3 fd
  have hflc : fl.ch = c.nch := by rw [fc]; exact hl.1
  have hfdR : ∀ ch < c.nch, ∀ j < c.N, fl.data ch j = R' ch j := by
    intro ch hc j hj
    rw [fd ch j, if_pos, hbufR ch hc j hj]
    refine ⟨?_, hj⟩
    show ch < min (s.fdl.line (s.fdl.idx 0)).ch c.nch
    rw [hl.1]; omega
  set first1 := (s.fdl.line (s.fdl.idx 0)).clear.ofFloats fl with hfirst1
  have hf1c : first1.ch = c.nch := hl.1
  have hf1n : first1.np = c.N := hl.2
  obtain ⟨first2, e4, f2c, f2n, f2g, _⟩ := transformChannels_eq (F'.fwd s.order) c.nch (b := first1) (by rw [hf1c])
    (Q := fun ch g => ∀ k ≤ c.N / 2, (⟨g (2*k), g (2*k+1)⟩ : ℂ) = c.ft (R' ch) k) (by
      intro ch hc d hd k hk
      rw [h.order, hF'.fwd c.o hord d k hk]
      unfold UPar.ft dft
      refine sum_congr rfl fun j hj => ?_
      rw [mem_range] at hj
      congr 1
      show ((d j : ℝ) : ℂ) = ((R' ch j : ℝ) : ℂ)
      congr 1
      rw [hd j (by rw [hf1n]; simp only [UPar.N]; omega), hfirst1, floats_ofFloats (by rw [clear_ch, hl.1]; exact hc)
        (by rw [clear_np, hl.2]; simp only [UPar.N]; omega)]
      exact hfdR ch hc j hj)
  have hf2 : ∀ ch < c.nch, ∀ k ≤ c.N / 2, first2.get ch k = c.ft (R' ch) k := by
    intro ch hc k hk
    obtain ⟨g, g1, g2⟩ := f2g ch hc
    rw [get_eq_floats, g2 _ (by omega), g2 _ (by omega), g1 k hk]
  have hfl0 := h.filt 0 hK
  obtain ⟨if1, e5, i1n, i1c, i1g⟩ := mulFrom_eq (b := s.ifft) (x := first2) (y := s.filters 0)
    (by rw [h.ifft.1, f2c, hf1c]) (by rw [f2c, hf1c, hfl0.2.1]) (by rw [h.ifft.2, f2n, hf1n]) (by rw [f2n, hf1n, hfl0.1])
  obtain ⟨if2, e6, i2n, i2c, i2g⟩ := addFrom_eq (b := if1) (x := s.conv)
    (by rw [i1c, h.ifft.1, h.conv.1]) (by rw [i1n, h.ifft.2, h.conv.2])
  have hi2c : if2.ch = c.nch := by rw [i2c, i1c, h.ifft.1]
  have hi2n : if2.np = c.N := by rw [i2n, i1n, h.ifft.2]
  obtain ⟨if3, e7, i3c, i3n, i3g, _⟩ := transformChannels_eq (F'.inv s.order) c.nch (b := if2) (by rw [hi2c])
    (Q := fun ch g => ∀ n < c.N, g n = y ch n) (by
      intro ch hc d hd
      rw [h.order]
      refine hF'.inv c.o hord d (y ch) (fun k hk => ?_)
      have hk' : k ≤ c.N / 2 := hk
      rw [hd _ (by omega), hd _ (by omega), ← get_eq_floats, i2g ch (by omega) k (by omega),
        i1g ch (by rw [h.ifft.1]; exact hc) k (by rw [h.ifft.2]; omega), hf2 ch hc k hk, hfl0.2.2 ch hc k hk,
        h.hV ch hc k hk]
      exact hy ch hc k hk)
  have hsub2 : if3.floats.sub (s.discard + s.collected) k =
      some ⟨if3.ch, k, fun ch i => if3.floats.data ch (s.discard + s.collected + i)⟩ := by
    unfold Buf.sub
    have : if3.floats.n = 2 * c.N := by show 2 * if3.np = _; rw [i3n, hi2n]
    rw [if_pos (by rw [this, h.discard, h.col]; omega)]; rfl
  have hgo : s.fdl.getOffset 0 = some (s.fdl.line (s.fdl.idx 0)) := by
    unfold FDL.getOffset; rw [if_neg (by omega)]
  simp only [hgo, hsub, Option.bind_eq_bind, Option.bind_some]
  rw [getNext_eq hrn, hnx1]
  simp only [Option.bind_some]
  rw [show splitSub s.ring.buf.n (slot c.N s.ring.head (c.D + col)) s.ring.buf.ch s.ring.buf.n
    = splitSub c.N (slot c.N s.ring.head (c.D + col)) c.nch c.N by rw [h.rn, h.rc], e1]
  simp only [Option.bind_some]
  rw [getNext_eq (r := ⟨s.ring.head, buf'⟩) (by simp only; omega)]
  simp only [Option.bind_some, Nat.add_zero]
  rw [bn, bc, Nat.mod_eq_of_lt h.rh, e3]
  simp only [Option.bind_some]
  rw [hch, e4]
  simp only [Option.bind_some]
  rw [if_pos (by rw [h.Kf]; exact hK), e5]
  simp only [Option.bind_some]
  rw [e6]
  simp only [Option.bind_some]
  rw [e7]
  simp only [Option.bind_some]
  rw [hsub2]
  simp only [Option.bind_some]
  refine ⟨_, _, rfl, rfl, hch, ?_, ?_⟩
  · intro ch hc i hi
    simp only [Buf.put, Buf.copyFrom]
    by_cases hin : done ≤ i ∧ i < done + k
    · rw [if_pos ⟨by omega, hin⟩, if_pos hin, if_pos ⟨by omega, by omega⟩]
      obtain ⟨g, g1, g2⟩ := i3g ch hc
      rw [h.discard, h.col, g2 _ (by omega), g1 _ (by omega)]
    · rw [if_neg (by tauto), if_neg hin]
  · exact { h with
      col := by show (s.collected + k) % s.partSize = _; rw [h.col, h.partSize]
      fdlK := hKf
      fdlh := h.fdlh
      fdl := by
        intro i hi
        simp only [FDL.setOffset]
        by_cases e : i = s.fdl.idx 0
        · subst e; rw [Function.update_self]; exact ⟨by rw [f2c, hf1c], by rw [f2n, hf1n]⟩
        · rw [Function.update_of_ne e]; exact h.fdl i hi
      ifft := ⟨by rw [i3c, hi2c], by rw [i3n, hi2n]⟩
      rn := bn
      rc := bc
      rh := h.rh
      hR := hbufR
      hF := by
        intro i hi ch hc k hk
        have hidx' : (s.fdl.setOffset 0 first2).idx i = s.fdl.idx i := rfl
        simp only [hidx']
        simp only [FDL.setOffset]
        by_cases e : i = 0
        · subst e; rw [Function.update_self, if_pos rfl]; exact hf2 ch hc k hk
        · rw [Function.update_of_ne, if_neg e]
          · exact h.hF i hi ch hc k hk
          · intro hcc
            apply e
            unfold FDL.idx at hcc
            rw [hKf] at hcc
            exact fdl_idx_inj h.fdlh hi hK hcc
      hV := h.hV }

end Zones.Proofs
