import Verif.Proofs.NUPC
import Verif.Proofs.PartitionLong

/-!
# Impulse responses longer than `2^24` samples

The single precision arithmetic of the lengths may count one partition too few. What is built is then, member for
member, what is built for a slightly shorter impulse response.
-/

namespace Zones.Proofs
open Zones.Model Zones.Spec

/-- the first `n` samples -/
def cut (ir : Buf) (n : ℕ) : Buf := ⟨ir.ch, n, ir.data⟩

theorem buildVec_congr {α : Type} (d : α) {f g : ℕ → Option α} : ∀ (n : ℕ), (∀ i < n, f i = g i) →
    buildVec d f n = buildVec d g n
  | 0, _ => rfl
  | n+1, h => by
    unfold buildVec
    rw [buildVec_congr d n (fun i hi => h i (by omega)), h n (by omega)]

/-- only whole partitions are looked at -/
theorem multiFilter_cut {P K : ℕ} {seg : Buf} (h : K * P ≤ seg.n) {i : ℕ} (hi : i < K) (hP : 0 < P) :
    multiFilter P seg i = multiFilter P (cut seg (K * P)) i := by
  have h1 : (i + 1) * P ≤ K * P := Nat.mul_le_mul_right _ hi
  have h2 : (i + 1) * P = i * P + P := by ring
  unfold multiFilter cut Buf.sub
  simp only
  rw [min_eq_left (show P ≤ seg.n - i * P by omega), min_eq_left (show P ≤ K * P - i * P by omega),
    if_pos ⟨by omega, by omega⟩, if_pos ⟨by omega, by omega⟩]

theorem multi_create_cut {B nch psb K : ℕ} {seg : Buf} {tail0 : ℕ → ℕ → ℕ → ℝ} (hK : numPartitionsFor (psb * B) seg.n = K)
    (hK' : numPartitionsFor (psb * B) (K * (psb * B)) = K) (h : K * (psb * B) ≤ seg.n) :
    Multi.create B nch psb seg tail0 = Multi.create B nch psb (cut seg (K * (psb * B))) tail0 := by
  unfold Multi.create
  by_cases h0 : psb * B = 0
  · simp only [h0, if_true]
  · simp only [if_neg h0]
    rw [hK, show (cut seg (K * (psb * B))).n = K * (psb * B) from rfl, hK',
      buildVec_congr _ K fun i hi => multiFilter_cut h hi (Nat.pos_of_ne_zero h0)]
    rfl

/-- the loop that builds the sub convolvers does not see the samples after the last partition it counted -/
theorem buildSubs_cut {B nch psb m K : ℕ} {ir : Buf} {tail0 : ℕ → ℕ → ℕ → ℕ → ℝ} (hK0 : 0 < K) (hP : 0 < psb * B)
    (hKm : K ≤ m) (hK' : numPartitionsFor (psb * B) (K * (psb * B)) = K) :
    ∀ (as : List Layout) (off i : ℕ),
    numPartitionsFor (psb * B) (min (m * (psb * B)) (ir.n - (off + totalSamples B as))) = K →
    off + totalSamples B as + K * (psb * B) ≤ ir.n → (∀ l ∈ as, 0 < l.samples B) →
    NUPC.buildSubs B nch ir tail0 off i (as ++ [⟨psb, m⟩]) =
      NUPC.buildSubs B nch (cut ir (off + totalSamples B as + K * (psb * B))) tail0 off i (as ++ [⟨psb, m⟩]) := by
  intro as
  induction as with
  | nil =>
    intro off i hK hn _
    have hKP : 0 < K * (psb * B) := Nat.mul_pos hK0 hP
    have hKm' : K * (psb * B) ≤ m * (psb * B) := Nat.mul_le_mul_right _ hKm
    simp only [totalSamples, List.map_nil, List.sum_nil, add_zero] at hK hn ⊢
    have hs : (Layout.mk psb m).samples B = m * (psb * B) := by simp only [Layout.samples]; ring
    simp only [List.nil_append, NUPC.buildSubs, hs]
    rw [if_pos (show off ≤ ir.n by omega), if_pos (show off ≤ (cut ir (off + K * (psb * B))).n by show off ≤ off + _; omega)]
    have e1 : ir.sub off (min (m * (psb * B)) (ir.n - off)) =
        some ⟨ir.ch, min (m * (psb * B)) (ir.n - off), fun c j => ir.data c (off + j)⟩ := by
      unfold Buf.sub; rw [if_pos ⟨by omega, by omega⟩]
    have e2 : (cut ir (off + K * (psb * B))).sub off (min (m * (psb * B)) ((cut ir (off + K * (psb * B))).n - off)) =
        some (cut ⟨ir.ch, min (m * (psb * B)) (ir.n - off), fun c j => ir.data c (off + j)⟩ (K * (psb * B))) := by
      unfold Buf.sub cut
      simp only
      rw [show min (m * (psb * B)) (off + K * (psb * B) - off) = K * (psb * B) by omega,
        if_pos ⟨by omega, by omega⟩]
    rw [e1, e2]
    simp only [Option.bind_eq_bind, Option.bind_some]
    have e3 := multi_create_cut (nch := nch) (tail0 := tail0 i) (K := K) (B := B) (psb := psb)
      (seg := ⟨ir.ch, min (m * (psb * B)) (ir.n - off), fun c j => ir.data c (off + j)⟩) hK hK'
      (by show K * (psb * B) ≤ min (m * (psb * B)) (ir.n - off); omega)
    rw [e3]
  | cons l as ih0 =>
    intro off i hK hn hl
    have ht : totalSamples B (l :: as) = l.samples B + totalSamples B as := by simp [totalSamples]
    have hKP : 0 < K * (psb * B) := Nat.mul_pos hK0 hP
    have hl0 := hl l (by simp)
    rw [ht] at hK hn ⊢
    have ih := ih0 (off + l.samples B) (i+1)
      (by rw [Nat.add_assoc]; exact hK) (by rw [Nat.add_assoc]; omega) (fun a ha => hl a (by simp [ha]))
    rw [show off + l.samples B + totalSamples B as + K * (psb * B) =
      off + (l.samples B + totalSamples B as) + K * (psb * B) by omega] at ih
    set n' := off + (l.samples B + totalSamples B as) + K * (psb * B) with hn'
    simp only [List.cons_append, NUPC.buildSubs]
    rw [if_pos (show off ≤ ir.n by omega), if_pos (show off ≤ (cut ir n').n by show off ≤ n'; omega)]
    have e1 : ir.sub off (min (l.samples B) (ir.n - off)) =
        some ⟨ir.ch, l.samples B, fun c j => ir.data c (off + j)⟩ := by
      unfold Buf.sub; rw [min_eq_left (by omega), if_pos ⟨by omega, by omega⟩]
    have e2 : (cut ir n').sub off (min (l.samples B) ((cut ir n').n - off)) =
        some ⟨ir.ch, l.samples B, fun c j => ir.data c (off + j)⟩ := by
      unfold Buf.sub cut
      simp only
      rw [min_eq_left (by omega), if_pos ⟨by omega, by omega⟩]
    rw [e1, e2, ih]

theorem checkRest_pos {B : ℕ} (hB : 0 < B) : ∀ (as : List Layout) (off : ℕ) (tl : List Layout), checkRest B off (as ++ tl) = true →
    ∀ l ∈ as, 0 < l.samples B ∧ 0 < l.psb * B ∧ l.psb * B ≤ 2^24
  | [], _, _, _ => by simp
  | a :: as, off, tl, hc => by
    simp only [List.cons_append] at hc
    unfold checkRest at hc
    simp only [Bool.and_eq_true, decide_eq_true_eq, List.any_eq_true, List.mem_range, beq_iff_eq] at hc
    obtain ⟨⟨⟨⟨⟨⟨p, _, hp⟩, h2⟩, h3⟩, h4⟩, _⟩, h6⟩ := hc
    intro l hl
    rcases List.mem_cons.mp hl with rfl | hl
    · have : 0 < l.psb := by rw [hp]; positivity
      exact ⟨Nat.mul_pos (Nat.mul_pos this h2) hB, Nat.mul_pos this hB, h4⟩
    · exact checkRest_pos hB as _ tl h6 l hl

theorem counts_append {B L : ℕ} {last : Layout} : ∀ (as : List Layout) (off : ℕ),
    (∀ l ∈ as, 0 < l.psb * B ∧ l.psb * B ≤ 2^24) → totalSamples B as ≤ 2^24 →
    CountsRest B L (off + totalSamples B as) [last] → CountsRest B L off (as ++ [last])
  | [], off, _, _, h => by simpa [totalSamples] using h
  | a :: as, off, ha, ht, h => by
    have e : totalSamples B (a :: as) = a.samples B + totalSamples B as := by simp [totalSamples]
    rw [e] at ht h
    refine ⟨numPartitionsFor_eq (ha a (by simp)).1 (by omega) (ha a (by simp)).2, ?_⟩
    exact counts_append as _ (fun l hl => ha l (by simp [hl])) (by omega) (by rw [Nat.add_assoc]; exact h)

/-- the number of samples of an impulse response of `L` samples that reach the partitions of a scheme -/
noncomputable def heardLen (B L n0 : ℕ) (as : List Layout) (p m : ℕ) : ℕ :=
  min L (n0 * B + totalSamples B as +
    numPartitionsFor (2^p * B) (min (m * (2^p * B)) (L - (n0 * B + totalSamples B as))) * (2^p * B))

theorem NInv.create_long_of {F : RealFFT} (hF : Lawful F) {B nch : ℕ} (hB : 0 < B) (hBm : B ≤ 2048) {ir : Buf}
    (hn : 2^24 < ir.n) (hn' : ir.n ≤ 2^30) (hch : 0 < nch → 0 < ir.ch) (g : Garbage) {sch as : List Layout} {n0 p m : ℕ}
    (e1 : getPartitionScheme kGarciaResults B ir.n = some sch) (hs : LongScheme B ir.n sch n0 as p m) :
    0 < heardLen B ir.n n0 as p m ∧ (ir.n - heardLen B ir.n n0 as p m) * 2^24 ≤ ir.n ∧
    ∃ s n1 rest, NUPC.create F B nch ir g = some s ∧ (∀ x, NInv (nPar B nch (cut ir (heardLen B ir.n n0 as p m)) n1 rest) x 0 s) ∧
      (∀ (x : ℕ → ℕ → ℝ) ch τ, linConv (nPar B nch (cut ir (heardLen B ir.n n0 as p m)) n1 rest).seg0.n
          ((nPar B nch (cut ir (heardLen B ir.n n0 as p m)) n1 rest).seg0.data
          (ch % (nPar B nch (cut ir (heardLen B ir.n n0 as p m)) n1 rest).seg0.ch)) (x ch) τ +
          (nPar B nch (cut ir (heardLen B ir.n n0 as p m)) n1 rest).subOut x ch τ =
        linConv (heardLen B ir.n n0 as p m) (ir.data (ch % ir.ch)) (x ch) τ) := by
  obtain ⟨rfl, ⟨b, hb, h7, h24⟩, hp, hn0, hm, ⟨np, hchk⟩, hreach, hleft, hover⟩ := hs
  unfold heardLen
  have hP : 2^p * B = 2^(b+p) := by rw [hb, ← pow_add, add_comm]
  have hP0 : 0 < 2^(b+p) := by positivity
  have hPle : 2^(b+p) ≤ 2^24 := Nat.pow_le_pow_right (by norm_num) h24
  have h7' : 2^7 ≤ 2^(b+p) := Nat.pow_le_pow_right (by norm_num) h7
  set off := n0 * B + totalSamples B as with hoff
  rw [hP] at hleft hover ⊢
  -- the last segment
  set S := min (m * 2^(b+p)) (ir.n - off) with hS
  set K := numPartitionsFor (2^(b+p)) S with hK
  obtain ⟨k1, k2⟩ := numPartitionsFor_long (S := S) h7 h24 (by omega)
  rw [← hK] at k1 k2
  have hmP : 0 < m * 2^(b+p) := Nat.mul_pos hm hP0
  have hS0 : 0 < S := by omega
  have hK0 : 0 < K := by
    rcases Nat.eq_zero_or_pos K with h0 | h0
    · exfalso
      rw [h0] at k2
      omega
    · exact h0
  have hKm : K ≤ m := by
    refine k1.trans ?_
    rw [Nat.div_le_iff_le_mul_add_pred hP0, mul_comm]
    omega
  have hKmP : K * 2^(b+p) ≤ m * 2^(b+p) := Nat.mul_le_mul_right _ hKm
  have hm24 : m ≤ 2^24 := by
    by_contra hc
    have : (2^24) * 2^7 ≤ m * 2^(b+p) := Nat.mul_le_mul (by omega) h7'
    omega
  -- how much is heard
  have hKP0 : 0 < K * 2^(b+p) := Nat.mul_pos hK0 hP0
  have hloss : (ir.n - (off + K * 2^(b+p))) * 2^24 ≤ ir.n := by
    rcases le_total (m * 2^(b+p)) (ir.n - off) with h1 | h1
    · have hSe : S = m * 2^(b+p) := min_eq_left h1
      have hKe : K = m := by rw [hK, hSe]; exact numPartitionsFor_mul h24 hm24
      rw [hKe]; exact hleft
    · have hSe : S = ir.n - off := min_eq_right h1
      rw [hSe] at k2
      rw [← Nat.sub_sub]
      exact k2.trans (Nat.sub_le _ _)
  set n := min ir.n (off + K * 2^(b+p)) with hndef
  have hnn : n ≤ ir.n := min_le_left _ _
  have hpos := checkRest_pos hB as _ _ hchk
  have hs' : (Layout.mk (2^p) m).samples B = m * 2^(b+p) := by
    simp only [Layout.samples]; rw [← hP]; ring
  have hgood : GoodRest B n (n0 * B) (as ++ [⟨2^p, m⟩]) := by
    have := goodRest_of_check (B := B) (L := n) (m := m) (last := ⟨2^p, np⟩) as (n0 * B) hchk (by rw [← hoff]; omega) hm
      (by rw [← hoff, hs']; omega)
    exact this
  have hcnt : CountsRest B n (n0 * B) (as ++ [⟨2^p, m⟩]) := by
    refine counts_append as _ (fun l hl => (hpos l hl).2) (by omega) ?_
    rw [← hoff]
    refine ⟨?_, trivial⟩
    show numPartitionsFor (2^p * B) (min ((Layout.mk (2^p) m).samples B) (n - off)) = _
    rw [hs', hP]
    rcases le_total ir.n (off + K * 2^(b+p)) with h1 | h1
    · have : n = ir.n := min_eq_left h1
      rw [this, ← hS]
      refine le_antisymm k1 ?_
      rw [← hK, Nat.div_le_iff_le_mul_add_pred hP0, mul_comm]
      omega
    · have : n = off + K * 2^(b+p) := min_eq_right h1
      rw [this, show min (m * 2^(b+p)) (off + K * 2^(b+p) - off) = K * 2^(b+p) by omega,
        numPartitionsFor_mul h24 (hKm.trans hm24)]
      symm
      rw [Nat.div_eq_iff hP0]
      omega
  have hbuild : NUPC.ofScheme F B nch ir g (⟨1, n0⟩ :: (as ++ [⟨2^p, m⟩])) =
      NUPC.ofScheme F B nch (cut ir n) g (⟨1, n0⟩ :: (as ++ [⟨2^p, m⟩])) := by
    rcases le_total ir.n (off + K * 2^(b+p)) with h1 | h1
    · have : n = ir.n := min_eq_left h1
      rw [this]; rfl
    · have hne : n = off + K * 2^(b+p) := min_eq_right h1
      have hs0 : (Layout.mk 1 n0).samples B = n0 * B := by simp [Layout.samples]
      have hc := buildSubs_cut (nch := nch) (ir := ir) (tail0 := g.tail) (psb := 2^p) (B := B) (m := m) (K := K) hK0
        (by rw [hP]; exact hP0) hKm (by rw [hP]; exact numPartitionsFor_mul h24 (hKm.trans hm24)) as (n0 * B) 0
        (by rw [hP, ← hoff]) (by rw [hP, ← hoff]; exact h1) (fun l hl => (hpos l hl).1)
      rw [hP, ← hoff, ← hne] at hc
      unfold NUPC.ofScheme
      simp only [hs0]
      have hlt : n0 * B ≤ n := by omega
      have hn00 : 0 < n := by omega
      rw [min_eq_left (show n0 * B ≤ ir.n by omega), show min (n0 * B) (cut ir n).n = n0 * B from min_eq_left hlt, hc]
      have e2 : ir.sub 0 (n0 * B) = (cut ir n).sub 0 (n0 * B) := by
        unfold Buf.sub cut
        simp only
        rw [if_pos ⟨by omega, by omega⟩, if_pos ⟨by omega, by omega⟩]
      rw [e2]
  obtain ⟨s, e, g1, g2⟩ := NInv.ofScheme_of hF (nch := nch) hB (by omega) (ir := cut ir n) (by show 0 < n; omega) hch g hn0
    hgood (Or.inr ⟨b, hb⟩) (by show min (n0 * B) n ≤ _; omega) hcnt
  refine ⟨by omega, ?_, s, n0, _, ?_, g1, g2⟩
  · rcases le_total ir.n (off + K * 2^(b+p)) with h1 | h1
    · have : n = ir.n := min_eq_left h1
      rw [this, Nat.sub_self, zero_mul]; exact Nat.zero_le _
    · have hne : n = off + K * 2^(b+p) := min_eq_right h1
      rw [hne]; exact hloss
  · unfold NUPC.create
    rw [if_pos (by omega), e1]
    simp only [Option.bind_eq_bind, Option.bind_some]
    rw [hbuild]; exact e

end Zones.Proofs
