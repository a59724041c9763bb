import Verif.Proofs.RMulti

/-! # Two runs on streams that agree from some sample on: `TimeDistributedUPC` and `TimeDistributedUPCMulti` -/

open Finset Zones.Spec Zones.Model

namespace Zones.Proofs.R

variable [Arith]

/-- the streams hold the same samples from sample `a` on -/
def SameFrom (a : ℕ) (x x' : ℕ → ℝ) : Prop := ∀ i, a ≤ i → x i = x' i

variable {c : Par} {ph t : ℕ} {A B C : ℕ → ℂ} {F : ℕ → ℕ → ℂ} {T : ℕ → ℝ} {s s' : TDUPC} {x x' : ℕ → ℝ}

theorem zw_congr {W : ℕ} (h : ∀ i < c.K, ∀ j < c.P, x ((W - i) * c.P + j) = x' ((W - i) * c.P + j)) :
    R.zw c x W = R.zw c x' W := by
  have hx : ∀ i < c.K, xw c.P x (W - i) = xw c.P x' (W - i) := by
    intro i hi
    funext j
    unfold xw
    split
    · next hj => rw [h i hi j hj]
    · rfl
  have hy : R.yw c x W = R.yw c x' W := by
    funext j
    exact macs_congr (fun i hi => by rw [hx i hi]) (fun _ _ => rfl)
  unfold R.zw
  rw [hy]

/-- states after `t` blocks of `x` and of `x'` since the start or the last reset -/
def S2Inv (c : Par) (x x' : ℕ → ℝ) (t : ℕ) (s s' : TDUPC) : Prop :=
  ∃ T0, (c.K + 5) * 2^c.p ≤ T0 ∧ TInv c (shift (T0 * 2^c.b) x) (T0 + t) s ∧ TInv c (shift (T0 * 2^c.b) x') (T0 + t) s'

theorem S2Inv.of_zero [ZeroBase] (hH : ∀ i < c.K, ∀ k, Arith.mul 0 (down c.n (c.H i) k) = 0)
    (h : Rep c ph (fun _ => 0) (fun _ => 0) (fun _ => 0) (fun _ _ => 0) (fun _ => 0) s)
    (h' : Rep c ph (fun _ => 0) (fun _ => 0) (fun _ => 0) (fun _ _ => 0) (fun _ => 0) s')
    (hph : ph < 2^c.p) (x x' : ℕ → ℝ) : S2Inv c x x' 0 s s' := by
  have key : ∀ {s : TDUPC} {x : ℕ → ℝ}, Rep c ph (fun _ => 0) (fun _ => 0) (fun _ => 0) (fun _ _ => 0) (fun _ => 0) s →
      TInv c (shift (((c.K+5) * 2^c.p + ph) * 2^c.b) x) ((c.K+5) * 2^c.p + ph + 0) s := by
    intro s x h
    apply TInv.of_zero hH
    · rw [Nat.add_zero, add_comm, Nat.add_mul_mod_self_right, Nat.mod_eq_of_lt hph]; exact h
    · omega
    · intro i hi
      unfold shift; rw [if_pos (by simpa using hi)]
  exact ⟨(c.K+5) * 2^c.p + ph, by omega, key h, key h'⟩

theorem S2Inv.reset [ZeroBase] (hH : ∀ i < c.K, ∀ k, Arith.mul 0 (down c.n (c.H i) k) = 0) (h : S2Inv c x x' t s s') (y y' : ℕ → ℝ) : S2Inv c y y' 0 s.reset s'.reset := by
  obtain ⟨T0, _, h1, h2⟩ := h
  obtain ⟨A, B, C, F, T, r⟩ := h1.rep
  obtain ⟨A', B', C', F', T', r'⟩ := h2.rep
  exact S2Inv.of_zero hH r.reset r'.reset (Nat.mod_lt _ (by positivity)) y y'

theorem S2Inv.step (hs : S2Inv c x x' t s s') (inp inp' : ℕ → ℝ) (hin : ∀ i < 2^c.b, inp i = x (t * 2^c.b + i))
    (hin' : ∀ i < 2^c.b, inp' i = x' (t * 2^c.b + i)) :
    ∃ s1 out s1' out', s.processR (2^c.b) inp = some (s1, out) ∧ s'.processR (2^c.b) inp' = some (s1', out') ∧
      (∀ i < 2^c.b, ∀ a, SameFrom a x x' → a ≤ t * 2^c.b + i + 1 - (c.K + 3) * c.P → out i = out' i) ∧
      S2Inv c x x' (t+1) s1 s1' := by
  obtain ⟨T0, hT0, hs, hs'⟩ := hs
  have hb : 0 < 2^c.b := by positivity
  have hP : 0 < c.P := by unfold Par.P; positivity
  have e3 : 2^c.p * 2^c.b = c.P := by rw [← pow_add, add_comm]
  have hbig : (c.K + 5) * c.P ≤ T0 * 2^c.b := by
    calc (c.K + 5) * c.P = (c.K + 5) * 2^c.p * 2^c.b := by rw [mul_assoc, e3]
      _ ≤ _ := Nat.mul_le_mul_right _ hT0
  have e5 : (T0 + t) * 2^c.b = T0 * 2^c.b + t * 2^c.b := by ring
  have hsh : ∀ {inp x : ℕ → ℝ}, (∀ i < 2^c.b, inp i = x (t * 2^c.b + i)) →
      ∀ i < 2^c.b, inp i = shift (T0 * 2^c.b) x ((T0 + t) * 2^c.b + i) := by
    intro inp x hin i hi
    rw [hin i hi]; unfold shift; rw [if_neg (by omega)]; congr 1; omega
  obtain ⟨s1, out, h1, h2, h3⟩ := hs.step inp (hsh hin)
  obtain ⟨s1', out', h1', h2', h3'⟩ := hs'.step inp' (hsh hin')
  refine ⟨s1, out, s1', out', h1, h1', ?_, T0, hT0, by rw [← add_assoc]; exact h3, by rw [← add_assoc]; exact h3'⟩
  intro i hi a hsame ha
  rw [h2 i hi, h2' i hi]
  set m := (T0 + t) * 2^c.b + i with hm
  have hdm := Nat.div_add_mod m c.P
  have hml := Nat.mod_lt m hP
  have e4 : (c.K + 5) * c.P = c.K * c.P + 5 * c.P := by ring
  have hW : c.K + 5 ≤ m / c.P := by rw [Nat.le_div_iff_mul_le hP]; omega
  have hXs : ∀ W, m / c.P - 3 ≤ W → W ≤ m / c.P - 2 → ∀ i < c.K, ∀ j < c.P,
      shift (T0 * 2^c.b) x ((W - i) * c.P + j) = shift (T0 * 2^c.b) x' ((W - i) * c.P + j) := by
    intro W hW1 hW2 k hk j hj
    unfold shift
    split
    · rfl
    · next hge =>
      have q1 : (W - k) * c.P + c.P ≤ m / c.P * c.P := by
        rw [← Nat.succ_mul]; exact Nat.mul_le_mul_right _ (by omega)
      have q2 : m / c.P * c.P ≤ (W - k) * c.P + (c.K + 2) * c.P := by
        rw [← Nat.add_mul]; exact Nat.mul_le_mul_right _ (by omega)
      have q3 : (c.K + 3) * c.P = (c.K + 2) * c.P + c.P := by ring
      have q4 : m / c.P * c.P = c.P * (m / c.P) := mul_comm _ _
      exact hsame _ (by omega)
  rw [zw_congr (hXs (m / c.P - 2) (by omega) (by omega)), zw_congr (hXs (m / c.P - 3) (by omega) (by omega))]

/-! ## All channels -/

/-- zero times any value of the transforms of the filter's partitions is zero -/
def ZeroFilter (b p : ℕ) (seg : Buf) : Prop :=
  0 < seg.ch → ∀ c i k, Arith.mul 0 (down (b+p+1) (hw (2^(b+p)) (zext seg (c % seg.ch)) i) k) = 0

/-- states of the sub convolver of all channels after `t` blocks -/
structure M2Inv (b p : ℕ) (seg : Buf) (nch : ℕ) (x x' : ℕ → ℕ → ℝ) (t : ℕ) (m m' : Multi) : Prop where
  num : m.num = nch
  num' : m'.num = nch
  filt : ∀ c < nch, ∀ i k, Arith.mul 0 (down (b+p+1) (hw (2^(b+p)) (zext seg (c % seg.ch)) i) k) = 0
  ch : ∀ c < nch, ∃ nd off, S2Inv (chPar b p seg c nd off) (x c) (x' c) t (m.td c) (m'.td c)

theorem M2Inv.create [ZeroBase] {b p nch : ℕ} (hp : 1 ≤ p) {seg : Buf} (hseg : 0 < seg.n) (hch : 0 < nch → 0 < seg.ch)
    (hn : seg.n ≤ 2^24) (hP : 2^(b+p) ≤ 2^24) (tail0 tail0' : ℕ → ℕ → ℕ → ℝ) :
    ∃ m m', Multi.createR (2^b) nch (2^p) seg tail0 = some m ∧ Multi.createR (2^b) nch (2^p) seg tail0' = some m' ∧
      (ZeroFilter b p seg → ∀ x x', M2Inv b p seg nch x x' 0 m m') := by
  have hP0 : 0 < 2^(b+p) := by positivity
  have e1 : 2^p * 2^b = 2^(b+p) := by rw [← pow_add, add_comm]
  unfold Multi.createR
  simp only [e1]
  rw [if_neg (by omega), numPartitionsFor_eq hP0 hn hP]
  have hK : 0 < segK (2^(b+p)) seg := Nat.div_pos (by omega) hP0
  obtain ⟨v, ev, hv⟩ := buildVec_eq (CBuf.mk0 0 0) (f := multiFilterR (2^(b+p)) seg) (n := segK (2^(b+p)) seg)
    (Q := fun i b' => b'.np = 2^(b+p+1) ∧ b'.ch = seg.ch ∧
      ∀ c < seg.ch, ∀ k < 2^(b+p+1), b'.get c k = down (b+p+1) (hw (2^(b+p)) (zext seg c) i) k)
    (fun i hi => multiFilter_eq (by rw [pow_succ]; ring) seg (by
      rw [Nat.lt_div_iff_mul_lt hP0] at hi; omega))
  have h2 : 2^p / 2 ≠ 0 := by
    obtain ⟨q, rfl⟩ : ∃ q, p = q+1 := ⟨p-1, by omega⟩
    rw [pow_succ, Nat.mul_div_cancel _ (by norm_num)]; positivity
  simp only [ev, Option.bind_eq_bind, Option.bind_some]
  rw [if_neg (by omega), if_neg (by omega), if_neg (by omega)]
  refine ⟨_, _, rfl, rfl, fun hfz x x' => ⟨channelPlans_length (2^p) seg.ch nch, ?_, fun c hc => hfz (hch (by omega)) c, fun c hc => ?_⟩⟩
  · exact channelPlans_length (2^p) seg.ch nch
  obtain ⟨f1, f2, f3⟩ := channelPlans_get hp seg.ch nch c hc ⟨0, 0, 0⟩
  show ∃ nd off, S2Inv (chPar b p seg c nd off) (x c) (x' c) 0 (TDUPC.create (2^b) (2^p) (segK (2^(b+p)) seg) v
    ((channelPlans (2^p) seg.ch nch).getD c ⟨0,0,0⟩).filterChannel
    ((channelPlans (2^p) seg.ch nch).getD c ⟨0,0,0⟩).transformOffset
    ((channelPlans (2^p) seg.ch nch).getD c ⟨0,0,0⟩).nd (tail0 c)) (TDUPC.create (2^b) (2^p) (segK (2^(b+p)) seg) v
    ((channelPlans (2^p) seg.ch nch).getD c ⟨0,0,0⟩).filterChannel
    ((channelPlans (2^p) seg.ch nch).getD c ⟨0,0,0⟩).transformOffset
    ((channelPlans (2^p) seg.ch nch).getD c ⟨0,0,0⟩).nd (tail0' c))
  generalize (channelPlans (2^p) seg.ch nch).getD c ⟨0,0,0⟩ = pl at f1 f2 f3 ⊢
  have hf : ∀ i < (chPar b p seg c pl.nd pl.transformOffset).K, (v i).np = 2^(chPar b p seg c pl.nd pl.transformOffset).n ∧
      pl.filterChannel < (v i).ch ∧ ∀ k < 2^(chPar b p seg c pl.nd pl.transformOffset).n, (v i).get pl.filterChannel k =
        down (chPar b p seg c pl.nd pl.transformOffset).n ((chPar b p seg c pl.nd pl.transformOffset).H i) k := by
    intro i hi
    obtain ⟨g1, g2, g3⟩ := hv i hi
    have hlt : pl.filterChannel < seg.ch := by rw [f1]; exact Nat.mod_lt _ (hch (by omega))
    exact ⟨g1, by omega, fun k hk => by rw [g3 _ hlt k hk, f1]⟩
  exact ⟨pl.nd, pl.transformOffset, S2Inv.of_zero (ph := 0) (fun i _ k => hfz (hch (by omega)) c i k)
    (Rep.create (chPar b p seg c pl.nd pl.transformOffset) f2 f3 hK v pl.filterChannel (tail0 c) hf)
    (Rep.create (chPar b p seg c pl.nd pl.transformOffset) f2 f3 hK v pl.filterChannel (tail0' c) hf) (by positivity) _ _⟩

theorem M2Inv.reset [ZeroBase] {b p nch : ℕ} {seg : Buf} {x x' : ℕ → ℕ → ℝ} {m m' : Multi} (h : M2Inv b p seg nch x x' t m m')
    (y y' : ℕ → ℕ → ℝ) : M2Inv b p seg nch y y' 0 m.reset m'.reset := by
  refine ⟨h.num, h.num', h.filt, fun c hc => ?_⟩
  obtain ⟨nd, off, hs⟩ := h.ch c hc
  refine ⟨nd, off, ?_⟩
  have : m.reset.td c = (m.td c).reset := by
    unfold Multi.reset; simp only; rw [if_pos (by rw [h.num]; exact hc)]
  have h' : m'.reset.td c = (m'.td c).reset := by
    unfold Multi.reset; simp only; rw [if_pos (by rw [h.num']; exact hc)]
  rw [this, h']; exact hs.reset (fun i _ k => h.filt c hc i k) _ _

theorem processChannel_at {m1 : Multi} {b1 : Buf} {k n : ℕ} {s' : TDUPC} {out : ℕ → ℝ} (h1 : k < b1.ch) (h2 : k < m1.num)
    (bn1 : b1.n = n) (f1 : (m1.td k).processR n (b1.data k) = some (s', out)) :
    Multi.processChannelR (m1, b1) k = some ({ m1 with td := Function.update m1.td k s' }, b1.putChannel k out) := by
  unfold Multi.processChannelR Buf.single
  simp only [h1, h2, if_true, Option.bind_eq_bind, Option.bind_some]
  have f1' : (m1.td k).processR b1.n (fun i => b1.data k i) = some (s', out) := by rw [bn1]; exact f1
  rw [f1']; rfl

theorem M2Inv.step {b p nch : ℕ} {seg : Buf} {x x' : ℕ → ℕ → ℝ} {m m' : Multi}
    (h : M2Inv b p seg nch x x' t m m')
    {blk blk' : Buf} (hch : blk.ch = nch) (hn : blk.n = 2^b) (hch' : blk'.ch = nch) (hn' : blk'.n = 2^b)
    (hin : ∀ c < nch, ∀ i < 2^b, blk.data c i = x c (t * 2^b + i))
    (hin' : ∀ c < nch, ∀ i < 2^b, blk'.data c i = x' c (t * 2^b + i)) :
    ∃ m1 out m1' out', m.processR blk = some (m1, out) ∧ m'.processR blk' = some (m1', out') ∧
      out.ch = nch ∧ out.n = 2^b ∧ out'.ch = nch ∧ out'.n = 2^b ∧
      (∀ c < nch, ∀ i < 2^b, ∀ a, SameFrom a (x c) (x' c) → a ≤ t * 2^b + i + 1 - (segK (2^(b+p)) seg + 3) * 2^(b+p) →
        out.data c i = out'.data c i) ∧
      M2Inv b p seg nch x x' (t+1) m1 m1' := by
  have main : ∀ k ≤ nch, ∃ m1 out m1' out', (List.range k).foldlM Multi.processChannelR (m, blk) = some (m1, out) ∧
      (List.range k).foldlM Multi.processChannelR (m', blk') = some (m1', out') ∧
      m1.num = nch ∧ m1'.num = nch ∧ out.ch = nch ∧ out.n = 2^b ∧ out'.ch = nch ∧ out'.n = 2^b ∧
      (∀ c < nch, ∀ i < 2^b, if c < k then
        ∀ a, SameFrom a (x c) (x' c) → a ≤ t * 2^b + i + 1 - (segK (2^(b+p)) seg + 3) * 2^(b+p) → out.data c i = out'.data c i
        else out.data c i = blk.data c i ∧ out'.data c i = blk'.data c i) ∧
      (∀ c < nch, c < k → ∃ nd off, S2Inv (chPar b p seg c nd off) (x c) (x' c) (t+1) (m1.td c) (m1'.td c)) ∧
      (∀ c < nch, ¬ c < k → m1.td c = m.td c ∧ m1'.td c = m'.td c) := by
    intro k hk
    induction k with
    | zero =>
      exact ⟨m, blk, m', blk', rfl, rfl, h.num, h.num', hch, hn, hch', hn', fun c _ i _ => by simp, fun c _ hc => by omega,
        fun c _ _ => ⟨rfl, rfl⟩⟩
    | succ k ih =>
      obtain ⟨m1, b1, m1', b1', e1, e1', n1, n1', c1, bn1, c1', bn1', d1, s1, s2⟩ := ih (by omega)
      obtain ⟨nd, off, hs⟩ := h.ch k (by omega)
      rw [← (s2 k (by omega) (by omega)).1, ← (s2 k (by omega) (by omega)).2] at hs
      obtain ⟨r, out, r', out', f1, f1', f2, f3⟩ := hs.step (b1.data k) (b1'.data k) (by
        intro i hi
        have := d1 k (by omega) i hi
        rw [if_neg (by omega)] at this
        rw [this.1, hin k (by omega) i hi]) (by
        intro i hi
        have := d1 k (by omega) i hi
        rw [if_neg (by omega)] at this
        rw [this.2, hin' k (by omega) i hi])
      refine ⟨{ m1 with td := Function.update m1.td k r }, b1.putChannel k out,
        { m1' with td := Function.update m1'.td k r' }, b1'.putChannel k out', ?_, ?_, n1, n1', c1, bn1, c1', bn1', ?_, ?_, ?_⟩
      · rw [List.range_succ, List.foldlM_append, e1]
        simp only [Option.bind_eq_bind, Option.bind_some, List.foldlM_cons, List.foldlM_nil]
        rw [processChannel_at (by omega) (by omega) bn1 f1]; rfl
      · rw [List.range_succ, List.foldlM_append, e1']
        simp only [Option.bind_eq_bind, Option.bind_some, List.foldlM_cons, List.foldlM_nil]
        rw [processChannel_at (by omega) (by omega) bn1' f1']; rfl
      · intro c hc i hi
        unfold Buf.putChannel
        simp only
        by_cases hck : c = k
        · subst hck
          rw [if_pos (show c < c + 1 by omega), if_pos ⟨rfl, by omega⟩, if_pos ⟨rfl, by omega⟩]
          exact fun a => f2 i hi a
        · rw [if_neg (show ¬ (c = k ∧ _) by tauto), if_neg (show ¬ (c = k ∧ _) by tauto)]
          have := d1 c hc i hi
          by_cases hc2 : c < k
          · rw [if_pos hc2] at this; rw [if_pos (by omega)]; exact this
          · rw [if_neg hc2] at this; rw [if_neg (by omega)]; exact this
      · intro c hc hck
        by_cases hck2 : c = k
        · subst hck2; simp only [Function.update_self]; exact ⟨nd, off, f3⟩
        · simp only [Function.update_of_ne hck2]; exact s1 c hc (by omega)
      · intro c hc hck
        simp only [Function.update_of_ne (show c ≠ k by omega)]; exact s2 c hc (by omega)
  obtain ⟨m1, b1, m1', b1', e1, e1', n1, n1', c1, bn1, c1', bn1', d1, s1, _⟩ := main nch le_rfl
  refine ⟨m1, b1, m1', b1', by unfold Multi.processR; rw [hch]; exact e1, by unfold Multi.processR; rw [hch']; exact e1',
    c1, bn1, c1', bn1', ?_, n1, n1', h.filt, fun c hc => s1 c hc hc⟩
  intro c hc i hi
  have := d1 c hc i hi
  rw [if_pos hc] at this
  exact this

end Zones.Proofs.R
