import Verif.Proofs.RRelUPC

/-! # Two runs that agree on a channel: the time distributed convolvers -/

open Finset Zones.Spec Zones.Model

namespace Zones.Proofs.R

variable [Arith]

/-! ## One channel -/

/-- two time distributed convolvers that have received the same samples since the start or the last reset; their transforms may be
scheduled differently -/
def TRel (b : ℕ) (s s' : TDUPC) : Prop :=
  ∃ (p K : ℕ) (H : ℕ → ℕ → ℂ) (nd off nd' off' : ℕ) (x : ℕ → ℝ) (t : ℕ), ∀ y : ℕ → ℝ, (∀ i < t * 2^b, y i = x i) →
    TInv ⟨b, p, K, nd, off, H⟩ y t s ∧ TInv ⟨b, p, K, nd', off', H⟩ y t s'

theorem TRel.of_zero [ZeroLaws] {b p K : ℕ} {H : ℕ → ℕ → ℂ} {nd off nd' off' ph : ℕ} {s s' : TDUPC} (hph : ph < 2^p)
    (h : Rep ⟨b, p, K, nd, off, H⟩ ph (fun _ => 0) (fun _ => 0) (fun _ => 0) (fun _ _ => 0) (fun _ => 0) s)
    (h' : Rep ⟨b, p, K, nd', off', H⟩ ph (fun _ => 0) (fun _ => 0) (fun _ => 0) (fun _ _ => 0) (fun _ => 0) s') :
    TRel b s s' := by
  have hm : ((K+5) * 2^p + ph) % 2^p = ph := by
    rw [add_comm, Nat.add_mul_mod_self_right, Nat.mod_eq_of_lt hph]
  refine ⟨p, K, H, nd, off, nd', off', fun _ => 0, (K+5) * 2^p + ph, fun y hy => ⟨?_, ?_⟩⟩
  · exact TInv.of_zero (c := ⟨b, p, K, nd, off, H⟩) (fun _ _ _ => ZeroLaws.mul _) (by simp only; rw [hm]; exact h) (by simp only; omega) hy
  · exact TInv.of_zero (c := ⟨b, p, K, nd', off', H⟩) (fun _ _ _ => ZeroLaws.mul _) (by simp only; rw [hm]; exact h') (by simp only; omega) hy

theorem TRel.reset [ZeroLaws] {b : ℕ} {s s' : TDUPC} (h : TRel b s s') : TRel b s.reset s'.reset := by
  obtain ⟨p, K, H, nd, off, nd', off', x, t, h⟩ := h
  obtain ⟨h1, h2⟩ := h x (fun _ _ => rfl)
  obtain ⟨A, B, C, F, T, r⟩ := h1.rep
  obtain ⟨A', B', C', F', T', r'⟩ := h2.rep
  exact TRel.of_zero (Nat.mod_lt _ (by positivity)) r.reset r'.reset

theorem TRel.step {b : ℕ} {s s' : TDUPC} (h : TRel b s s') {inp inp' : ℕ → ℝ} (hin : ∀ i < 2^b, inp i = inp' i) :
    OR (fun r r' => TRel b r.1 r'.1 ∧ ∀ i < 2^b, r.2 i = r'.2 i) (s.processR (2^b) inp) (s'.processR (2^b) inp') := by
  obtain ⟨p, K, H, nd, off, nd', off', x, t, h⟩ := h
  have hb : (0:ℕ) < 2^b := by positivity
  have key : ∀ y : ℕ → ℝ, (∀ i < (t+1) * 2^b, y i = if i < t * 2^b then x i else inp (i - t * 2^b)) →
      (∀ i < t * 2^b, y i = x i) ∧ ∀ i < 2^b, y (t * 2^b + i) = inp i := by
    intro y hy
    refine ⟨fun i hi => ?_, fun i hi => ?_⟩
    · rw [hy i (by rw [Nat.add_mul]; omega), if_pos hi]
    · rw [hy _ (by rw [Nat.add_mul]; omega), if_neg (by omega), Nat.add_sub_cancel_left]
  rintro ⟨q, out⟩ hq ⟨q', out'⟩ hq'
  have step : ∀ y : ℕ → ℝ, (∀ i < (t+1) * 2^b, y i = if i < t * 2^b then x i else inp (i - t * 2^b)) →
      TInv ⟨b, p, K, nd, off, H⟩ y (t+1) q ∧ TInv ⟨b, p, K, nd', off', H⟩ y (t+1) q' ∧ ∀ i < 2^b, out i = out' i := by
    intro y hy
    obtain ⟨k1, k2⟩ := key y hy
    obtain ⟨h1, h2⟩ := h y k1
    obtain ⟨r, o, e1, e2, e3⟩ := h1.step inp (fun i hi => (k2 i hi).symm)
    obtain ⟨r', o', e1', e2', e3'⟩ := h2.step inp' (fun i hi => by rw [← hin i hi]; exact (k2 i hi).symm)
    simp only at e1 e1'
    rw [hq] at e1
    rw [hq'] at e1'
    cases e1
    cases e1'
    exact ⟨e3, e3', fun i hi => (e2 i hi).trans (e2' i hi).symm⟩
  exact ⟨⟨p, K, H, nd, off, nd', off', _, t+1, fun y hy => ⟨(step y hy).1, (step y hy).2.1⟩⟩,
    (step _ (fun _ _ => rfl)).2.2⟩

/-! ## All channels -/

/-- channel `c` of `m` and channel `c'` of `m'` have received the same samples -/
structure MRel (b c c' : ℕ) (m m' : Multi) : Prop where
  lt : c < m.num
  lt' : c' < m'.num
  td : TRel b (m.td c) (m'.td c')

theorem MRel.reset [ZeroLaws] {b c c' : ℕ} {m m' : Multi} (h : MRel b c c' m m') : MRel b c c' m.reset m'.reset := by
  refine ⟨h.lt, h.lt', ?_⟩
  unfold Multi.reset
  simp only
  rw [if_pos h.lt, if_pos h.lt']
  exact h.td.reset

theorem processChannel_some {st st' : Multi × Buf} {j : ℕ} (h : Multi.processChannelR st j = some st') :
    ∃ r, (st.1.td j).processR st.2.n (st.2.data j) = some r ∧ st'.1.num = st.1.num ∧ st'.1.td = Function.update st.1.td j r.1 ∧
      st'.2 = st.2.putChannel j r.2 ∧ j < st.2.ch := by
  unfold Multi.processChannelR at h
  simp only [Option.bind_eq_bind, Option.bind_eq_some_iff] at h
  obtain ⟨blk, h1, h⟩ := h
  unfold Buf.single at h1
  split at h1
  · next hj =>
    cases h1
    split at h
    · obtain ⟨r, h2, h3⟩ := Option.bind_eq_some_iff.mp h
      cases h3
      exact ⟨r, h2, rfl, rfl, rfl, hj⟩
    · cases h
  · cases h1

theorem processMulti_some {m m' : Multi} {blk blk' : Buf} {c : ℕ} (hc : c < blk.ch)
    (h : m.processR blk = some (m', blk')) :
    ∃ r, (m.td c).processR blk.n (blk.data c) = some r ∧ m'.num = m.num ∧ m'.td c = r.1 ∧ blk'.n = blk.n ∧ blk'.ch = blk.ch ∧
      ∀ i < blk.n, blk'.data c i = r.2 i := by
  have h1 := foldlM_one (K := fun s s' : Multi × Buf => s'.1.num = s.1.num ∧ s'.1.td c = s.1.td c ∧ s'.2.n = s.2.n ∧ s'.2.ch = s.2.ch ∧
      s'.2.data c = s.2.data c) (c := c) (fun s => ⟨rfl, rfl, rfl, rfl, rfl⟩)
    (fun a b d h1 h2 => ⟨h2.1.trans h1.1, h2.2.1.trans h1.2.1, h2.2.2.1.trans h1.2.2.1, h2.2.2.2.1.trans h1.2.2.2.1,
      h2.2.2.2.2.trans h1.2.2.2.2⟩) (step := Multi.processChannelR) (by
      intro s j s' hj e
      obtain ⟨r, _, k1, k2, k3, _⟩ := processChannel_some e
      refine ⟨k1, by rw [k2, Function.update_of_ne (Ne.symm hj)], by rw [k3]; rfl, by rw [k3]; rfl, ?_⟩
      rw [k3]
      funext i
      exact putChannel_ne (Ne.symm hj)) blk.ch h
  rw [if_pos hc] at h1
  obtain ⟨s1, s2, ⟨a1, a2, a3, a4, a5⟩, e, ⟨b1, b2, b3, b4, b5⟩⟩ := h1
  obtain ⟨r, e1, k1, k2, k3, _⟩ := processChannel_some e
  simp only at a1 a2 a3 a4 a5 b1 b2 b3 b4 b5
  rw [a2, a3, a5] at e1
  refine ⟨r, e1, by rw [b1, k1, a1], by rw [b2, k2, Function.update_self], by rw [b3, k3]; exact a3,
    by rw [b4, k3]; exact a4, fun i hi => ?_⟩
  rw [b5, k3]
  exact putChannel_same (by rw [a3]; exact hi)

theorem MRel.processR {b c c' : ℕ} {m m' : Multi} (h : MRel b c c' m m') {blk blk' : Buf} (hb : RowEq c c' blk blk')
    (hn : blk.n = 2^b) :
    OR (fun x y => MRel b c c' x.1 y.1 ∧ RowEq c c' x.2 y.2 ∧ x.2.n = blk.n) (m.processR blk) (m'.processR blk') := by
  have hp : (0:ℕ) < 2^b := by positivity
  obtain ⟨hc, hc'⟩ := hb.lt (by omega)
  rintro ⟨x, bx⟩ hx ⟨y, bY⟩ hy
  obtain ⟨r, e1, e2, e3, e4, e5, e6⟩ := processMulti_some hc hx
  obtain ⟨r', e1', e2', e3', e4', e5', e6'⟩ := processMulti_some hc' hy
  rw [hn] at e1
  rw [← hb.n, hn] at e1'
  obtain ⟨k1, k2⟩ := h.td.step (fun i hi => hb.data i (by omega)) _ e1 _ e1'
  refine ⟨⟨by simp only; rw [e2]; exact h.lt, by simp only; rw [e2']; exact h.lt', by simp only; rw [e3, e3']; exact k1⟩,
    ⟨by simp only; rw [e4, e4', hb.n], fun _ => by simp only; rw [e5, e5']; exact ⟨hc, hc'⟩, fun i hi => ?_⟩, e4⟩
  simp only at hi ⊢
  rw [e6 i (by omega), e6' i (by rw [← hb.n]; omega)]
  exact k2 i (by omega)

theorem Multi.create_rep {b p nch : ℕ} (hp : 1 ≤ p) {seg : Buf} (hseg : 0 < seg.n) (hch : 0 < nch → 0 < seg.ch)
    (hn : seg.n ≤ 2^24) (hP : 2^(b+p) ≤ 2^24) (tail0 : ℕ → ℕ → ℕ → ℝ) :
    ∃ m, Multi.createR (2^b) nch (2^p) seg tail0 = some m ∧ m.num = nch ∧
      ∀ c < nch, ∃ nd off, Rep (chPar b p seg c nd off) 0 (fun _ => 0) (fun _ => 0) (fun _ => 0) (fun _ _ => 0) (fun _ => 0) (m.td c) := by
  have hP0 : 0 < 2^(b+p) := by positivity
  have e1 : 2^p * 2^b = 2^(b+p) := by rw [← pow_add, add_comm]
  unfold Multi.createR
  simp only [e1]
  rw [if_neg (by omega), numPartitionsFor_eq hP0 hn hP]
  have hK : 0 < segK (2^(b+p)) seg := Nat.div_pos (by omega) hP0
  obtain ⟨v, ev, hv⟩ := buildVec_eq (CBuf.mk0 0 0) (f := multiFilterR (2^(b+p)) seg) (n := segK (2^(b+p)) seg)
    (Q := fun i b' => b'.np = 2^(b+p+1) ∧ b'.ch = seg.ch ∧
      ∀ c < seg.ch, ∀ k < 2^(b+p+1), b'.get c k = down (b+p+1) (hw (2^(b+p)) (zext seg c) i) k)
    (fun i hi => multiFilter_eq (by rw [pow_succ]; ring) seg (by
      rw [Nat.lt_div_iff_mul_lt hP0] at hi; omega))
  have h2 : 2^p / 2 ≠ 0 := by
    obtain ⟨q, rfl⟩ : ∃ q, p = q+1 := ⟨p-1, by omega⟩
    rw [pow_succ, Nat.mul_div_cancel _ (by norm_num)]; positivity
  simp only [ev, Option.bind_eq_bind, Option.bind_some]
  rw [if_neg (by omega)]
  refine ⟨_, rfl, channelPlans_length _ _ _, fun c hc => ?_⟩
  obtain ⟨f1, f2, f3⟩ := channelPlans_get hp seg.ch nch c hc ⟨0, 0, 0⟩
  show ∃ nd off, Rep (chPar b p seg c nd off) 0 _ _ _ _ _ (TDUPC.create (2^b) (2^p) (segK (2^(b+p)) seg) v
    ((channelPlans (2^p) seg.ch nch).getD c ⟨0,0,0⟩).filterChannel
    ((channelPlans (2^p) seg.ch nch).getD c ⟨0,0,0⟩).transformOffset
    ((channelPlans (2^p) seg.ch nch).getD c ⟨0,0,0⟩).nd (tail0 c))
  generalize (channelPlans (2^p) seg.ch nch).getD c ⟨0,0,0⟩ = pl at f1 f2 f3 ⊢
  refine ⟨pl.nd, pl.transformOffset, ?_⟩
  refine Rep.create (chPar b p seg c pl.nd pl.transformOffset) f2 f3 hK v pl.filterChannel (tail0 c) ?_
  intro i hi
  obtain ⟨g1, g2, g3⟩ := hv i hi
  have hlt : pl.filterChannel < seg.ch := by rw [f1]; exact Nat.mod_lt _ (hch (by omega))
  exact ⟨g1, by omega, fun k hk => by rw [g3 _ hlt k hk, f1]⟩

theorem MRel.create [ZeroLaws] {b p c c' : ℕ} (hp : 1 ≤ p) {seg seg' : Buf} (h : RowEq c c' seg seg')
    (hseg : 0 < seg.n) (hn : seg.n ≤ 2^24) (hP : 2^(b+p) ≤ 2^24) (t0 t0' : ℕ → ℕ → ℕ → ℝ) :
    OR (MRel b c c') (Multi.createR (2^b) seg.ch (2^p) seg t0) (Multi.createR (2^b) seg'.ch (2^p) seg' t0') := by
  obtain ⟨hc, hc'⟩ := h.lt hseg
  obtain ⟨m, e, hm, hr⟩ := Multi.create_rep (b := b) (nch := seg.ch) hp hseg (by omega) hn hP t0
  obtain ⟨m', e', hm', hr'⟩ := Multi.create_rep (b := b) (nch := seg'.ch) hp (seg := seg') (by rw [← h.n]; exact hseg) (by omega)
    (by rw [← h.n]; exact hn) hP t0'
  rw [e, e']
  refine OR.some ⟨by omega, by omega, ?_⟩
  obtain ⟨nd, off, r⟩ := hr c hc
  obtain ⟨nd', off', r'⟩ := hr' c' hc'
  have hz : zext seg' (c' % seg'.ch) = zext seg (c % seg.ch) := by
    rw [Nat.mod_eq_of_lt hc, Nat.mod_eq_of_lt hc']
    funext k
    unfold zext
    rw [← h.n]
    by_cases hk : k < seg.n
    · rw [if_pos hk, if_pos hk, h.data k hk]
    · rw [if_neg hk, if_neg hk]
  have hK : segK (2^(b+p)) seg' = segK (2^(b+p)) seg := by unfold segK; rw [h.n]
  unfold chPar at r r'
  rw [hz, hK] at r'
  exact TRel.of_zero (by positivity) r r'

/-! ## The sub convolvers -/

/-- entries of the lists of sub convolvers -/
def SubRel (b c c' : ℕ) (s s' : SubConv) : Prop := s.delay = s'.delay ∧ MRel b c c' s.td s'.td

theorem buildSubs_rel [ZeroLaws] {b c c' : ℕ} {ir ir' : Buf} (h : RowEq c c' ir ir') (hn : ir.n ≤ 2^24)
    (t0 t0' : ℕ → ℕ → ℕ → ℕ → ℝ) : ∀ (rest : List Layout) (off i : ℕ), GoodRest (2^b) ir.n off rest →
    OR (List.Forall₂ (SubRel b c c')) (NUPC.buildSubsR (2^b) ir.ch ir t0 off i rest) (NUPC.buildSubsR (2^b) ir'.ch ir' t0' off i rest)
  | [], off, i, _ => OR.some List.Forall₂.nil
  | l :: rest, off, i, hg => by
    obtain ⟨⟨p, hp, hpsb⟩, hnp, hclr, h24, hoff, hmono, hrest⟩ := hg
    have hP : l.psb * 2^b = 2^(b+p) := by rw [hpsb, ← pow_add, add_comm]
    have hsamp : 0 < l.samples (2^b) := by
      unfold Layout.samples
      have : 0 < l.psb := by rw [hpsb]; positivity
      positivity
    unfold NUPC.buildSubsR
    simp only [Option.bind_eq_bind, ← h.n]
    refine OR.guard fun _ _ => ?_
    intro z hz w hw
    obtain ⟨seg, hseg, hz⟩ := Option.bind_eq_some_iff.mp hz
    obtain ⟨seg', hseg', hw⟩ := Option.bind_eq_some_iff.mp hw
    obtain ⟨hs, hsn, _⟩ := h.sub _ _ _ hseg _ hseg'
    have hpc : seg.ch = ir.ch := by unfold Buf.sub at hseg; split at hseg <;> cases hseg; rfl
    have hpc' : seg'.ch = ir'.ch := by unfold Buf.sub at hseg'; split at hseg' <;> cases hseg'; rfl
    rw [← hpc] at hz
    rw [← hpc'] at hw
    refine (OR.bind (MRel.create (b := b) hp hs (by omega) (by omega) (by rw [← hP]; exact h24) (t0 i) (t0' i)) ?_) z
      (by rw [← hpsb]; exact hz) w (by rw [← hpsb]; exact hw)
    intro m m' hm
    refine OR.guard fun _ _ => ?_
    rw [hpc, hpc']
    refine OR.bind (buildSubs_rel h hn t0 t0' rest _ _ hrest) ?_
    intro tl tl' htl
    exact OR.some (List.Forall₂.cons ⟨rfl, hm⟩ htl)

theorem stepSubs_rel {b c c' : ℕ} {saved saved' : Buf} (hs : RowEq c c' saved saved') :
    ∀ {subs subs' : List SubConv} (_ : List.Forall₂ (SubRel b c c') subs subs') {proc proc' : Buf} (_ : RowEq c c' proc proc')
      (_ : proc.n = 2^b) {ring ring' : Ring} (_ : GRel c c' ring ring'),
    OR (fun x y => List.Forall₂ (SubRel b c c') x.1 y.1 ∧ RowEq c c' x.2.1 y.2.1 ∧ x.2.1.n = 2^b ∧ GRel c c' x.2.2 y.2.2)
      (NUPC.stepSubsR saved subs proc ring) (NUPC.stepSubsR saved' subs' proc' ring')
  | [], _, .nil, proc, proc', hp, hpn, ring, ring', hr => OR.some ⟨.nil, hp, hpn, hr⟩
  | s :: subs, s' :: subs', .cons h1 h2, proc, proc', hp, hpn, ring, ring', hr => by
    unfold NUPC.stepSubsR
    simp only [Option.bind_eq_bind]
    refine OR.bind (h1.2.processR (hp.copyFrom hs) hpn) ?_
    rintro r r' ⟨hm, hb, hbn⟩
    rw [← h1.1]
    refine OR.bind (hr.getNext _ _) ?_
    rintro w w' ⟨hw, _⟩
    refine OR.bind (hw.addFromR hr.buf hb) ?_
    rintro bu bu' ⟨hbu, _⟩
    refine OR.bind (stepSubs_rel hs h2 hb (hbn.trans hpn) (ring := { ring with buf := bu }) (ring' := { ring' with buf := bu' })
      ⟨hr.head, hbu⟩) ?_
    rintro tl tl' ⟨k1, k2⟩
    refine OR.some ⟨.cons ⟨?_, hm⟩ k1, k2⟩
    first | rfl | exact h1.1

/-! ## `TimeDistributedNUPC` -/

/-- channel `c` of `s` and channel `c'` of `s'` are in the same state -/
structure NRel (c c' : ℕ) (s s' : NUPC) : Prop where
  upc : URel c c' s.upc s'.upc
  blockSize : s.blockSize = s'.blockSize
  collected : s.collected = s'.collected
  saved : RowEq c c' s.saved s'.saved
  proc : RowEq c c' s.proc s'.proc
  ring : GRel c c' s.ring s'.ring
  subs : (s.subs = [] ∧ s'.subs = []) ∨ ∃ b, s.blockSize = 2^b ∧ s.proc.n = 2^b ∧ List.Forall₂ (SubRel b c c') s.subs s'.subs

namespace NRel
variable {c c' : ℕ} {s s' : NUPC}

theorem len (h : NRel c c' s s') : s.subs.length = s'.subs.length := by
  rcases h.subs with ⟨h1, h2⟩ | ⟨b, _, _, h1⟩
  · rw [h1, h2]
  · exact h1.length_eq

theorem reset [ZeroLaws] (h : NRel c c' s s') : NRel c c' s.reset s'.reset where
  upc := h.upc.reset
  blockSize := h.blockSize
  collected := rfl
  saved := h.saved.clear
  proc := h.proc.clear
  ring := ⟨h.ring.head, h.ring.buf.clear⟩
  subs := by
    rcases h.subs with ⟨h1, h2⟩ | ⟨b, e1, e2, h1⟩
    · left; unfold NUPC.reset; simp [h1, h2]
    · right
      refine ⟨b, e1, e2, ?_⟩
      show List.Forall₂ _ (s.subs.map _) (s'.subs.map _)
      rw [List.forall₂_map_left_iff, List.forall₂_map_right_iff]
      exact h1.imp fun a d had => ⟨had.1, had.2.reset⟩

theorem collectR (h : NRel c c' s s') {sub sub' : Buf} (hb : RowEq c c' sub sub') (k : ℕ) :
    OR (NRel c c') (s.collectR sub k) (s'.collectR sub' k) := by
  unfold NUPC.collectR
  refine OR.cond (by rw [h.len]) (fun hl => ?_) (fun _ => OR.some h)
  simp only [Option.bind_eq_bind]
  rw [← h.collected, ← h.saved.n]
  refine OR.bind (h.saved.sub _ _) ?_
  rintro d d' ⟨hd, _⟩
  have hsv : RowEq c c' (s.saved.put s.collected (d.copyFrom sub)) (s'.saved.put s.collected (d'.copyFrom sub')) :=
    h.saved.put (hd.copyFrom hb) _
  obtain ⟨b, e1, e2, hf⟩ : ∃ b, s.blockSize = 2^b ∧ s.proc.n = 2^b ∧ List.Forall₂ (SubRel b c c') s.subs s'.subs := by
    rcases h.subs with ⟨h1, _⟩ | h1
    · rw [h1] at hl; simp at hl
    · exact h1
  refine OR.cond (by rw [h.blockSize]) (fun _ => ?_) (fun _ => OR.some ?_)
  · refine OR.bind (stepSubs_rel hsv hf h.proc e2 h.ring) ?_
    rintro r r' ⟨k1, k2, k3, k4⟩
    rw [← h.blockSize]
    refine OR.bind (k4.getNext _ _) ?_
    rintro a a' ⟨_, ha, _, _⟩
    exact OR.some
      { upc := h.upc, blockSize := rfl, collected := rfl
        saved := hsv, proc := k2, ring := ha, subs := Or.inr ⟨b, e1, k3, k1⟩ }
  · exact { h with collected := rfl, saved := hsv }

theorem addResultsR (h : NRel c c' s s') {sub sub' : Buf} (hb : RowEq c c' sub sub') (k : ℕ) :
    OR (fun x y => NRel c c' x.1 y.1 ∧ RowEq c c' x.2 y.2 ∧ x.2.n = sub.n) (s.addResultsR sub k) (s'.addResultsR sub' k) := by
  unfold NUPC.addResultsR
  refine OR.cond (by rw [h.len]) (fun hl => ?_) (fun _ => OR.some ⟨h, hb, rfl⟩)
  simp only [Option.bind_eq_bind]
  rw [← h.collected, ← h.blockSize]
  refine OR.bind (h.ring.getNext _ _) ?_
  rintro r r' ⟨hr, _⟩
  refine OR.bind (hr.getSubBlock k) ?_
  intro w w' hw
  refine OR.bind (hw.addToR h.ring.buf hb) ?_
  rintro o o' ⟨ho, hon⟩
  refine OR.some ⟨?_, ho, hon⟩
  exact { h with collected := rfl, blockSize := rfl, ring := ⟨h.ring.head, hw.clear h.ring.buf⟩ }

theorem bodyR {F : RealFFT} (hF : InPlace F) (h : NRel c c' s s') {blk blk' : Buf} (hb : RowEq c c' blk blk') (done k : ℕ) :
    OR (fun x y => NRel c c' x.1 y.1 ∧ RowEq c c' x.2 y.2 ∧ x.2.n = blk.n) (s.bodyR F blk done k) (s'.bodyR F blk' done k) := by
  unfold NUPC.bodyR
  simp only [Option.bind_eq_bind]
  refine OR.bind (hb.sub done k) ?_
  rintro sub sub' ⟨hsub, _⟩
  refine OR.bind (h.collectR hsub k) ?_
  intro t t' ht
  refine OR.bind (ht.upc.processR hF hsub) ?_
  rintro u u' ⟨hu, hub, _⟩
  refine OR.bind ((show NRel c c' { t with upc := u.1 } { t' with upc := u'.1 } from { ht with upc := hu }).addResultsR hub k) ?_
  rintro r r' ⟨hr, hrb, _⟩
  refine OR.some ⟨{ hr with collected := ?_ }, hb.put hrb _, rfl⟩
  show (r.1.collected + k) % r.1.blockSize = (r'.1.collected + k) % r'.1.blockSize
  rw [hr.collected, hr.blockSize]

theorem loopR {F : RealFFT} (hF : InPlace F) (fuel : ℕ) : ∀ {s s' : NUPC} (_ : NRel c c' s s') {blk blk' : Buf}
    (_ : RowEq c c' blk blk') (done : ℕ),
    OR (fun x y => NRel c c' x.1 y.1 ∧ RowEq c c' x.2 y.2 ∧ x.2.n = blk.n) (NUPC.loopR F fuel s blk done) (NUPC.loopR F fuel s' blk' done) := by
  induction fuel with
  | zero =>
    intro s s' h blk blk' hb done
    unfold NUPC.loopR
    rw [← hb.n]
    exact OR.guardn fun _ _ => OR.some ⟨h, hb, rfl⟩
  | succ fuel ih =>
    intro s s' h blk blk' hb done
    unfold NUPC.loopR
    rw [← hb.n]
    refine OR.cond Iff.rfl (fun _ => ?_) (fun _ => OR.some ⟨h, hb, rfl⟩)
    simp only [Option.bind_eq_bind]
    rw [← h.blockSize, ← h.collected]
    refine OR.bind (h.bodyR hF hb _ _) ?_
    rintro ⟨u, bu⟩ ⟨u', bu'⟩ ⟨hu, hbu, hn⟩
    exact (ih hu hbu _).mono fun x y h => ⟨h.1, h.2.1, h.2.2.trans hn⟩

theorem processR {F : RealFFT} (hF : InPlace F) (h : NRel c c' s s') {blk blk' : Buf} (hb : RowEq c c' blk blk') :
    OR (fun x y => NRel c c' x.1 y.1 ∧ RowEq c c' x.2 y.2 ∧ x.2.n = blk.n) (s.processR F blk) (s'.processR F blk') := by
  unfold NUPC.processR
  rw [← hb.n]
  exact loopR hF _ h hb 0

theorem create [ZeroLaws] {F : RealFFT} (hF : InPlace F) {B : ℕ} (hB : 0 < B) (hB' : B ≤ 2^24) {ir ir' : Buf}
    (h : RowEq c c' ir ir') (hn : 0 < ir.n) (hn' : ir.n ≤ 2^24) (g g' : Garbage) :
    OR (NRel c c') (NUPC.createR F B ir.ch ir g) (NUPC.createR F B ir'.ch ir' g') := by
  obtain ⟨sch, e1, ⟨n0, rest, rfl, hn0, hgood, hrestB⟩⟩ := getPartitionScheme_good hB hB' hn hn'
  have hs0 : (Layout.mk 1 n0).samples B = n0 * B := by simp [Layout.samples]
  unfold NUPC.createR
  rw [← h.n, if_pos hn, if_pos hn, e1]
  simp only [Option.bind_eq_bind, Option.bind_some, hs0]
  obtain ⟨hc, hc'⟩ := h.lt hn
  intro z hz w hw
  obtain ⟨seg, hseg, hz⟩ := Option.bind_eq_some_iff.mp hz
  obtain ⟨seg', hseg', hw⟩ := Option.bind_eq_some_iff.mp hw
  obtain ⟨hs, hsn, _⟩ := h.sub _ _ _ hseg _ hseg'
  have hpc : seg.ch = ir.ch := by unfold Buf.sub at hseg; split at hseg <;> cases hseg; rfl
  have hpc' : seg'.ch = ir'.ch := by unfold Buf.sub at hseg'; split at hseg' <;> cases hseg'; rfl
  obtain ⟨v, hv, hz⟩ := Option.bind_eq_some_iff.mp hz
  obtain ⟨v', hv', hw⟩ := Option.bind_eq_some_iff.mp hw
  have hu := URel.create hF hs (by omega) (by omega) g.upcRing g'.upcRing _ (by rw [hpc]; exact hv) _ (by rw [hpc']; exact hv')
  obtain ⟨subs, hsubs, hz⟩ := Option.bind_eq_some_iff.mp hz
  obtain ⟨subs', hsubs', hw⟩ := Option.bind_eq_some_iff.mp hw
  rcases hrest0 : rest with _ | ⟨l, rest'⟩
  · subst hrest0
    unfold NUPC.buildSubsR at hsubs hsubs'
    cases hsubs
    cases hsubs'
    cases hz
    cases hw
    refine NRel.reset ⟨hu, rfl, rfl, ⟨rfl, fun h0 => absurd h0 (by simp), fun i hi => absurd hi (by simp)⟩,
      ⟨rfl, fun h0 => absurd h0 (by simp), fun i hi => absurd hi (by simp)⟩,
      ⟨rfl, ⟨rfl, fun h0 => absurd h0 (by simp), fun i hi => absurd hi (by simp)⟩⟩, Or.inl ⟨rfl, rfl⟩⟩
  · obtain ⟨b, rfl⟩ : ∃ b, B = 2^b := by
      rcases hrestB with h | h
      · rw [hrest0] at h; cases h
      · exact h
    have hoff : n0 * 2^b < ir.n := by
      rw [hrest0] at hgood; exact hgood.2.2.2.2.1
    rw [min_eq_left hoff.le] at hsubs hsubs'
    have hf := buildSubs_rel h hn' g.tail g'.tail rest _ 0 hgood _ hsubs _ hsubs'
    have hlast : (subs.getLast? = none ∧ subs'.getLast? = none) ∨
        ∃ x y, subs.getLast? = some x ∧ subs'.getLast? = some y ∧ x.delay = y.delay := by
      clear hsubs hsubs' hz hw
      rcases List.eq_nil_or_concat subs with h0 | ⟨i, x, h0⟩
      · left
        subst h0
        cases hf
        exact ⟨rfl, rfl⟩
      · right
        have hlen := hf.length_eq
        rcases List.eq_nil_or_concat subs' with h1 | ⟨j, y, h1⟩
        · rw [h0, h1] at hlen; simp at hlen
        · refine ⟨x, y, by rw [h0]; simp, by rw [h1]; simp, ?_⟩
          subst h0 h1
          have := List.forall₂_reverse_iff.mpr hf
          simp only [List.concat_eq_append, List.reverse_append, List.reverse_cons, List.reverse_nil, List.nil_append,
            List.singleton_append] at this
          cases this with
          | cons h1 _ => exact h1.1
    rcases hlast with ⟨h1, h2⟩ | ⟨x, y, h1, h2, h3⟩
    · have h1' := List.getLast?_eq_none_iff.mp h1
      have h2' := List.getLast?_eq_none_iff.mp h2
      rw [h1] at hz
      rw [h2] at hw
      cases hz
      cases hw
      refine NRel.reset ⟨hu, rfl, rfl, ⟨rfl, fun h0 => absurd h0 (by simp), fun i hi => absurd hi (by simp)⟩,
        ⟨rfl, fun h0 => absurd h0 (by simp), fun i hi => absurd hi (by simp)⟩,
        ⟨rfl, ⟨rfl, fun h0 => absurd h0 (by simp), fun i hi => absurd hi (by simp)⟩⟩, Or.inl ⟨h1', h2'⟩⟩
    · rw [h1] at hz
      rw [h2] at hw
      cases hz
      cases hw
      have q : NRel c c' { upc := v, subs := subs, blockSize := 2^b, collected := 0
                           saved := ⟨ir.ch, 2^b, fun _ _ => 0⟩, proc := ⟨ir.ch, 2^b, fun _ _ => 0⟩, ring := ⟨0, ⟨ir.ch, x.delay, fun _ _ => 0⟩⟩ }
          { upc := v', subs := subs', blockSize := 2^b, collected := 0
            saved := ⟨ir'.ch, 2^b, fun _ _ => 0⟩, proc := ⟨ir'.ch, 2^b, fun _ _ => 0⟩, ring := ⟨0, ⟨ir'.ch, y.delay, fun _ _ => 0⟩⟩ } :=
        ⟨hu, rfl, rfl, ⟨rfl, fun _ => ⟨hc, hc'⟩, fun _ _ => rfl⟩, ⟨rfl, fun _ => ⟨hc, hc'⟩, fun _ _ => rfl⟩,
          ⟨rfl, ⟨h3, fun _ => ⟨hc, hc'⟩, fun _ _ => rfl⟩⟩, Or.inr ⟨b, rfl, rfl, hf⟩⟩
      refine { q.reset with saved := ?_, proc := ?_, ring := ?_ }
      · exact RowEq.cleared rfl fun _ => ⟨hc, hc'⟩
      · exact RowEq.cleared rfl fun _ => ⟨hc, hc'⟩
      · exact ⟨rfl, RowEq.cleared h3 fun _ => ⟨hc, hc'⟩⟩

end NRel

end Zones.Proofs.R
