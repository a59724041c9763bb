import Verif.Model.Multi
import Verif.Proofs.TDUPC
import Verif.Proofs.Float
import Mathlib.Data.List.GetD

/-! # `TimeDistributedUPCMulti` -/

open Finset Zones.Spec Zones.Model

namespace Zones.Proofs

/-! ## Channel groups -/

theorem largest_pos {n : ℕ} (h : 0 < n) : largestPowerOf2In n = 2 ^ Nat.log 2 n := by
  unfold largestPowerOf2In; rw [if_neg (by omega)]

theorem largest_le (n : ℕ) : largestPowerOf2In n ≤ n := by
  rcases Nat.eq_zero_or_pos n with rfl | h
  · simp [largestPowerOf2In]
  · rw [largest_pos h]; exact Nat.pow_log_le_self 2 (by omega)

theorem powers_unfold {n : ℕ} (h : 0 < n) :
    getPowersOf2In n = largestPowerOf2In n :: getPowersOf2In (n - largestPowerOf2In n) := by
  rw [getPowersOf2In, dif_pos h]

theorem powers_zero : getPowersOf2In 0 = [] := by
  rw [getPowersOf2In, dif_neg (by omega)]

theorem powers_sum (n : ℕ) : (getPowersOf2In n).sum = n := by
  induction n using Nat.strong_induction_on with
  | _ n ih =>
    rcases Nat.eq_zero_or_pos n with rfl | h
    · rw [powers_zero]; rfl
    · have hp : 0 < largestPowerOf2In n := by rw [largest_pos h]; positivity
      have := largest_le n
      rw [powers_unfold h, List.sum_cons, ih _ (by omega)]; omega

theorem powers_pow (n : ℕ) : ∀ g ∈ getPowersOf2In n, ∃ k, g = 2^k := by
  induction n using Nat.strong_induction_on with
  | _ n ih =>
    rcases Nat.eq_zero_or_pos n with rfl | h
    · rw [powers_zero]; simp
    · have hp : 0 < largestPowerOf2In n := by rw [largest_pos h]; positivity
      rw [powers_unfold h]
      intro g hg
      rcases List.mem_cons.1 hg with rfl | hg
      · exact ⟨_, largest_pos h⟩
      · exact ih _ (by omega) g hg

theorem plansFrom_length (psb irCh : ℕ) (l : List ℕ) (off : ℕ) :
    (plansFrom psb irCh off l).length = l.sum := by
  induction l generalizing off with
  | nil => rfl
  | cons g l ih => simp [plansFrom, groupPlans, ih]

theorem plansFrom_get (psb irCh : ℕ) (l : List ℕ) (off c : ℕ) (hc : c < l.sum) (d : ChannelPlan) :
    ∃ g ∈ l, ∃ ci < g, (plansFrom psb irCh off l).getD c d =
      ⟨(c + off) % irCh, (ci * 2^(numDecompositions psb g + 1)) % psb, numDecompositions psb g⟩ := by
  induction l generalizing off c with
  | nil => simp at hc
  | cons g l ih =>
    simp only [plansFrom]
    by_cases h : c < g
    · refine ⟨g, by simp, c, h, ?_⟩
      rw [List.getD_append _ _ _ _ (by simpa [groupPlans] using h)]
      simp [groupPlans, h]
    · have hl : (groupPlans psb irCh g off).length = g := by simp [groupPlans]
      rw [List.getD_append_right _ _ _ _ (by omega), hl]
      rw [List.sum_cons] at hc
      obtain ⟨g', hg', ci, hci, e⟩ := ih (off + g) (c - g) (by omega)
      refine ⟨g', by simp [hg'], ci, hci, ?_⟩
      rw [e]; congr 2; omega

theorem log_half (p : ℕ) (hp : 1 ≤ p) : Nat.log 2 (2^p / 2) = p - 1 := by
  obtain ⟨q, rfl⟩ : ∃ q, p = q+1 := ⟨p-1, by omega⟩
  rw [pow_succ, Nat.mul_div_cancel _ (by norm_num), Nat.log_pow (by norm_num)]; omega

theorem numDecompositions_pow (p k : ℕ) (hp : 1 ≤ p) : numDecompositions (2^p) (2^k) = p - 1 - k := by
  unfold numDecompositions
  rw [log_half p hp, Nat.log_pow (by norm_num)]; omega

/-- a multiple of `2^a` modulo `2^p` leaves room for another `2^a` -/
theorem offset_fits {a p ci : ℕ} (h : a ≤ p) : (ci * 2^a) % 2^p + 2^a ≤ 2^p := by
  obtain ⟨q, rfl⟩ : ∃ q, p = q + a := ⟨p - a, by omega⟩
  rw [pow_add, Nat.mul_mod_mul_right]
  have : ci % 2^q < 2^q := Nat.mod_lt _ (by positivity)
  calc ci % 2^q * 2^a + 2^a = (ci % 2^q + 1) * 2^a := by ring
    _ ≤ _ := Nat.mul_le_mul_right _ this

theorem channelPlans_length (psb irCh n : ℕ) : (channelPlans psb irCh n).length = n := by
  unfold channelPlans; rw [plansFrom_length, powers_sum]

theorem channelPlans_get {p : ℕ} (hp : 1 ≤ p) (irCh n c : ℕ) (hc : c < n) (d : ChannelPlan) :
    ((channelPlans (2^p) irCh n).getD c d).filterChannel = c % irCh ∧
    ((channelPlans (2^p) irCh n).getD c d).nd + 1 ≤ p ∧
    ((channelPlans (2^p) irCh n).getD c d).transformOffset +
      2^(((channelPlans (2^p) irCh n).getD c d).nd + 1) ≤ 2^p := by
  unfold channelPlans
  obtain ⟨g, hg, ci, hci, e⟩ := plansFrom_get (2^p) irCh (getPowersOf2In n) 0 c (by rw [powers_sum]; exact hc) d
  obtain ⟨k, rfl⟩ := powers_pow n g hg
  rw [e]
  have hn := numDecompositions_pow p k hp
  refine ⟨by simp, ?_, ?_⟩
  · simp only [hn]; omega
  · exact offset_fits (by rw [hn]; omega)

/-! ## Filters -/

theorem buildVec_eq {α : Type} (dflt : α) {f : ℕ → Option α} {n : ℕ} {Q : ℕ → α → Prop}
    (h : ∀ i < n, ∃ a, f i = some a ∧ Q i a) : ∃ v, buildVec dflt f n = some v ∧ ∀ i < n, Q i (v i) := by
  induction n with
  | zero => exact ⟨_, rfl, fun i hi => by omega⟩
  | succ n ih =>
    obtain ⟨v, e, hv⟩ := ih (fun i hi => h i (by omega))
    obtain ⟨a, ea, ha⟩ := h n (by omega)
    refine ⟨Function.update v n a, ?_, ?_⟩
    · unfold buildVec; rw [e]; simp [ea]
    · intro i hi
      by_cases hin : i = n
      · subst hin; rw [Function.update_self]; exact ha
      · rw [Function.update_of_ne hin]; exact hv i (by omega)

/-- samples of channel `c` of a block, continued by zeros -/
def zext (b : Buf) (c : ℕ) (k : ℕ) : ℝ := if k < b.n then b.data c k else 0

theorem fftChannel_eq {n : ℕ} {b : CBuf} {c : ℕ} (hc : c < b.ch) (hnp : b.np = 2^n) :
    ∃ b', fftChannel (2^n) b c = some b' ∧ b'.ch = b.ch ∧ b'.np = b.np ∧
      (∀ k < 2^n, b'.get c k = down n (b.get c) k) ∧
      ∀ c' ≠ c, ∀ k < 2^n, b'.get c' k = b.get c' k := by
  unfold fftChannel
  have h1 : b.pointer c = some (b.get c) := by unfold CBuf.pointer; rw [if_pos hc]
  have h2 := forwardFFT_eq (M := n) (s := 0) (sz := b.np) (by rw [hnp]; omega) (b.get c)
  rw [Nat.zero_mul] at h2
  simp only [h1, h2, Option.bind_eq_bind, Option.bind_some]
  refine ⟨_, rfl, rfl, rfl, ?_, ?_⟩
  · intro k hk
    rw [get_setChannel_same (by rw [hnp]; exact hk), onSet, if_pos ⟨by omega, by omega⟩]
  · intro c' hc' k hk
    rw [get_setChannel_ne (by rw [hnp]; exact hk) hc']

theorem fftChannels_eq {n : ℕ} (m : ℕ) {b : CBuf} (hm : m ≤ b.ch) (hnp : b.np = 2^n) :
    ∃ b', (List.range m).foldlM (fftChannel (2^n)) b = some b' ∧ b'.ch = b.ch ∧ b'.np = b.np ∧
      ∀ c, ∀ k < 2^n, b'.get c k = if c < m then down n (b.get c) k else b.get c k := by
  induction m with
  | zero => exact ⟨b, rfl, rfl, rfl, fun c k _ => by simp⟩
  | succ m ih =>
    obtain ⟨b1, e1, c1, n1, g1⟩ := ih (by omega)
    obtain ⟨b2, e2, c2, n2, g2, g3⟩ := fftChannel_eq (n := n) (b := b1) (c := m) (by omega) (by rw [n1, hnp])
    refine ⟨b2, ?_, by rw [c2, c1], by rw [n2, n1], ?_⟩
    · rw [List.range_succ, List.foldlM_append, e1]
      simp [e2]
    · intro c k hk
      by_cases hcm : c = m
      · subst hcm
        rw [g2 k hk, if_pos (by omega)]
        refine down_congrOn (S := InBlk n 0) (fun a ha => closed_InBlk ha) (fun j hj => ?_) k ⟨by omega, by omega⟩
        have hj2 := hj.2
        rw [g1 c j (by omega), if_neg (by omega)]
      · rw [g3 c hcm k hk, g1 c k hk]
        by_cases h : c < m
        · rw [if_pos h, if_pos (by omega)]
        · rw [if_neg h, if_neg (by omega)]

theorem multiFilter_eq {n P : ℕ} (hP : 2 * P = 2^n) (seg : Buf) {i : ℕ} (hi : i * P < seg.n) :
    ∃ b, multiFilter P seg i = some b ∧ b.np = 2^n ∧ b.ch = seg.ch ∧
      ∀ c < seg.ch, ∀ k < 2^n, b.get c k = down n (hw P (zext seg c) i) k := by
  unfold multiFilter
  have hsub : seg.sub (i * P) (min P (seg.n - i * P)) =
      some ⟨seg.ch, min P (seg.n - i * P), fun c j => seg.data c (i * P + j)⟩ := by
    unfold Buf.sub; rw [if_pos ⟨hi, by omega⟩]
  obtain ⟨fp, e1, n1, c1, g1⟩ := copyFromAudioBlock_eq (b := (CBuf.mk0 (2 * P) seg.ch).clear)
    (s := ⟨seg.ch, min P (seg.n - i * P), fun c j => seg.data c (i * P + j)⟩) rfl
  obtain ⟨b, e2, c2, n2, g2⟩ := fftChannels_eq (n := n) seg.ch (b := fp) (by rw [c1]; rfl) (by rw [n1]; exact hP)
  rw [hP] at e1
  simp only [hsub, Option.bind_eq_bind, Option.bind_some, hP, e1]
  refine ⟨b, e2, by rw [n2, n1]; exact hP, by rw [c2, c1]; rfl, ?_⟩
  intro c hc k hk
  rw [g2 c k hk, if_pos hc]
  refine down_congrOn (S := InBlk n 0) (fun a ha => closed_InBlk ha) (fun j hj => ?_) k ⟨by omega, by omega⟩
  have hj2 : j < 2 * P := by have := hj.2; omega
  rw [g1 c hc j hj2, get_clear (by exact hc) hj2]
  simp only [hw, zext]
  by_cases h1 : j < P
  · rw [if_pos h1]
    by_cases h2 : i * P + j < seg.n
    · rw [if_pos (by omega), if_pos h2]
    · rw [if_neg (by omega), if_neg h2]; simp
  · rw [if_neg h1, if_neg (by omega)]

/-! ## One channel, seen from its start -/

/-- `a` zeros followed by `x` -/
def shift (a : ℕ) (x : ℕ → ℝ) (i : ℕ) : ℝ := if i < a then 0 else x (i - a)

/-- the convolution delayed by `D` samples -/
noncomputable def dconv (L : ℕ) (h x : ℕ → ℝ) (D n : ℕ) : ℝ := if D ≤ n then linConv L h x (n - D) else 0

theorem sum_dconv {a n D m : ℕ} {h x : ℕ → ℝ} (ha : D + m ≤ a) :
    ∑ k ∈ range m, h k * shift a x (a + n - D - k) = dconv m h x D n := by
  unfold dconv linConv
  by_cases hD : D ≤ n
  · rw [if_pos hD]
    refine sum_congr rfl fun k hk => ?_
    rw [mem_range] at hk
    unfold shift
    by_cases hk2 : k ≤ n - D
    · rw [if_pos hk2, if_neg (by omega)]; congr 2; omega
    · rw [if_neg hk2, if_pos (by omega), mul_zero]
  · rw [if_neg hD]
    refine sum_eq_zero fun k hk => ?_
    rw [mem_range] at hk
    unfold shift
    rw [if_pos (by omega), mul_zero]

theorem linConv_ext {m L : ℕ} (hm : L ≤ m) {h h' x : ℕ → ℝ} (h1 : ∀ k < L, h k = h' k) (h2 : ∀ k, L ≤ k → h k = 0)
    (n : ℕ) : linConv m h x n = linConv L h' x n := by
  unfold linConv
  rw [← sum_subset (range_mono hm)]
  · refine sum_congr rfl fun k hk => ?_
    rw [mem_range] at hk
    rw [h1 k hk]
  · intro k _ hk
    rw [mem_range] at hk
    rw [h2 k (by omega)]; simp

/-- state after `t` blocks of `x` since the start or the last reset -/
def SInv (c : Par) (x : ℕ → ℝ) (t : ℕ) (s : TDUPC) : Prop :=
  ∃ T0, (c.K + 5) * 2^c.p ≤ T0 ∧ TInv c (shift (T0 * 2^c.b) x) (T0 + t) s

variable {c : Par} {ph t : ℕ} {A B C : ℕ → ℂ} {F : ℕ → ℕ → ℂ} {T : ℕ → ℝ} {s : TDUPC} {x : ℕ → ℝ}

theorem SInv.of_zero (h : Rep c ph (fun _ => 0) (fun _ => 0) (fun _ => 0) (fun _ _ => 0) (fun _ => 0) s)
    (hph : ph < 2^c.p) (x : ℕ → ℝ) : SInv c x 0 s := by
  refine ⟨(c.K+5) * 2^c.p + ph, by omega, ?_⟩
  apply TInv.of_zero
  · rw [Nat.add_zero, add_comm, Nat.add_mul_mod_self_right, Nat.mod_eq_of_lt hph]; exact h
  · omega
  · intro i hi
    unfold shift; rw [if_pos (by simpa using hi)]

theorem SInv.rep (h : SInv c x t s) : ∃ ph A B C F T, ph < 2^c.p ∧ Rep c ph A B C F T s := by
  obtain ⟨T0, _, h⟩ := h
  obtain ⟨A, B, C, F, T, r⟩ := h.rep
  exact ⟨_, A, B, C, F, T, Nat.mod_lt _ (by positivity), r⟩

theorem SInv.reset (h : SInv c x t s) (x' : ℕ → ℝ) : SInv c x' 0 s.reset := by
  obtain ⟨ph, A, B, C, F, T, hph, r⟩ := h.rep
  exact SInv.of_zero r.reset hph x'

theorem SInv.step {h : ℕ → ℝ} (hH : c.H = hw c.P h) (hs : SInv c x t s) (inp : ℕ → ℝ)
    (hin : ∀ i < 2^c.b, inp i = x (t * 2^c.b + i)) :
    ∃ s' out, s.process (2^c.b) inp = some (s', out) ∧
      (∀ i < 2^c.b, out i = dconv (c.K * c.P) h x (2 * c.P) (t * 2^c.b + i)) ∧
      SInv c x (t+1) s' := by
  obtain ⟨T0, hT0, hs⟩ := hs
  have hb : 0 < 2^c.b := by positivity
  have e3 : 2^c.p * 2^c.b = c.P := by rw [← pow_add, add_comm]
  have hbig : (c.K + 5) * c.P ≤ T0 * 2^c.b := by
    calc (c.K + 5) * c.P = (c.K + 5) * 2^c.p * 2^c.b := by rw [mul_assoc, e3]
      _ ≤ _ := Nat.mul_le_mul_right _ hT0
  have e4 : (c.K + 5) * c.P = c.K * c.P + 5 * c.P := by ring
  have e5 : (T0 + t) * 2^c.b = T0 * 2^c.b + t * 2^c.b := by ring
  obtain ⟨s', out, h1, h2, h3⟩ := hs.step hH inp (by
    intro i hi
    rw [hin i hi]; unfold shift; rw [if_neg (by omega)]; congr 1; omega)
  refine ⟨s', out, h1, ?_, T0, hT0, by rw [← add_assoc]; exact h3⟩
  intro i hi
  rw [h2 i hi, e5, ← sum_dconv (a := T0 * 2^c.b) (by omega)]
  refine sum_congr rfl fun k _ => ?_
  rw [add_assoc]

/-! ## All channels -/

/-- number of partitions of a segment -/
abbrev segK (P : ℕ) (seg : Buf) : ℕ := (seg.n + P - 1) / P

/-- parameters of channel `ch` -/
abbrev chPar (b p : ℕ) (seg : Buf) (ch nd off : ℕ) : Par :=
  ⟨b, p, segK (2^(b+p)) seg, nd, off, hw (2^(b+p)) (zext seg (ch % seg.ch))⟩

/-- state of the sub convolver of all channels after `t` blocks of `x` -/
structure MInv (b p : ℕ) (seg : Buf) (nch : ℕ) (x : ℕ → ℕ → ℝ) (t : ℕ) (m : Multi) : Prop where
  num : m.num = nch
  ch : ∀ c < nch, ∃ nd off, SInv (chPar b p seg c nd off) (x c) t (m.td c)

theorem MInv.create_of {b p nch : ℕ} (hp : 1 ≤ p) {seg : Buf} (hseg : 0 < seg.n) (hch : 0 < nch → 0 < seg.ch)
    (hcount : numPartitionsFor (2^(b+p)) seg.n = segK (2^(b+p)) seg) (tail0 : ℕ → ℕ → ℕ → ℝ) :
    ∃ m, Multi.create (2^b) nch (2^p) seg tail0 = some m ∧ ∀ x, MInv b p seg nch x 0 m := by
  have hP0 : 0 < 2^(b+p) := by positivity
  have e1 : 2^p * 2^b = 2^(b+p) := by rw [← pow_add, add_comm]
  unfold Multi.create
  simp only [e1]
  rw [if_neg (by omega), hcount]
  have hK : 0 < segK (2^(b+p)) seg := Nat.div_pos (by omega) hP0
  obtain ⟨v, ev, hv⟩ := buildVec_eq (CBuf.mk0 0 0) (f := multiFilter (2^(b+p)) seg) (n := segK (2^(b+p)) seg)
    (Q := fun i b' => b'.np = 2^(b+p+1) ∧ b'.ch = seg.ch ∧
      ∀ c < seg.ch, ∀ k < 2^(b+p+1), b'.get c k = down (b+p+1) (hw (2^(b+p)) (zext seg c) i) k)
    (fun i hi => multiFilter_eq (by rw [pow_succ]; ring) seg (by
      rw [Nat.lt_div_iff_mul_lt hP0] at hi; omega))
  have h2 : 2^p / 2 ≠ 0 := by
    obtain ⟨q, rfl⟩ : ∃ q, p = q+1 := ⟨p-1, by omega⟩
    rw [pow_succ, Nat.mul_div_cancel _ (by norm_num)]; positivity
  simp only [ev, Option.bind_eq_bind, Option.bind_some]
  rw [if_neg (by omega)]
  refine ⟨_, rfl, fun x => ⟨channelPlans_length _ _ _, fun c hc => ?_⟩⟩
  obtain ⟨f1, f2, f3⟩ := channelPlans_get hp seg.ch nch c hc ⟨0, 0, 0⟩
  show ∃ nd off, SInv (chPar b p seg c nd off) (x c) 0 (TDUPC.create (2^b) (2^p) (segK (2^(b+p)) seg) v
    ((channelPlans (2^p) seg.ch nch).getD c ⟨0,0,0⟩).filterChannel
    ((channelPlans (2^p) seg.ch nch).getD c ⟨0,0,0⟩).transformOffset
    ((channelPlans (2^p) seg.ch nch).getD c ⟨0,0,0⟩).nd (tail0 c))
  generalize (channelPlans (2^p) seg.ch nch).getD c ⟨0,0,0⟩ = pl at f1 f2 f3 ⊢
  refine ⟨pl.nd, pl.transformOffset, SInv.of_zero (ph := 0) ?_ (by positivity) _⟩
  refine Rep.create (chPar b p seg c pl.nd pl.transformOffset) f2 f3 hK v pl.filterChannel (tail0 c) ?_
  intro i hi
  obtain ⟨g1, g2, g3⟩ := hv i hi
  have hlt : pl.filterChannel < seg.ch := by rw [f1]; exact Nat.mod_lt _ (hch (by omega))
  exact ⟨g1, by omega, fun k hk => by rw [g3 _ hlt k hk, f1]⟩

theorem MInv.create {b p nch : ℕ} (hp : 1 ≤ p) {seg : Buf} (hseg : 0 < seg.n) (hch : 0 < nch → 0 < seg.ch)
    (hn : seg.n ≤ 2^24) (hP : 2^(b+p) ≤ 2^24) (tail0 : ℕ → ℕ → ℕ → ℝ) :
    ∃ m, Multi.create (2^b) nch (2^p) seg tail0 = some m ∧ ∀ x, MInv b p seg nch x 0 m :=
  MInv.create_of hp hseg hch (numPartitionsFor_eq (by positivity) hn hP) tail0

theorem MInv.reset {b p nch : ℕ} {seg : Buf} {x : ℕ → ℕ → ℝ} {m : Multi} (h : MInv b p seg nch x t m)
    (x' : ℕ → ℕ → ℝ) : MInv b p seg nch x' 0 m.reset := by
  refine ⟨h.num, fun c hc => ?_⟩
  obtain ⟨nd, off, hs⟩ := h.ch c hc
  refine ⟨nd, off, ?_⟩
  have : m.reset.td c = (m.td c).reset := by
    unfold Multi.reset; simp only; rw [if_pos (by rw [h.num]; exact hc)]
  rw [this]; exact hs.reset _

theorem MInv.step {b p nch : ℕ} {seg : Buf} {x : ℕ → ℕ → ℝ} {m : Multi} (h : MInv b p seg nch x t m)
    {blk : Buf} (hch : blk.ch = nch) (hn : blk.n = 2^b)
    (hin : ∀ c < nch, ∀ i < 2^b, blk.data c i = x c (t * 2^b + i)) :
    ∃ m' blk', m.process blk = some (m', blk') ∧ blk'.ch = nch ∧ blk'.n = 2^b ∧
      (∀ c < nch, ∀ i < 2^b, blk'.data c i =
        dconv seg.n (seg.data (c % seg.ch)) (x c) (2 * 2^(b+p)) (t * 2^b + i)) ∧
      MInv b p seg nch x (t+1) m' := by
  have hP0 : 0 < 2^(b+p) := by positivity
  have main : ∀ k ≤ nch, ∃ m' blk', (List.range k).foldlM Multi.processChannel (m, blk) = some (m', blk') ∧
      m'.num = nch ∧ blk'.ch = nch ∧ blk'.n = 2^b ∧
      (∀ c < nch, ∀ i < 2^b, blk'.data c i = if c < k then
        dconv seg.n (seg.data (c % seg.ch)) (x c) (2 * 2^(b+p)) (t * 2^b + i) else blk.data c i) ∧
      (∀ c < nch, c < k → ∃ nd off, SInv (chPar b p seg c nd off) (x c) (t+1) (m'.td c)) ∧
      (∀ c < nch, ¬ c < k → m'.td c = m.td c) := by
    intro k hk
    induction k with
    | zero => exact ⟨m, blk, rfl, h.num, hch, hn, fun c _ i _ => by simp, fun c _ hc => by omega, fun c _ _ => rfl⟩
    | succ k ih =>
      obtain ⟨m1, b1, e1, n1, c1, bn1, d1, s1, s2⟩ := ih (by omega)
      obtain ⟨nd, off, hs⟩ := h.ch k (by omega)
      rw [← s2 k (by omega) (by omega)] at hs
      obtain ⟨s', out, f1, f2, f3⟩ := hs.step (h := zext seg (k % seg.ch)) rfl (b1.data k) (by
        intro i hi
        rw [d1 k (by omega) i hi, if_neg (by omega), hin k (by omega) i hi])
      refine ⟨{ m1 with td := Function.update m1.td k s' }, b1.putChannel k out, ?_, n1, c1, bn1, ?_, ?_, ?_⟩
      · rw [List.range_succ, List.foldlM_append, e1]
        simp only [Option.bind_eq_bind, Option.bind_some, List.foldlM_cons, List.foldlM_nil]
        unfold Multi.processChannel Buf.single
        simp only [show k < b1.ch by omega, show k < m1.num by omega, if_true, Option.bind_eq_bind,
          Option.bind_some]
        have f1' : (m1.td k).process b1.n (fun i => b1.data k i) = some (s', out) := by
          rw [bn1]; exact f1
        rw [f1']; rfl
      · intro c hc i hi
        unfold Buf.putChannel
        simp only
        by_cases hck : c = k
        · subst hck
          rw [if_pos ⟨rfl, by omega⟩, if_pos (by omega), f2 i hi]
          unfold dconv
          split
          · apply linConv_ext
            · have := Nat.div_add_mod (seg.n + 2^(b+p) - 1) (2^(b+p))
              have := Nat.mod_lt (seg.n + 2^(b+p) - 1) hP0
              show seg.n ≤ (seg.n + 2^(b+p) - 1) / 2^(b+p) * 2^(b+p)
              rw [mul_comm]; omega
            · intro j hj; unfold zext; rw [if_pos hj]
            · intro j hj; unfold zext; rw [if_neg (by omega)]
          · rfl
        · rw [if_neg (by tauto), d1 c hc i hi]
          by_cases hc2 : c < k
          · rw [if_pos hc2, if_pos (by omega)]
          · rw [if_neg hc2, if_neg (by omega)]
      · intro c hc hck
        by_cases hck2 : c = k
        · subst hck2; simp only [Function.update_self]; exact ⟨nd, off, f3⟩
        · simp only [Function.update_of_ne hck2]; exact s1 c hc (by omega)
      · intro c hc hck
        simp only [Function.update_of_ne (show c ≠ k by omega)]; exact s2 c hc (by omega)
  obtain ⟨m', blk', e, n1, c1, bn1, d1, s1, _⟩ := main nch le_rfl
  refine ⟨m', blk', by unfold Multi.process; rw [hch]; exact e, c1, bn1, ?_, n1, fun c hc => s1 c hc hc⟩
  intro c hc i hi
  rw [d1 c hc i hi, if_pos hc]

end Zones.Proofs
