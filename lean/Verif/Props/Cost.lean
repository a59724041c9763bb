import Verif.Props.Work
import Verif.Proofs.CostCreate

/-!
# C87: the operations a `Process` call executes

The counters are defined in `Verif/Model/Cost.lean`, what they should amount to in `Verif/Spec/Cost.lean`.
-/

open Zones.Spec Zones.Model Zones.Proofs

namespace Zones.Props

theorem sum_butterflies {ι : Type} (l : List ι) (f : ι → Cost) : (l.map f).sum.butterflies = (l.map fun i => (f i).butterflies).sum := by
  induction l with
  | nil => rfl
  | cons a l ih => rw [List.map_cons, List.sum_cons, List.map_cons, List.sum_cons, ← ih]; rfl

theorem sum_products {ι : Type} (l : List ι) (f : ι → Cost) : (l.map f).sum.products = (l.map fun i => (f i).products).sum := by
  induction l with
  | nil => rfl
  | cons a l ih => rw [List.map_cons, List.sum_cons, List.map_cons, List.sum_cons, ← ih]; rfl

theorem sum_transforms {ι : Type} (l : List ι) (f : ι → Cost) (h : ∀ i, (f i).transforms = 0) : (l.map f).sum.transforms = 0 := by
  induction l with
  | nil => rfl
  | cons a l ih =>
    rw [List.map_cons, List.sum_cons]
    show (f a).transforms + _ = 0
    rw [ih, h]

theorem sum_spectra {ι : Type} (l : List ι) (f : ι → Cost) (h : ∀ i, (f i).spectra = 0) : (l.map f).sum.spectra = 0 := by
  induction l with
  | nil => rfl
  | cons a l ih =>
    rw [List.map_cons, List.sum_cons]
    show (f a).spectra + _ = 0
    rw [ih, h]

theorem finset_butterflies (n : ℕ) (f : ℕ → Cost) : (∑ i ∈ Finset.range n, f i).butterflies = ∑ i ∈ Finset.range n, (f i).butterflies := by
  rw [← list_sum_range, sum_butterflies, list_sum_range]

theorem finset_products (n : ℕ) (f : ℕ → Cost) : (∑ i ∈ Finset.range n, f i).products = ∑ i ∈ Finset.range n, (f i).products := by
  rw [← list_sum_range, sum_products, list_sum_range]

theorem stagesOf_powers {B L : ℕ} : ∀ {rest : List Layout} {off : ℕ}, GoodRest B L off rest → ∀ st ∈ stagesOf B L off rest, ∃ p, 1 ≤ p ∧ st.1 = 2^p
  | [], _, _, st, h => by cases h
  | l :: rest, off, ⟨h1, _, _, _, _, _, h7⟩, st, h => by
    unfold stagesOf at h
    rcases List.mem_cons.mp h with rfl | h
    · exact h1
    · exact stagesOf_powers h7 st h

theorem stagesCost_eq {b nch : ℕ} {stages : List (ℕ × ℕ)} (h : ∀ st ∈ stages, ∃ p, 1 ≤ p ∧ st.1 = 2^p) (j : ℕ) :
    stagesCost b nch (logStages stages) j =
      ⟨(stages.map fun st => stageButterflies (2^b) st.1 nch (j % st.1)).sum, (stages.map fun st => stageProducts (2^b) st.2 nch).sum, 0, 0⟩ := by
  unfold stagesCost logStages
  rw [List.map_map]
  have e : (stages.map ((fun st => stageCost b st.1 st.2 nch (j % 2^st.1)) ∘ fun st => (Nat.log 2 st.1, st.2))) =
      stages.map fun st => (⟨stageButterflies (2^b) st.1 nch (j % st.1), stageProducts (2^b) st.2 nch, 0, 0⟩ : Cost) := by
    refine List.map_congr_left fun st hst => ?_
    obtain ⟨p, _, hp⟩ := h st hst
    have : 2 ^ Nat.log 2 st.1 = st.1 := by rw [hp, Nat.log_pow (by norm_num)]
    simp only [Function.comp_apply, stageCost, this]
  rw [e]
  ext
  · rw [sum_butterflies]
  · rw [sum_products]
  · rw [sum_transforms _ _ fun _ => rfl]
  · rw [sum_spectra _ _ fun _ => rfl]

/-- what a call of `n` samples costs, by counters -/
theorem nCost_eq {b nch K0 : ℕ} {stages : List (ℕ × ℕ)} (h : ∀ st ∈ stages, ∃ p, 1 ≤ p ∧ st.1 = 2^p) (j col n u : ℕ) :
    nCost (stagesCost b nch (logStages stages)) nch (2^(b+1)) K0 (2^b) j col n u =
      ⟨∑ i ∈ Finset.range ((col + n) / 2^b), (stages.map fun st => stageButterflies (2^b) st.1 nch ((j + i) % st.1)).sum,
        (col + n) / 2^b * (stages.map fun st => stageProducts (2^b) st.2 nch).sum,
        2 * nch * u, nch * (2 * 2^b) * (u + (K0 - 1) * partitionsBegun (2^b) col n)⟩ := by
  unfold nCost blockWork
  have e : ∀ m, ∑ i ∈ Finset.range m, stagesCost b nch (logStages stages) (j + i) =
      ⟨∑ i ∈ Finset.range m, (stages.map fun st => stageButterflies (2^b) st.1 nch ((j + i) % st.1)).sum,
        m * (stages.map fun st => stageProducts (2^b) st.2 nch).sum, 0, 0⟩ := by
    intro m
    induction m with
    | zero => simp; rfl
    | succ m ih =>
      rw [Finset.sum_range_succ, ih, stagesCost_eq h, Finset.sum_range_succ, Nat.succ_mul]
      rfl
  rw [e, pow_succ, mul_comm (2^b) 2]
  ext <;> simp

/-- What the counters show after a call of `n` samples that begins `t` samples after the last `Reset`, when `j` blocks were completed before: `stages` are partition
sizes (in blocks) and numbers of partitions, the first, uniform one has `K0` partitions. -/
structure CallCost (B nch K0 : ℕ) (stages : List (ℕ × ℕ)) (j t n : ℕ) (κ : Cost) : Prop where
  /-- the stages' transforms, in the blocks that are completed -/
  butterflies : κ.butterflies = ∑ i ∈ Finset.range ((t % B + n) / B), (stages.map fun st => stageButterflies B st.1 nch ((j + i) % st.1)).sum
  /-- the stages' spectra: the same in every block -/
  products : κ.products = (t % B + n) / B * (stages.map fun st => stageProducts B st.2 nch).sum
  /-- a transform back and forth of each channel in every pass -/
  transforms : κ.transforms = 2 * nch * passesBegun B t n
  /-- one product of spectra in every pass, the others when a partition begins -/
  spectra : κ.spectra = nch * (2 * B) * (passesBegun B t n + (K0 - 1) * partitionsBegun B t n)

/-- A convolver's shape, from creation on. -/
theorem counted_history {F : RealFFT} (hF : Lawful F) {ir : Buf} {maxB N : ℕ} {spec : ConvolverSpec} (h : Usable ir maxB spec N) (g : Garbage) (r0 : ℕ → ℕ → ℝ)
    {B : ℕ} {first : Layout} {rest : List Layout} (hB : internalBlockSize 64 maxB spec.internalBlockSize = some B)
    (hsch : getPartitionScheme kGarciaResults B ir.n = some (first :: rest)) :
    ∃ b c, B = 2^b ∧ first.psb = 1 ∧ (∀ st ∈ stagesOf B ir.n (first.np * B) rest, ∃ p, 1 ≤ p ∧ st.1 = 2^p) ∧
      Convolver.create F ir maxB spec g r0 = some c ∧
      ∀ (ops : List Op), (∀ b, Op.process b ∈ ops → b.ch = N) →
        ∃ used, history (Convolver.process F) Convolver.reset c ops = some used ∧
          (∀ blk : Buf, blk.ch = N → ∃ r, Convolver.process F used blk = some r) ∧
          CShape b ir.ch ir.ch (2^(b+1)) (partitionsNeeded (2^b) (min (first.np * 2^b) ir.n)) (logStages (stagesOf (2^b) ir.n (first.np * 2^b) rest))
            (blocksCompleted B 0 0 ops) (samplesSinceReset 0 ops % 2^b) used := by
  obtain ⟨b, hb1, hb2, e1, _, _⟩ := internalBlockSize_eq (fuel := 64) (by omega) (requested_le h.blockSize)
  rw [hB] at e1
  obtain rfl := Option.some.inj e1
  have hB' : 2^b ≤ 2^24 := Nat.pow_le_pow_right (by norm_num) (by omega)
  obtain ⟨sch, e2, n0, rest', rfl, hn0, hg, _⟩ := getPartitionScheme_good (B := 2^b) (by positivity) hB' h.nonempty h.size
  rw [hsch] at e2
  have e2 := Option.some.inj e2
  rw [List.cons.injEq] at e2
  obtain ⟨rfl, rfl⟩ := e2
  obtain ⟨c, e, _⟩ := usable_create hF h g r0
  have hc := CShape.create h.nonempty h.size (by omega) e hB hsch hg
  obtain ⟨c', e', hp⟩ := C50_convolver_passes hF h g r0
  rw [e] at e'
  obtain rfl := Option.some.inj e'
  refine ⟨b, c, rfl, rfl, stagesOf_powers hg, e, fun ops hops => ?_⟩
  obtain ⟨used, _, e3, _⟩ := hp ops ⟨N, 0, fun _ _ => 0⟩ hops rfl
  refine ⟨used, e3, fun blk hblk => ?_, history_shape ops (t := 0) (by rw [Nat.zero_mod]; exact hc) e3⟩
  obtain ⟨used', r, e4, e5, _⟩ := hp ops blk hops hblk
  rw [e3] at e4
  obtain rfl := Option.some.inj e4
  exact ⟨r, e5⟩

/-- **C87.** The operations a `Process` call executes, exactly: after any calls of `Process` and `Reset`, for any number of samples. They depend on nothing but the
block size, the number of channels, the partition scheme, the number of samples, how many samples were processed since the last `Reset` (modulo the block size), and how
many blocks were completed before (modulo the partition sizes): not on the samples. The counted program computes what the program computes. -/
theorem C87_exact {F : RealFFT} (hF : Lawful F) {ir : Buf} {maxB N : ℕ} {spec : ConvolverSpec} (h : Usable ir maxB spec N) (g : Garbage) (r0 : ℕ → ℕ → ℝ)
    {B : ℕ} {first : Layout} {rest : List Layout} (hB : internalBlockSize 64 maxB spec.internalBlockSize = some B)
    (hsch : getPartitionScheme kGarciaResults B ir.n = some (first :: rest)) :
    ∃ c, Convolver.create F ir maxB spec g r0 = some c ∧
      ∀ (ops : List Op) (blk : Buf), (∀ b, Op.process b ∈ ops → b.ch = N) → blk.ch = N →
        ∃ used r κ, history (Convolver.process F) Convolver.reset c ops = some used ∧ Convolver.process F used blk = some r ∧
          Convolver.processC F used blk 0 = some (r, κ) ∧
          CallCost B ir.ch (partitionsNeeded B (min (first.np * B) ir.n)) (stagesOf B ir.n (first.np * B) rest) (blocksCompleted B 0 0 ops) (samplesSinceReset 0 ops) blk.n κ := by
  obtain ⟨b, c, rfl, _, hpow, e, hh⟩ := counted_history hF h g r0 hB hsch
  refine ⟨c, e, fun ops blk hops hblk => ?_⟩
  obtain ⟨used, e1, hdef, hs⟩ := hh ops hops
  obtain ⟨r, e2⟩ := hdef blk hblk
  have k := (process_costs (F := F) hs blk).1 0
  rw [e2, zero_add, callPasses_eq (by positivity), nCost_eq hpow, begun_mod] at k
  exact ⟨used, r, _, e1, e2, k, rfl, rfl, rfl, rfl⟩

/-! ## A whole period -/

theorem sum_window (f : ℕ → ℕ) {m : ℕ} (hm : 0 < m) (j : ℕ) : ∑ i ∈ Finset.range m, f ((j + i) % m) = ∑ i ∈ Finset.range m, f i := by
  induction j with
  | zero =>
    refine Finset.sum_congr rfl fun i hi => ?_
    rw [zero_add, Nat.mod_eq_of_lt (Finset.mem_range.mp hi)]
  | succ j ih =>
    have h1 := Finset.sum_range_succ' (fun i => f ((j + i) % m)) m
    have h2 := Finset.sum_range_succ (fun i => f ((j + i) % m)) m
    simp only [add_zero, Nat.add_mod_right] at h1 h2
    rw [h2] at h1
    have h3 := Nat.add_right_cancel h1
    rw [← ih, h3]
    refine Finset.sum_congr rfl fun i _ => ?_
    congr 2; omega

theorem sum_windows (f : ℕ → ℕ) {m : ℕ} (hm : 0 < m) (j q : ℕ) :
    ∑ i ∈ Finset.range (m * q), f ((j + i) % m) = q * ∑ i ∈ Finset.range m, f i := by
  induction q with
  | zero => simp
  | succ q ih =>
    rw [Nat.mul_succ, Finset.sum_range_add, ih, Nat.succ_mul]
    congr 1
    rw [← sum_window f hm (j + m * q)]
    simp only [add_assoc]

theorem sum_cutting {p D : ℕ} (hD : D ≤ p) : ∑ ph ∈ Finset.range (2^p), cutting (2^p) D ph = D * 2^p := by
  unfold cutting
  rw [Finset.sum_comm]
  rw [Finset.sum_congr rfl (g := fun _ => 2^p), Finset.sum_const, Finset.card_range, smul_eq_mul]
  intro d hd
  rw [Finset.mem_range] at hd
  rw [← Finset.sum_filter, Finset.sum_const, smul_eq_mul]
  have e : (Finset.range (2^p)).filter (fun ph => 2^p ≤ ph + 2^p / 2^d) = Finset.Ico (2^p - 2^p / 2^d) (2^p) := by
    ext x
    rw [Finset.mem_filter, Finset.mem_range, Finset.mem_Ico]
    omega
  have : 2^p / 2^d ≤ 2^p := Nat.div_le_self _ _
  rw [e, Nat.card_Ico, Nat.sub_sub_self this]
  exact Nat.div_mul_cancel (pow_dvd_pow 2 (by omega))

theorem sum_joining {p D : ℕ} (hD : D ≤ p) : ∑ ph ∈ Finset.range (2^p), joining (2^p) D ph = D * 2^p := by
  unfold joining
  rw [Finset.sum_comm]
  rw [Finset.sum_congr rfl (g := fun _ => 2^p), Finset.sum_const, Finset.card_range, smul_eq_mul]
  intro d hd
  rw [Finset.mem_range] at hd
  rw [← Finset.sum_filter, Finset.sum_const, smul_eq_mul]
  have : 2^p / 2^d ≤ 2^p := Nat.div_le_self _ _
  have e : (Finset.range (2^p)).filter (fun ph => ph < 2^p / 2^d) = Finset.range (2^p / 2^d) := by
    ext x
    rw [Finset.mem_filter, Finset.mem_range, Finset.mem_range]
    omega
  rw [e, Finset.card_range]
  exact Nat.div_mul_cancel (pow_dvd_pow 2 (by omega))

theorem sum_bits (n : ℕ) : (n.bitIndices.map fun i => 2^i).sum = n := Nat.sum_map_two_pow_bitIndices n

/-- the butterflies of a stage in a window: those of the whole transforms, back and forth, of all channels -/
theorem sum_stageButterflies {b p : ℕ} (hp : 1 ≤ p) (nch : ℕ) :
    ∑ ph ∈ Finset.range (2^p), stageButterflies (2^b) (2^p) nch ph = 2^p * (nch * (2 * 2^b * Nat.log 2 (2 * (2^p * 2^b)))) := by
  have hlog : Nat.log 2 (2 * (2^p * 2^b)) = b + p + 1 := by
    rw [show 2 * (2^p * 2^b) = 2^(b+p+1) by rw [pow_succ, pow_add]; ring, Nat.log_pow (by norm_num)]
  have hg : ∀ k, ∑ ph ∈ Finset.range (2^p), groupButterflies (2^b) (2^p) (2^k) ph = 2^k * (2^p * (2 * 2^b * (b+p+1))) := by
    intro k
    unfold groupButterflies
    rw [splitDepth_pow hp, pieceSize_pow hp, Nat.log_pow (by norm_num), ← Finset.mul_sum, Finset.sum_add_distrib, Finset.sum_add_distrib,
      Finset.sum_const, Finset.card_range, smul_eq_mul, sum_cutting (by omega), sum_joining (by omega)]
    obtain ⟨q, hq⟩ : ∃ q, q = b+p+1-(p-1-k) := ⟨_, rfl⟩
    rw [← hq, show b+p+1 = q + (p-1-k) by omega]
    ring
  unfold stageButterflies
  have hs : ∀ l : List ℕ, ∑ ph ∈ Finset.range (2^p), (l.map fun i => groupButterflies (2^b) (2^p) (2^i) ph).sum =
      (l.map fun i => 2^i).sum * (2^p * (2 * 2^b * (b+p+1))) := by
    intro l
    induction l with
    | nil => simp
    | cons a l ih =>
      simp only [List.map_cons, List.sum_cons]
      rw [Finset.sum_add_distrib, ih, hg, Nat.add_mul]
  rw [hs, sum_bits, hlog]
  ring

theorem finset_list_sum {ι : Type} (s : Finset ℕ) (l : List ι) (f : ι → ℕ → ℕ) :
    ∑ i ∈ s, (l.map fun a => f a i).sum = (l.map fun a => ∑ i ∈ s, f a i).sum := by
  induction l with
  | nil => simp
  | cons a l ih =>
    simp only [List.map_cons, List.sum_cons]
    rw [Finset.sum_add_distrib, ih]

theorem callsC_costs {F : RealFFT} {b irCh nch N K0 : ℕ} {stages : List (ℕ × ℕ)} : ∀ (blks : List Buf) {j col : ℕ} {s s' : Convolver},
    CShape b irCh nch N K0 stages j col s → history (Convolver.process F) Convolver.reset s (blks.map .process) = some s' →
    ∃ u, Costs (Convolver.callsC F s blks) (some s') (nCost (stagesCost b nch stages) nch N K0 (2^b) j col (totalLen blks) u) ∧
      (col = 0 → (∀ blk ∈ blks, 2^b ∣ blk.n) → u = totalLen blks / 2^b ∧ 2^b ∣ totalLen blks)
  | [], j, col, s, s', h, e => by
    cases e
    refine ⟨0, ?_, fun _ _ => ⟨(Nat.zero_div _).symm, dvd_zero _⟩⟩
    show Costs (pure s) (some s) (nCost _ nch N K0 (2^b) j col 0 0)
    rw [nCost_zero _ h.nupc.lt]
    exact Costs.pure s
  | blk :: blks, j, col, s, s', h, e => by
    obtain ⟨r, e1, e⟩ := Option.bind_eq_some_iff.mp e
    obtain ⟨p1, p2⟩ := process_costs (F := F) h blk
    obtain ⟨u, hu, hu2⟩ := callsC_costs blks (p2 r e1) e
    refine ⟨callPasses (2^b) col blk.n + u, ?_, fun hc hd => ?_⟩
    · show Costs (Convolver.processC F s blk >>= fun r => Convolver.callsC F r.1 blks) (some s') (nCost _ nch N K0 (2^b) j col (blk.n + totalLen blks) _)
      rw [nCost_add _ (by positivity)]
      have hb := p1.bind (f := fun r => Convolver.callsC F r.1 blks) (g := fun _ => some s') fun a ha => by
        rw [e1] at ha
        obtain rfl := Option.some.inj ha
        exact hu
      rw [e1] at hb
      exact hb
    · subst hc
      obtain ⟨q, hq⟩ := hd blk (by simp)
      obtain ⟨v1, v2⟩ := hu2 (by rw [hq, zero_add, Nat.mul_mod_right]) fun b' hb' => hd b' (by simp [hb'])
      refine ⟨?_, ?_⟩
      · show callPasses (2^b) 0 blk.n + u = (blk.n + totalLen blks) / 2^b
        rw [v1, hq, Nat.mul_add_div (by positivity)]
        unfold callPasses passesIn
        rw [Nat.mul_mod_right, if_pos rfl, if_pos rfl, Nat.mul_div_cancel_left _ (by positivity), mul_one, add_zero]
      · show 2^b ∣ blk.n + totalLen blks
        rw [hq]
        exact dvd_add (dvd_mul_right _ _) v2

theorem begun_blocks {B T q : ℕ} (hB : 0 < B) (h : T = B * q) : partitionsBegun B 0 T = q := by
  subst h
  induction q with
  | zero => rfl
  | succ q ih =>
    rw [Nat.mul_succ, begun_add, ih, ← begun_mod, zero_add, Nat.mul_mod_right, begun_small hB (by omega), if_pos rfl]

/-- The counters after any sequence of calls whose number of samples is a multiple of every partition size. -/
theorem calls_cost {F : RealFFT} (hF : Lawful F) {ir : Buf} {maxB N : ℕ} {spec : ConvolverSpec} (h : Usable ir maxB spec N) (g : Garbage) (r0 : ℕ → ℕ → ℝ)
    {B : ℕ} {first : Layout} {rest : List Layout} (hB : internalBlockSize 64 maxB spec.internalBlockSize = some B)
    (hsch : getPartitionScheme kGarciaResults B ir.n = some (first :: rest)) :
    ∃ c, Convolver.create F ir maxB spec g r0 = some c ∧
      ∀ (ops : List Op) (blks : List Buf), (∀ b, Op.process b ∈ ops → b.ch = N) → (∀ b ∈ blks, b.ch = N) →
        (∀ l ∈ rest, l.psb * B ∣ totalLen blks) →
        ∃ used used' κ, history (Convolver.process F) Convolver.reset c ops = some used ∧
          history (Convolver.process F) Convolver.reset used (blks.map .process) = some used' ∧
          Convolver.callsC F used blks 0 = some (used', κ) ∧
          κ.butterflies = ((stagesOf B ir.n (first.np * B) rest).map fun st => ir.ch * (2 * totalLen blks * Nat.log 2 (2 * (st.1 * B)))).sum ∧
          κ.products = ((stagesOf B ir.n (first.np * B) rest).map fun st => ir.ch * (2 * totalLen blks * st.2)).sum ∧
          (samplesSinceReset 0 ops % B = 0 → (∀ blk ∈ blks, B ∣ blk.n) → κ.spectra = ir.ch * (2 * totalLen blks *
            (1 + (partitionsNeeded B (min (first.np * B) ir.n) - 1)))) := by
  obtain ⟨b, c, rfl, _, hpow, e, hh⟩ := counted_history hF h g r0 hB hsch
  refine ⟨c, e, fun ops blks hops hblks hdiv => ?_⟩
  obtain ⟨used, e1, _, hs⟩ := hh ops hops
  obtain ⟨used2, e2, _, _⟩ := hh (ops ++ blks.map .process) (fun b' hb' => by
    rcases List.mem_append.mp hb' with hb' | hb'
    · exact hops b' hb'
    · obtain ⟨b'', h1, h2⟩ := List.mem_map.mp hb'
      cases h2
      exact hblks _ h1)
  have e3 : history (Convolver.process F) Convolver.reset used (blks.map .process) = some used2 := by
    have happ : ∀ (ops ops' : List Op) (s s1 : Convolver), history (Convolver.process F) Convolver.reset s ops = some s1 →
        history (Convolver.process F) Convolver.reset s (ops ++ ops') = history (Convolver.process F) Convolver.reset s1 ops' := by
      intro ops
      induction ops with
      | nil => intro ops' s s1 e; cases e; rfl
      | cons o ops ih =>
        intro ops' s s1 e
        cases o with
        | process blk =>
          obtain ⟨r, k1, k2⟩ := Option.bind_eq_some_iff.mp e
          show (Convolver.process F s blk).bind _ = _
          rw [k1]
          exact ih ops' r.1 s1 k2
        | reset => exact ih ops' s.reset s1 e
    rw [← happ ops _ c used e1]; exact e2
  obtain ⟨u, hu, hu2⟩ := callsC_costs blks hs e3
  have k := hu 0
  rw [zero_add, nCost_eq hpow] at k
  have hsp : samplesSinceReset 0 ops % 2^b = 0 → (∀ blk ∈ blks, 2^b ∣ blk.n) →
      ir.ch * (2 * 2^b) * (u + (partitionsNeeded (2^b) (min (first.np * 2^b) ir.n) - 1) * partitionsBegun (2^b) (samplesSinceReset 0 ops % 2^b) (totalLen blks)) =
        ir.ch * (2 * totalLen blks * (1 + (partitionsNeeded (2^b) (min (first.np * 2^b) ir.n) - 1))) := by
    intro h0 hd
    obtain ⟨v1, q, v2⟩ := hu2 h0 hd
    rw [h0, v1, begun_blocks (by positivity) v2, v2, Nat.mul_div_cancel_left _ (by positivity)]
    ring
  refine ⟨used, used2, _, e1, e3, k, ?_, ?_, hsp⟩
  all_goals
    simp only
    obtain ⟨T, hT⟩ : ∃ T, T = totalLen blks := ⟨_, rfl⟩
    obtain ⟨j, hj⟩ : ∃ j, j = blocksCompleted (2^b) 0 0 ops := ⟨_, rfl⟩
    rw [← hT] at hdiv ⊢
    first | rw [← hj] | skip
    have hmem : ∀ (rest : List Layout) (off : ℕ), ∀ st ∈ stagesOf (2^b) ir.n off rest, ∃ l ∈ rest, st.1 = l.psb := by
      intro rest
      induction rest with
      | nil => intro off st hst; cases hst
      | cons l rest ih =>
        intro off st hst
        unfold stagesOf at hst
        rcases List.mem_cons.mp hst with rfl | hst
        · exact ⟨l, by simp, rfl⟩
        · obtain ⟨l', h1, h2⟩ := ih _ st hst
          exact ⟨l', by simp [h1], h2⟩
    have hdiv' : ∀ st ∈ stagesOf (2^b) ir.n (first.np * 2^b) rest, st.1 * 2^b ∣ T := by
      intro st hst
      obtain ⟨l, h1, h2⟩ := hmem _ _ st hst
      rw [h2]; exact hdiv l h1
    have hblk : ∀ st ∈ stagesOf (2^b) ir.n (first.np * 2^b) rest, (samplesSinceReset 0 ops % 2^b + T) / 2^b = T / 2^b ∧ st.1 ∣ T / 2^b ∧ 2^b ∣ T := by
      intro st hst
      have hd := hdiv' st hst
      have hd2 : 2^b ∣ T := dvd_trans (dvd_mul_left _ _) hd
      obtain ⟨q, rfl⟩ := hd2
      refine ⟨?_, ?_, dvd_mul_right _ _⟩
      · rw [Nat.add_mul_div_left _ _ (by positivity), Nat.div_eq_of_lt (Nat.mod_lt _ (by positivity)), zero_add, Nat.mul_div_cancel_left _ (by positivity)]
      · rw [Nat.mul_div_cancel_left _ (by positivity)]
        rw [mul_comm (2^b) q] at hd
        exact Nat.dvd_of_mul_dvd_mul_right (by positivity) hd
  · rw [finset_list_sum]
    congr 1
    refine List.map_congr_left fun st hst => ?_
    obtain ⟨h1, ⟨q, h2⟩, h3⟩ := hblk st hst
    obtain ⟨p, hp, hpe⟩ := hpow st hst
    rw [h1, h2, hpe, sum_windows (fun ph => stageButterflies (2^b) (2^p) ir.ch ph) (by positivity), sum_stageButterflies hp]
    have hT' : T = 2^p * q * 2^b := by rw [← hpe, ← h2, Nat.div_mul_cancel h3]
    rw [hT']
    ring
  · rw [← List.sum_map_mul_left]
    congr 1
    refine List.map_congr_left fun st hst => ?_
    obtain ⟨h1, _, h3⟩ := hblk st hst
    unfold stageProducts
    rw [h1]
    obtain ⟨q, rfl⟩ := h3
    rw [Nat.mul_div_cancel_left _ (by positivity)]
    ring

/-- **C87.** Over any sequence of calls (whatever happened before), of whatever sizes, whose number of samples `T` is a multiple of every partition size, the convolver
executes for each stage with partitions of `P` samples the butterflies of one transform of `2 P` points forth and one back for every `P` samples of each channel
(`log2 (2 P)` for a sample and direction), and `2 K` products of spectra for each sample of a channel: cutting the transforms into pieces and spreading them over blocks
neither adds nor saves any. -/
theorem C87_period {F : RealFFT} (hF : Lawful F) {ir : Buf} {maxB N : ℕ} {spec : ConvolverSpec} (h : Usable ir maxB spec N) (g : Garbage) (r0 : ℕ → ℕ → ℝ)
    {B : ℕ} {first : Layout} {rest : List Layout} (hB : internalBlockSize 64 maxB spec.internalBlockSize = some B)
    (hsch : getPartitionScheme kGarciaResults B ir.n = some (first :: rest)) :
    ∃ c, Convolver.create F ir maxB spec g r0 = some c ∧
      ∀ (ops : List Op) (blks : List Buf), (∀ b, Op.process b ∈ ops → b.ch = N) → (∀ b ∈ blks, b.ch = N) →
        (∀ l ∈ rest, l.psb * B ∣ totalLen blks) →
        ∃ used used' κ, history (Convolver.process F) Convolver.reset c ops = some used ∧
          history (Convolver.process F) Convolver.reset used (blks.map .process) = some used' ∧
          Convolver.callsC F used blks 0 = some (used', κ) ∧
          κ.butterflies = ((stagesOf B ir.n (first.np * B) rest).map fun st => ir.ch * (2 * totalLen blks * Nat.log 2 (2 * (st.1 * B)))).sum ∧
          κ.products = ((stagesOf B ir.n (first.np * B) rest).map fun st => ir.ch * (2 * totalLen blks * st.2)).sum := by
  obtain ⟨c, e, hh⟩ := calls_cost hF h g r0 hB hsch
  refine ⟨c, e, fun ops blks hops hblks hdiv => ?_⟩
  obtain ⟨used, used2, κ, e1, e3, k, k1, k2, _⟩ := hh ops blks hops hblks hdiv
  exact ⟨used, used2, κ, e1, e3, k, k1, k2⟩

/-! ## The worst block -/

theorem geom2 (n : ℕ) : ∑ d ∈ Finset.range n, 2^d = 2^n - 1 := by
  have := Nat.geomSum_eq (le_refl 2) n
  simpa using this

theorem joining_le (m D ph : ℕ) : joining m D ph ≤ 2^D - 1 := by
  rw [← geom2]
  exact Finset.sum_le_sum fun d _ => by split <;> simp

theorem cutting_le (m D ph : ℕ) : cutting m D ph ≤ 2^D - 1 := by
  rw [← geom2]
  exact Finset.sum_le_sum fun d _ => by split <;> simp

theorem joining_late {m D ph : ℕ} (hD : 1 ≤ D) (h : ph < m) (hh : m / 2 ≤ ph) : joining m D ph = 1 := by
  unfold joining
  obtain ⟨D, rfl⟩ : ∃ D', D = D' + 1 := ⟨D - 1, by omega⟩
  rw [Finset.sum_range_succ', pow_zero, Nat.div_one, if_pos h, Finset.sum_eq_zero, zero_add]
  intro d _
  rw [if_neg]
  rw [pow_succ, mul_comm, ← Nat.div_div_eq_div_mul]
  have := Nat.div_le_self (m / 2) (2^d)
  omega

theorem cutting_early {m D ph : ℕ} (hD : 1 ≤ D) (hh : ph + m / 2 < m) : cutting m D ph = 1 := by
  unfold cutting
  obtain ⟨D, rfl⟩ : ∃ D', D = D' + 1 := ⟨D - 1, by omega⟩
  rw [Finset.sum_range_succ', pow_zero, Nat.div_one, if_pos (by omega), Finset.sum_eq_zero, zero_add]
  intro d _
  rw [if_neg]
  rw [pow_succ, mul_comm, ← Nat.div_div_eq_div_mul]
  have := Nat.div_le_self (m / 2) (2^d)
  omega

/-- cutting and joining in a block, at most -/
theorem spread_le {m D ph : ℕ} (h : ph < m) : cutting m D ph + joining m D ph ≤ 2^D := by
  have hpos : 0 < 2^D := by positivity
  rcases Nat.eq_zero_or_pos D with rfl | hD
  · simp [cutting, joining]
  by_cases hh : m / 2 ≤ ph
  · rw [joining_late hD h hh]
    have := cutting_le m D ph
    omega
  · rw [cutting_early hD (by omega)]
    have := joining_le m D ph
    omega

theorem spread_first {p D : ℕ} (hD : 1 ≤ D) (hDp : D ≤ p) : cutting (2^p) D 0 + joining (2^p) D 0 = 2^D := by
  have hj : joining (2^p) D 0 = 2^D - 1 := by
    rw [← geom2]
    refine Finset.sum_congr rfl fun d hd => if_pos ?_
    exact Nat.div_pos (Nat.pow_le_pow_right (by norm_num) (by have := Finset.mem_range.mp hd; omega)) (by positivity)
  have hm : 2 ≤ 2^p := by
    calc 2 = 2^1 := by norm_num
      _ ≤ 2^p := Nat.pow_le_pow_right (by norm_num) (by omega)
  rw [cutting_early hD (by omega), hj]
  have : 0 < 2^D := by positivity
  omega

theorem stage_le_peak {B m nch ph : ℕ} (h : ph < m) : stageButterflies B m nch ph ≤ stagePeak B m nch := by
  unfold stageButterflies stagePeak groupButterflies
  refine List.sum_le_sum fun i _ => Nat.mul_le_mul_left _ ?_
  rw [add_assoc]
  refine Nat.add_le_add_left ?_ _
  split
  · next hz => rw [hz]; simp [cutting, joining]
  · exact spread_le h

theorem stage_at_peak {b p nch : ℕ} (hp : 1 ≤ p) : stageButterflies (2^b) (2^p) nch 0 = stagePeak (2^b) (2^p) nch := by
  unfold stageButterflies stagePeak groupButterflies
  congr 1
  refine List.map_congr_left fun i _ => ?_
  rw [add_assoc]
  congr 2
  split
  · next hz => rw [hz]; simp [cutting, joining]
  · next hz => exact spread_first (by omega) (by rw [splitDepth_pow hp]; omega)

/-- **C87.** The most butterflies in a call: no block takes more than the sum of the stages' peaks, and every block whose number is a multiple of all partition sizes takes
exactly that many, the first one after construction in particular: all stages have their worst block at the same time. -/
theorem C87_worst_block {F : RealFFT} (hF : Lawful F) {ir : Buf} {maxB N : ℕ} {spec : ConvolverSpec} (h : Usable ir maxB spec N) (g : Garbage) (r0 : ℕ → ℕ → ℝ)
    {B : ℕ} {first : Layout} {rest : List Layout} (hB : internalBlockSize 64 maxB spec.internalBlockSize = some B)
    (hsch : getPartitionScheme kGarciaResults B ir.n = some (first :: rest)) :
    ∃ c, Convolver.create F ir maxB spec g r0 = some c ∧
      ∀ (ops : List Op) (blk : Buf), (∀ b, Op.process b ∈ ops → b.ch = N) → blk.ch = N →
        ∃ used r κ, history (Convolver.process F) Convolver.reset c ops = some used ∧ Convolver.process F used blk = some r ∧
          Convolver.processC F used blk 0 = some (r, κ) ∧
          κ.butterflies ≤ (samplesSinceReset 0 ops % B + blk.n) / B * (rest.map fun l => stagePeak B l.psb ir.ch).sum ∧
          ((samplesSinceReset 0 ops % B + blk.n) / B = 1 → (∀ l ∈ rest, l.psb ∣ blocksCompleted B 0 0 ops) →
            κ.butterflies = (rest.map fun l => stagePeak B l.psb ir.ch).sum) := by
  obtain ⟨c, e, hh⟩ := C87_exact hF h g r0 hB hsch
  refine ⟨c, e, fun ops blk hops hblk => ?_⟩
  obtain ⟨b, _, rfl, _, hpow, _⟩ := counted_history hF h g r0 hB hsch
  obtain ⟨used, r, κ, e1, e2, e3, k⟩ := hh ops blk hops hblk
  have hmap : ∀ (rest : List Layout) (off : ℕ) (f : ℕ → ℕ), (stagesOf (2^b) ir.n off rest).map (fun st => f st.1) = rest.map fun l => f l.psb := by
    intro rest
    induction rest with
    | nil => intro off f; rfl
    | cons l rest ih => intro off f; unfold stagesOf; rw [List.map_cons, List.map_cons, ih]
  have hpow' : ∀ l ∈ rest, ∃ p, 1 ≤ p ∧ l.psb = 2^p := by
    intro l hl
    have : l.psb ∈ (stagesOf (2^b) ir.n (first.np * 2^b) rest).map fun st => st.1 := by
      rw [hmap rest _ fun m => m]; exact List.mem_map_of_mem (f := fun l : Layout => l.psb) hl
    obtain ⟨st, h1, h2⟩ := List.mem_map.mp this
    rw [← h2]; exact hpow st h1
  refine ⟨used, r, κ, e1, e2, e3, ?_, fun h1 hz => ?_⟩
  · rw [k.butterflies]
    refine (Finset.sum_le_card_nsmul _ _ (rest.map fun l => stagePeak (2^b) l.psb ir.ch).sum fun i _ => ?_).trans (le_of_eq (by rw [Finset.card_range, smul_eq_mul]))
    rw [hmap rest _ fun m => stageButterflies (2^b) m ir.ch ((blocksCompleted (2^b) 0 0 ops + i) % m)]
    refine List.sum_le_sum fun l hl => stage_le_peak (Nat.mod_lt _ ?_)
    obtain ⟨p, _, hp⟩ := hpow' l hl
    rw [hp]; positivity
  · rw [k.butterflies, h1, Finset.sum_range_one, hmap rest _ fun m => stageButterflies (2^b) m ir.ch ((blocksCompleted (2^b) 0 0 ops + 0) % m)]
    congr 1
    refine List.map_congr_left fun l hl => ?_
    obtain ⟨p, hp1, hp⟩ := hpow' l hl
    rw [add_zero, Nat.mod_eq_zero_of_dvd (hz l hl), hp]
    exact stage_at_peak hp1

end Zones.Props
