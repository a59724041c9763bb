import Verif.Props.Cost
import Verif.Props.Garcia
import Verif.Props.Partition

/-!
# C88: the cost model of the generator, and what `Process` executes
-/

open Zones.Spec Zones.Model Zones.Proofs

namespace Zones.Props

/-- The list of partition sizes of a layout, in blocks. -/
abbrev partitionsOf (layout : List Layout) : List ℕ := layout.flatMap fun l => List.replicate l.np l.psb

theorem cost_replicate (B n a : ℕ) (xs : List ℕ) : partitioningCost B (List.replicate n a ++ a :: xs) = 4 * n + partitioningCost B (a :: xs) := by
  induction n with
  | zero => simp
  | succ n ih =>
    have e : ∃ ys, List.replicate n a ++ a :: xs = a :: ys := by
      cases n with
      | zero => exact ⟨_, rfl⟩
      | succ n => exact ⟨_, by rw [List.replicate_succ, List.cons_append]⟩
    obtain ⟨ys, e⟩ := e
    rw [List.replicate_succ, List.cons_append, e, partitioningCost, if_pos rfl, ← e, ih]
    push_cast; ring

theorem cost_layouts (B : ℕ) : ∀ (rest : List Layout) (a : ℕ), (a :: rest.map Layout.psb).Pairwise (· < ·) → (∀ l ∈ rest, 0 < l.np) →
    partitioningCost B (a :: partitionsOf rest) = (rest.map fun l => 4 * (l.np : ℝ) + 4 * (17 / 10) * Real.logb 2 (2 * B * l.psb)).sum
  | [], a, _, _ => by simp [partitioningCost]
  | l :: rest, a, hp, hn => by
    obtain ⟨k, hk⟩ : ∃ k, l.np = k + 1 := ⟨l.np - 1, by have := hn l (by simp); omega⟩
    rw [List.map_cons, List.pairwise_cons] at hp
    have hlt : a < l.psb := hp.1 l.psb (by simp)
    have e : partitionsOf (l :: rest) = List.replicate k l.psb ++ l.psb :: partitionsOf rest := by
      unfold partitionsOf
      rw [List.flatMap_cons, hk, List.replicate_succ', List.append_assoc]; rfl
    have e2 : ∃ ys, List.replicate k l.psb ++ l.psb :: partitionsOf rest = l.psb :: ys := by
      cases k with
      | zero => exact ⟨_, rfl⟩
      | succ k => exact ⟨_, by rw [List.replicate_succ, List.cons_append]⟩
    obtain ⟨ys, e2⟩ := e2
    rw [e, e2, partitioningCost, if_neg (by omega), ← e2, cost_replicate, cost_layouts B rest l.psb hp.2 fun l' h => hn l' (by simp [h]),
      List.map_cons, List.sum_cons, hk]
    push_cast; ring

/-- what is needed of a row of the tables -/
def rowFacts (B : ℕ) (s : Scheme) : Bool :=
  match s.layout with
  | [] => false
  | f :: rest => f.psb == 1 && decide (0 < f.np) && rest.all (fun l => decide (0 < l.np)) && decide ((1 :: rest.map Layout.psb).Pairwise (· < ·)) &&
      s.ir == f.np * B + (rest.map fun l => l.psb * l.np * B).sum

theorem tables_facts : (kGarciaResults.all fun e => (kGarciaResults.lookup e.1 == some e.2) && decide ((e.2.map Scheme.ir).Nodup) &&
    decide (0 < e.1) && e.2.all (rowFacts e.1)) = true := by decide +kernel

theorem row_scheme {B : ℕ} {rows : List Scheme} {row : Scheme} (h1 : (B, rows) ∈ kGarciaResults) (h2 : row ∈ rows) :
    0 < B ∧ ∃ n0 rest, row.layout = ⟨1, n0⟩ :: rest ∧ 0 < n0 ∧ (∀ l ∈ rest, 0 < l.np) ∧ (1 :: rest.map Layout.psb).Pairwise (· < ·) ∧
      row.ir = n0 * B + (rest.map fun l => l.psb * l.np * B).sum ∧
      getPartitionScheme kGarciaResults B row.ir = some (⟨1, n0 + 1⟩ :: rest) := by
  have h := List.all_eq_true.mp tables_facts _ h1
  simp only [Bool.and_eq_true, beq_iff_eq, decide_eq_true_eq] at h
  obtain ⟨⟨⟨hl, hnd⟩, hB⟩, hr⟩ := h
  have hr := List.all_eq_true.mp hr _ h2
  refine ⟨hB, ?_⟩
  unfold rowFacts at hr
  cases hlay : row.layout with
  | nil => rw [hlay] at hr; cases hr
  | cons f rest =>
    rw [hlay] at hr
    simp only [Bool.and_eq_true, beq_iff_eq, decide_eq_true_eq, List.all_eq_true] at hr
    obtain ⟨⟨⟨⟨f1, f2⟩, f3⟩, f4⟩, f5⟩ := hr
    obtain ⟨fp, fn⟩ := f
    simp only at f1 f2 f5
    subst f1
    refine ⟨fn, rest, rfl, f2, f3, f4, f5, ?_⟩
    unfold getPartitionScheme
    rw [hl]
    obtain ⟨s, e1, hs, hd, _⟩ := C20_nearest_scheme (List.ne_nil_of_mem h2) row.ir
    have hz := hd row h2
    have hsir : s.ir = row.ir := by
      simp only [dist] at hz
      omega
    have hsr : s = row := List.inj_on_of_nodup_map hnd hs h2 hsir
    subst hsr
    simp only [e1, Option.bind_eq_bind, Option.bind_some, lt_irrefl, if_false, Nat.sub_self]
    have hred : reduceRev s.layout.reverse 0 B = some s.layout.reverse := by
      rw [hlay]
      obtain ⟨pre, last, hpl⟩ := (List.eq_nil_or_concat (⟨1, fn⟩ :: rest : List Layout)).resolve_left (by simp)
      have hlast : 0 < last.psb ∧ 0 < last.np := by
        have hm : last ∈ (⟨1, fn⟩ :: rest : List Layout) := by rw [hpl, List.concat_eq_append]; simp
        rcases List.mem_cons.mp hm with rfl | hm
        · exact ⟨by norm_num, f2⟩
        · refine ⟨?_, f3 _ hm⟩
          have := (List.pairwise_cons.mp f4).1 last.psb (List.mem_map_of_mem hm)
          omega
      rw [hpl, List.concat_eq_append, List.reverse_append, List.reverse_singleton, List.singleton_append]
      unfold reduceRev
      have hz : fdiv ((0 : ℕ) : ℤ) ((B * last.psb : ℕ) : ℤ) = 0 := by simp [fdiv, f32]
      rw [if_pos (by unfold Layout.samples; exact Nat.mul_pos (Nat.mul_pos hlast.1 hlast.2) hB)]
      simp only [hz]
      simp
    rw [hred]
    simp only [Option.map_some, List.reverse_reverse, Option.bind_some, hlay, bumpFront]

theorem stages_of_row {B L : ℕ} (hB : 0 < B) : ∀ {rest : List Layout} {off : ℕ}, GoodRest B L off rest →
    L + B = off + (rest.map fun l => l.psb * l.np * B).sum → stagesOf B L off rest = rest.map fun l => (l.psb, l.np)
  | [], _, _, _ => rfl
  | l :: rest, off, ⟨⟨p, hp, hl⟩, h2, h3, h4, h5, h6, h7⟩, hsum => by
    unfold stagesOf
    rw [List.map_cons, List.sum_cons] at hsum
    have hP : 2 * B ≤ l.psb * B := Nat.mul_le_mul_right _ (by
      rw [hl]
      calc 2 = 2^1 := by norm_num
        _ ≤ 2^p := Nat.pow_le_pow_right (by norm_num) hp)
    have hs : l.psb * l.np * B = l.np * (l.psb * B) := by ring
    obtain ⟨k, hk⟩ : ∃ k, l.np = k + 1 := ⟨l.np - 1, by omega⟩
    have hb : l.psb * B ≤ l.np * (l.psb * B) := Nat.le_mul_of_pos_left _ h2
    have hsam : l.samples B = l.psb * l.np * B := rfl
    rw [hsam] at h7
    rw [List.map_cons, stages_of_row hB h7 (by omega)]
    congr 2
    unfold partitionsNeeded
    cases rest with
    | nil =>
      have hm : min (l.psb * l.np * B) (L - off) = l.np * (l.psb * B) - B := by
        rw [List.map_nil, List.sum_nil] at hsum
        rw [hs] at hsum ⊢; omega
      rw [hm]
      have : l.np * (l.psb * B) - B + l.psb * B - 1 = (l.psb * B - B - 1) + l.np * (l.psb * B) := by omega
      rw [this, Nat.add_mul_div_right _ _ (by omega), Nat.div_eq_of_lt (by omega), zero_add]
    | cons l' rest =>
      obtain ⟨_, _, _, _, h5', _, _⟩ := h7
      have hm : min (l.psb * l.np * B) (L - off) = l.np * (l.psb * B) := by rw [hs] at h5' ⊢; omega
      rw [hm]
      have : l.np * (l.psb * B) + l.psb * B - 1 = (l.psb * B - 1) + l.np * (l.psb * B) := by omega
      rw [this, Nat.add_mul_div_right _ _ (by omega), Nat.div_eq_of_lt (by omega), zero_add]

/-- What the generator's objective charges for: two for each product of two spectral values, 3.4 for each butterfly. -/
noncomputable def charged (κ : Cost) : ℝ := 2 * ((κ.products : ℝ) + κ.spectra) + 17 / 5 * κ.butterflies

/-- **C88.** For an impulse response of a length that is in the tables, the operations `Process` executes are what the table generator minimises: over calls with whole blocks
of samples whose number `T` is a multiple of all partition sizes, the charged operations are `T` times the number of channels times the generator's cost of the
row, plus 4 for the first partition (which the generator does not count), plus another 4 for the extra block in front if there is more than one size. -/
theorem C88_generator_minimises_executed_operations {F : RealFFT} (hF : Lawful F) {ir : Buf} {maxB N : ℕ} {spec : ConvolverSpec} (h : Usable ir maxB spec N) (g : Garbage)
    (r0 : ℕ → ℕ → ℝ) {B : ℕ} {rows : List Scheme} {row : Scheme} (hB : internalBlockSize 64 maxB spec.internalBlockSize = some B)
    (h1 : (B, rows) ∈ kGarciaResults) (h2 : row ∈ rows) (hir : ir.n = row.ir) :
    ∃ c, Convolver.create F ir maxB spec g r0 = some c ∧
      ∀ (ops : List Op) (blks : List Buf), (∀ b, Op.process b ∈ ops → b.ch = N) → (∀ b ∈ blks, b.ch = N ∧ B ∣ b.n) →
        samplesSinceReset 0 ops % B = 0 → (∀ l ∈ row.layout, l.psb * B ∣ totalLen blks) →
        ∃ used used' κ, history (Convolver.process F) Convolver.reset c ops = some used ∧
          history (Convolver.process F) Convolver.reset used (blks.map .process) = some used' ∧
          Convolver.callsC F used blks 0 = some (used', κ) ∧
          charged κ = ir.ch * totalLen blks * (partitioningCost B (partitionsOf row.layout) + if row.layout.length = 1 then 4 else 8) := by
  obtain ⟨hB0, n0, rest, hlay, hn0, hnp, hpw, hcov, hsch⟩ := row_scheme h1 h2
  rw [← hir] at hsch
  obtain ⟨b, hb1, hb2, e1, _, _⟩ := internalBlockSize_eq (fuel := 64) (by omega) (requested_le h.blockSize)
  rw [hB] at e1
  obtain rfl := Option.some.inj e1
  have hB' : 2^b ≤ 2^24 := Nat.pow_le_pow_right (by norm_num) (by omega)
  obtain ⟨sch, e2, m0, rest', rfl, _, hg, _⟩ := getPartitionScheme_good (B := 2^b) (by positivity) hB' h.nonempty h.size
  rw [hsch] at e2
  have e2 := Option.some.inj e2
  simp only [List.cons.injEq, Layout.mk.injEq, true_and] at e2
  obtain ⟨rfl, rfl⟩ := e2
  obtain ⟨c, e, hh⟩ := calls_cost hF h g r0 hB hsch
  refine ⟨c, e, fun ops blks hops hblks h0 hdiv => ?_⟩
  obtain ⟨used, used', κ, k1, k2, k3, k4, k5, k6⟩ := hh ops blks hops (fun b' hb' => (hblks b' hb').1) fun l hl => hdiv l (by rw [hlay]; simp [hl])
  refine ⟨used, used', κ, k1, k2, k3, ?_⟩
  have k6 := k6 h0 fun b' hb' => (hblks b' hb').2
  have hst : stagesOf (2^b) ir.n ((n0 + 1) * 2^b) rest = rest.map fun l => (l.psb, l.np) := stages_of_row hB0 hg (by rw [hir, hcov]; ring)
  simp only [hst, List.map_map, Function.comp_def] at k4 k5
  simp only at k6
  have hK : 1 + (partitionsNeeded (2^b) (min ((n0 + 1) * 2^b) ir.n) - 1) = n0 + if rest = [] then 0 else 1 := by
    by_cases hr : rest = []
    · subst hr
      rw [hir, hcov]
      simp only [List.map_nil, List.sum_nil, add_zero, if_true]
      unfold partitionsNeeded
      rw [min_eq_right (Nat.mul_le_mul_right _ (by omega)), show n0 * 2^b + 2^b - 1 = (2^b - 1) + n0 * 2^b by omega, Nat.add_mul_div_right _ _ hB0,
        Nat.div_eq_of_lt (by omega)]
      omega
    · rw [if_neg hr]
      have hle : (n0 + 1) * 2^b ≤ ir.n := by
        cases rest with
        | nil => exact absurd rfl hr
        | cons l rest => obtain ⟨_, _, _, _, h5, _⟩ := hg; exact h5.le
      unfold partitionsNeeded
      rw [min_eq_left hle, show (n0 + 1) * 2^b + 2^b - 1 = (2^b - 1) + (n0 + 1) * 2^b by omega, Nat.add_mul_div_right _ _ hB0, Nat.div_eq_of_lt (by omega)]
      omega
  rw [hK] at k6
  have hcost : partitioningCost (2^b) (partitionsOf row.layout) = 4 * ((n0 : ℝ) - 1) + (rest.map fun l => 4 * (l.np : ℝ) + 4 * (17 / 10) * Real.logb 2 (2 * ((2^b : ℕ) : ℝ) * l.psb)).sum := by
    obtain ⟨k, rfl⟩ : ∃ k, n0 = k + 1 := ⟨n0 - 1, by omega⟩
    have : partitionsOf row.layout = List.replicate k 1 ++ 1 :: partitionsOf rest := by
      rw [hlay]
      unfold partitionsOf
      rw [List.flatMap_cons, List.replicate_succ', List.append_assoc]; rfl
    rw [this, cost_replicate, cost_layouts _ _ _ hpw hnp]
    push_cast; ring
  have hlog : ∀ l ∈ rest, Real.logb 2 (2 * ((2^b : ℕ) : ℝ) * l.psb) = (Nat.log 2 (2 * (l.psb * 2^b)) : ℝ) := by
    intro l hl
    have : ∀ (rest : List Layout) (off : ℕ), GoodRest (2^b) ir.n off rest → l ∈ rest → ∃ p, l.psb = 2^p := by
      intro rest
      induction rest with
      | nil => intro off _ hl; cases hl
      | cons a rest ih =>
        rintro off ⟨⟨p, _, hp⟩, _, _, _, _, _, h7⟩ hl
        rcases List.mem_cons.mp hl with rfl | hl
        · exact ⟨p, hp⟩
        · exact ih _ h7 hl
    obtain ⟨p, hp⟩ := this rest _ hg hl
    rw [hp, show 2 * (2^p * 2^b) = 2^(b+p+1) by rw [pow_succ, pow_add]; ring, Nat.log_pow (by norm_num)]
    rw [show (2 * ((2^b : ℕ) : ℝ) * ((2^p : ℕ) : ℝ)) = (2:ℝ)^(b+p+1) by push_cast; rw [pow_succ, pow_add]; ring]
    rw [Real.logb_pow, Real.logb_self_eq_one (by norm_num), mul_one]
  have hsum : ∀ l0 : List Layout, (∀ l ∈ l0, l ∈ rest) → (ir.ch : ℝ) * totalLen blks * (l0.map fun l => 4 * (l.np : ℝ) + 4 * (17 / 10) * Real.logb 2 (2 * ((2^b : ℕ) : ℝ) * l.psb)).sum =
      2 * (((l0.map fun l => ir.ch * (2 * totalLen blks * l.np)).sum : ℕ) : ℝ) +
      17 / 5 * (((l0.map fun l => ir.ch * (2 * totalLen blks * Nat.log 2 (2 * (l.psb * 2^b)))).sum : ℕ) : ℝ) := by
    intro l0
    induction l0 with
    | nil => intro _; simp
    | cons l l0 ih =>
      intro hm
      rw [List.map_cons, List.map_cons, List.map_cons, List.sum_cons, List.sum_cons, List.sum_cons, mul_add, ih fun l' h' => hm l' (by simp [h']),
        hlog l (hm l (by simp))]
      push_cast; ring
  unfold charged
  rw [k4, k5, k6, hcost, hlay]
  have := hsum rest fun _ h => h
  by_cases hr : rest = []
  · subst hr
    simp only [List.map_nil, List.sum_nil, if_true, List.length_singleton]
    push_cast; ring
  · rw [if_neg hr, if_neg (by
      have := List.length_pos_of_ne_nil hr
      rw [List.length_cons]; omega)]
    have e : (ir.ch : ℝ) * totalLen blks * (4 * ((n0 : ℝ) - 1) + (rest.map fun l => 4 * (l.np : ℝ) + 4 * (17 / 10) * Real.logb 2 (2 * ((2^b : ℕ) : ℝ) * l.psb)).sum + 8) =
        (ir.ch : ℝ) * totalLen blks * (4 * ((n0 : ℝ) - 1) + 8) + (ir.ch : ℝ) * totalLen blks *
          (rest.map fun l => 4 * (l.np : ℝ) + 4 * (17 / 10) * Real.logb 2 (2 * ((2^b : ℕ) : ℝ) * l.psb)).sum := by ring
    rw [e, this]
    push_cast; ring

/-- **C88** (with C60). No viable partitioning of an impulse response of that length has a cost by which fewer than the executed operations (but for 8 for each sample and channel)
would be charged. -/
theorem C88_near_optimal {F : RealFFT} (hF : Lawful F) {ir : Buf} {maxB N : ℕ} {spec : ConvolverSpec} (h : Usable ir maxB spec N) (g : Garbage)
    (r0 : ℕ → ℕ → ℝ) {B : ℕ} {rows : List Scheme} {row : Scheme} (hB : internalBlockSize 64 maxB spec.internalBlockSize = some B)
    (h1 : (B, rows) ∈ kGarciaResults) (h2 : row ∈ rows) (hir : ir.n = row.ir) :
    ∃ c, Convolver.create F ir maxB spec g r0 = some c ∧
      ∀ (ops : List Op) (blks : List Buf), (∀ b, Op.process b ∈ ops → b.ch = N) → (∀ b ∈ blks, b.ch = N ∧ B ∣ b.n) →
        samplesSinceReset 0 ops % B = 0 → (∀ l ∈ row.layout, l.psb * B ∣ totalLen blks) →
        ∃ used used' κ, history (Convolver.process F) Convolver.reset c ops = some used ∧
          history (Convolver.process F) Convolver.reset used (blks.map .process) = some used' ∧
          Convolver.callsC F used blks 0 = some (used', κ) ∧
          ∀ bs, Viable bs → CoversBlocks (ir.n / B) bs → charged κ ≤ ir.ch * totalLen blks * (partitioningCost B bs + 8) := by
  obtain ⟨c, e, hh⟩ := C88_generator_minimises_executed_operations hF h g r0 hB h1 h2 hir
  refine ⟨c, e, fun ops blks a1 a2 a3 a4 => ?_⟩
  obtain ⟨used, used', κ, k1, k2, k3, k4⟩ := hh ops blks a1 a2 a3 a4
  refine ⟨used, used', κ, k1, k2, k3, fun bs v1 v2 => ?_⟩
  rw [hir] at v2
  have := (C60_compiled_tables_are_optimal h1 h2).2.2 bs v1 v2
  rw [k4]
  refine mul_le_mul_of_nonneg_left ?_ (by positivity)
  split <;> linarith

/-! ## A concrete case

Three channels, 2048 samples in blocks of 64: eight (made nine) partitions of one block and six of four blocks. -/

/-- An impulse response of a length in the tables. -/
def tabledIR : Buf := ⟨3, 2048, fun c i => (c : ℝ) + i⟩

/-- Routing for it. -/
def tabledSpec : ConvolverSpec := { inputRouting := [0, 1, 0], outputRouting := [1, 0, 0] }

theorem tabledUsable : Usable tabledIR 64 tabledSpec 2 where
  nonempty := by norm_num [tabledIR]
  size := by norm_num [tabledIR]
  inputs := by
    intro c hc
    have : c < 3 := hc
    rcases (by omega : c = 0 ∨ c = 1 ∨ c = 2) with rfl | rfl | rfl <;> simp [tabledSpec]
  outputs := by
    intro c hc
    have : c < 3 := hc
    rcases (by omega : c = 0 ∨ c = 1 ∨ c = 2) with rfl | rfl | rfl <;> simp [tabledSpec]
  blockSize := by left; norm_num

theorem tabled_mem : (64, garcia64) ∈ kGarciaResults ∧ (⟨2048, [⟨1, 8⟩, ⟨4, 6⟩]⟩ : Scheme) ∈ garcia64 := by decide +kernel

theorem tabledScheme : getPartitionScheme kGarciaResults 64 tabledIR.n = some [⟨1, 9⟩, ⟨4, 6⟩] := by
  obtain ⟨_, n0, rest, e, _, _, _, _, k⟩ := row_scheme tabled_mem.1 tabled_mem.2
  simp only [List.cons.injEq, Layout.mk.injEq, true_and] at e
  obtain ⟨rfl, rfl⟩ := e
  exact k

/-- 100 samples after 17: one block is completed, in three passes. -/
example (g : Garbage) : ∃ c, Convolver.create referenceFFT tabledIR 64 tabledSpec g (fun _ _ => 7) = some c ∧
    ∃ used r, history (Convolver.process referenceFFT) Convolver.reset c [.process ⟨2, 999, fun _ _ => 1⟩, .reset, .process ⟨2, 17, fun _ _ => 1⟩] = some used ∧
      Convolver.process referenceFFT used ⟨2, 100, fun _ i => i⟩ = some r ∧
      Convolver.processC referenceFFT used ⟨2, 100, fun _ i => i⟩ 0 = some (r, ⟨3456, 2304, 18, 4224⟩) := by
  obtain ⟨c, e, hh⟩ := C87_exact referenceFFT_lawful tabledUsable g (fun _ _ => 7) (B := 64) (by decide) tabledScheme
  obtain ⟨used, r, κ, e1, e2, e3, k1, k2, k3, k4⟩ := hh [.process ⟨2, 999, fun _ _ => 1⟩, .reset, .process ⟨2, 17, fun _ _ => 1⟩] ⟨2, 100, fun _ i => i⟩ (by
    intro b hb
    simp only [List.mem_cons, Op.process.injEq, List.not_mem_nil, or_false, reduceCtorEq, false_or] at hb
    rcases hb with rfl | rfl <;> rfl) rfl
  refine ⟨c, e, used, r, e1, e2, ?_⟩
  rw [e3]
  have q1 : κ.butterflies = 3456 := by
    rw [k1]
    show ∑ i ∈ Finset.range 1, (([(4, 6)] : List (ℕ × ℕ)).map fun st => stageButterflies 64 st.1 3 ((15 + i) % st.1)).sum = 3456
    decide +kernel
  have q2 : κ.products = 2304 := by rw [k2]; rfl
  have q3 : κ.transforms = 18 := by
    rw [k3]
    show 2 * 3 * passesBegun 64 17 100 = 18
    decide +kernel
  have q4 : κ.spectra = 4224 := by
    rw [k4]
    show 3 * (2 * 64) * (passesBegun 64 17 100 + (9 - 1) * partitionsBegun 64 17 100) = 4224
    decide +kernel
  rw [← q1, ← q2, ← q3, ← q4]

/-- Four calls of 64 samples, from the beginning. -/
example (g : Garbage) : ∃ c, Convolver.create referenceFFT tabledIR 64 tabledSpec g (fun _ _ => 7) = some c ∧
    ∃ used κ, history (Convolver.process referenceFFT) Convolver.reset c ((List.replicate 4 ⟨2, 64, fun _ i => i⟩).map .process) = some used ∧
      Convolver.callsC referenceFFT c (List.replicate 4 ⟨2, 64, fun _ i => i⟩) 0 = some (used, κ) ∧
      charged κ = 3 * 256 * (partitioningCost 64 [1, 1, 1, 1, 1, 1, 1, 1, 4, 4, 4, 4, 4, 4] + 8) := by
  obtain ⟨c, e, hh⟩ := C88_generator_minimises_executed_operations referenceFFT_lawful tabledUsable g (fun _ _ => 7) (B := 64) (by decide)
    tabled_mem.1 tabled_mem.2 rfl
  obtain ⟨used, used', κ, k1, k2, k3, k4⟩ := hh [] (List.replicate 4 ⟨2, 64, fun _ i => i⟩) (by simp) (by
    intro b hb
    rw [List.eq_of_mem_replicate hb]
    exact ⟨rfl, by norm_num⟩) rfl (by
    intro l hl
    simp only [List.mem_cons, List.not_mem_nil, or_false] at hl
    rcases hl with rfl | rfl <;> simp [totalLen, List.replicate])
  cases k1
  refine ⟨c, e, used', κ, k2, k3, ?_⟩
  rw [k4]
  simp only [totalLen, List.replicate, partitionsOf, List.flatMap_cons, List.flatMap_nil, List.cons_append, List.nil_append, List.append_nil, List.length_cons,
    List.length_nil, tabledIR]
  norm_num

end Zones.Props
