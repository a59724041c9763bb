import Verif.Proofs.GarciaRows

/-!
# Properties of the generator of the partition tables: C57, C58, C59, C60

`findOptimum latency irSize` is the list of the tables the script computes, `none` if it raises an exception. A table lists `(size, count)`: `count`
partitions of `size` samples.
-/

open Zones.Spec Zones.Model Zones.Model.Garcia Zones.Proofs.Garcia

namespace Zones.Props

/-- **C57.** For every latency and every length of at least two blocks the script ends without an exception and returns at least one table; each table lists the
partitions of a viable partitioning that reaches the end of all whole blocks, and its last partition begins before the end. -/
theorem C57_generator_returns_viable_partitionings {latency irSize : ℕ} (hl : 0 < latency) (h2 : 2 * latency ≤ irSize) :
    ∃ tables, findOptimum latency irSize = some tables ∧ tables ≠ [] ∧
      ∀ table ∈ tables, ∃ bs, Viable bs ∧ CoversBlocks (irSize / latency) bs ∧ Tabulates latency bs table := by
  obtain ⟨tables, h1, h3, h4⟩ := findOptimum_spec hl rfl ((Nat.le_div_iff_mul_le hl).mpr h2)
  refine ⟨tables, h1, h3, fun table ht => ?_⟩
  obtain ⟨bs, a, b, c, _⟩ := h4 table ht
  exact ⟨bs, a, b, c⟩

/-- **C57** (shorter lengths): no table. -/
theorem C57_generator_returns_nothing_for_short_lengths {latency irSize : ℕ} (hl : 0 < latency) (h2 : irSize < 2 * latency) :
    findOptimum latency irSize = some [] :=
  findOptimum_short hl ((Nat.div_lt_iff_lt_mul hl).mpr h2)

/-- The hypotheses of C57 and C58 hold for a case with several sizes: see `C60` for a table of the code with `latency = 16`, `irSize = 512`. -/
example : ∃ tables, findOptimum 16 512 = some tables ∧ tables ≠ [] ∧
    ∀ table ∈ tables, ∃ bs, Viable bs ∧ CoversBlocks 32 bs ∧ Tabulates 16 bs table :=
  C57_generator_returns_viable_partitionings (by norm_num) (by norm_num)

/-- **C58.** No viable partitioning that covers the same blocks is cheaper than one returned. -/
theorem C58_generator_is_optimal {latency irSize : ℕ} (hl : 0 < latency) (h2 : 2 * latency ≤ irSize) :
    ∃ tables, findOptimum latency irSize = some tables ∧ tables ≠ [] ∧
      ∀ table ∈ tables, ∃ bs, Viable bs ∧ CoversBlocks (irSize / latency) bs ∧ Tabulates latency bs table ∧
        ∀ bs', Viable bs' → CoversBlocks (irSize / latency) bs' → partitioningCost latency bs ≤ partitioningCost latency bs' :=
  findOptimum_spec hl rfl ((Nat.le_div_iff_mul_le hl).mpr h2)

/-- The comparison is with something: 32 blocks cut into 8 of one block and 6 of four, and into 32 of one block, are both viable, and they cost differently. -/
example : Viable [1, 1, 1, 1, 1, 1, 1, 1, 4, 4, 4, 4, 4, 4] ∧ CoversBlocks 32 [1, 1, 1, 1, 1, 1, 1, 1, 4, 4, 4, 4, 4, 4] ∧
    Viable (List.replicate 32 1) ∧ CoversBlocks 32 (List.replicate 32 1) ∧
    partitioningCost 16 [1, 1, 1, 1, 1, 1, 1, 1, 4, 4, 4, 4, 4, 4] < partitioningCost 16 (List.replicate 32 1) := by
  have h1 := rowOptimal_spec (lg := 4) (s := ⟨512, [⟨1, 8⟩, ⟨4, 6⟩]⟩) (by decide +kernel)
  have h2 := extend_same 16 31 [] 1 viable_single
  have c1 : CoversBlocks 32 (List.replicate 32 1) := by unfold CoversBlocks; decide
  refine ⟨h1.1, by unfold CoversBlocks; decide, h2.1, c1, ?_⟩
  have h3 : 5 * partitioningCost 16 (List.replicate 32 1) = 620 := by
    have := h2.2.2
    simp only [List.nil_append, partitioningCost, mul_zero, zero_add] at this
    have e : [1] ++ List.replicate 31 1 = List.replicate 32 1 := rfl
    rw [e] at this
    rw [this]
    norm_num
  have h4 := rowFold_spec (lg := 4) [⟨4, 6⟩] [1, 1, 1, 1, 1, 1, 1] 1 140 498
    (extend_same 16 7 [] 1 viable_single).1
    (by
      have := (extend_same 16 7 [] 1 viable_single).2.2
      simp only [List.nil_append, partitioningCost, mul_zero, zero_add] at this
      have e : [1] ++ List.replicate 7 1 = [1, 1, 1, 1, 1, 1, 1] ++ [1] := rfl
      rw [e] at this
      norm_num at this ⊢
      exact this) (by decide)
  have h5 : 5 * partitioningCost 16 [1, 1, 1, 1, 1, 1, 1, 1, 4, 4, 4, 4, 4, 4] = 498 := by
    have := h4.2
    norm_num at this
    exact this
  linarith

/-- **C59.** What a partitioned convolver needs of a returned table: the partition sizes increase, each is the latency times a power of two and the first
is the latency itself; there is at least one partition of each; they cover all whole blocks; and from the second size on, the partitions begin at an offset
of at least twice their size less one block. -/
theorem C59_generated_tables_are_playable {latency irSize : ℕ} (hl : 0 < latency) (h2 : 2 * latency ≤ irSize) :
    ∃ tables, findOptimum latency irSize = some tables ∧ tables ≠ [] ∧ ∀ table ∈ tables,
      (table.map Prod.fst).Pairwise (· < ·) ∧ irSize / latency * latency ≤ (table.map fun e => e.1 * e.2).sum ∧
      ∀ pre size count post, table = pre ++ (size, count) :: post →
        0 < count ∧ (∃ j, size = 2 ^ j * latency) ∧ (pre = [] → size = latency) ∧
        (pre ≠ [] → 2 * size ≤ (pre.map fun e => e.1 * e.2).sum + latency) := by
  obtain ⟨tables, h1, h3, h4⟩ := C57_generator_returns_viable_partitionings hl h2
  refine ⟨tables, h1, h3, fun table ht => ?_⟩
  obtain ⟨bs, hv, hc, hT⟩ := h4 table ht
  refine ⟨hT.1, ?_, ?_⟩
  · rw [table_total hl hT]
    exact Nat.mul_le_mul_right _ hc.2
  · intro pre size count post he
    obtain ⟨b, hb, hs, hn⟩ := (hT.2 size count).mp (by rw [he]; simp)
    have hcl := table_clearance hl hv hT he
    refine ⟨?_, ?_, hcl.1, hcl.2⟩
    · rw [hn]; exact List.count_pos_iff.mpr hb
    · obtain ⟨j, rfl⟩ := hv.powers b hb
      exact ⟨j, hs⟩

example : ∃ tables, findOptimum 64 131072 = some tables ∧ tables ≠ [] :=
  let ⟨t, h1, h2, _⟩ := C59_generated_tables_are_playable (latency := 64) (irSize := 131072) (by norm_num) (by norm_num)
  ⟨t, h1, h2⟩

/-- **C60.** Every row of the tables compiled into the library is a viable partitioning of exactly its impulse response length, and no viable partitioning that
covers this length is cheaper: not even with more partitions or sizes than the tables use. -/
theorem C60_compiled_tables_are_optimal {blockSize : ℕ} {rows : List Scheme} {row : Scheme} (h1 : (blockSize, rows) ∈ kGarciaResults) (h2 : row ∈ rows) :
    Viable (row.layout.flatMap fun l => List.replicate l.np l.psb) ∧
    (row.layout.flatMap fun l => List.replicate l.np l.psb).sum * blockSize = row.ir ∧
    ∀ bs, Viable bs → CoversBlocks (row.ir / blockSize) bs →
      partitioningCost blockSize (row.layout.flatMap fun l => List.replicate l.np l.psb) ≤ partitioningCost blockSize bs := by
  have h := List.all_eq_true.mp shipped_optimal _ h1
  simp only [Bool.and_eq_true, beq_iff_eq] at h
  have := rowOptimal_spec (List.all_eq_true.mp h.1 _ h2)
  rw [← h.2] at this
  exact this

/-- **C60** (with C58): a row costs exactly as much as the partitionings the script returns for its block size and length. -/
theorem C60_compiled_tables_cost_what_the_generator_finds {blockSize : ℕ} {rows : List Scheme} {row : Scheme} (h1 : (blockSize, rows) ∈ kGarciaResults)
    (h2 : row ∈ rows) : ∃ tables, findOptimum blockSize row.ir = some tables ∧ tables ≠ [] ∧ ∀ table ∈ tables, ∃ bs, Viable bs ∧
      CoversBlocks (row.ir / blockSize) bs ∧ Tabulates blockSize bs table ∧
      partitioningCost blockSize bs = partitioningCost blockSize (row.layout.flatMap fun l => List.replicate l.np l.psb) := by
  obtain ⟨r1, r2, r3⟩ := C60_compiled_tables_are_optimal h1 h2
  have hrow : 0 < blockSize ∧ 2 * blockSize ≤ row.ir := by
    have h : (kGarciaResults.all fun e => e.2.all fun r => decide (0 < e.1 ∧ 2 * e.1 ≤ r.ir)) = true := by decide +kernel
    have := List.all_eq_true.mp (List.all_eq_true.mp h _ h1) _ h2
    simpa using this
  have hcov : CoversBlocks (row.ir / blockSize) (row.layout.flatMap fun l => List.replicate l.np l.psb) := by
    have hs : row.ir / blockSize = (row.layout.flatMap fun l => List.replicate l.np l.psb).sum := by
      rw [← r2, Nat.mul_div_cancel _ hrow.1]
    refine ⟨?_, by rw [hs]⟩
    rw [hs]
    obtain ⟨ys, y, e⟩ := (List.eq_nil_or_concat _).resolve_left (viable_ne_nil r1)
    rw [List.concat_eq_append] at e
    have hy := viable_pos r1 (b := y) (by rw [e]; simp)
    rw [e, List.dropLast_concat, List.sum_append, List.sum_singleton]
    omega
  obtain ⟨tables, t1, t2, t3⟩ := C58_generator_is_optimal hrow.1 hrow.2
  refine ⟨tables, t1, t2, fun table ht => ?_⟩
  obtain ⟨bs, b1, b2, b3, b4⟩ := t3 table ht
  exact ⟨bs, b1, b2, b3, le_antisymm (b4 _ r1 hcov) (r3 _ b1 b2)⟩

/-- Not vacuous: a row with four sizes. -/
example : (16, garcia16) ∈ kGarciaResults ∧ ⟨32768, [⟨1, 8⟩, ⟨4, 6⟩, ⟨16, 14⟩, ⟨128, 14⟩]⟩ ∈ garcia16 := by
  constructor
  · decide
  · decide

end Zones.Props
