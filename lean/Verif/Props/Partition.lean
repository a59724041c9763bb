import Verif.Proofs.Partition
import Verif.Proofs.NUPC
import Verif.Proofs.JuceFFT

/-!
# Properties of the choice of partitions: C16, C17, C18, C19, C20

A returned scheme is a list of sub convolvers `⟨psb, np⟩`: `np` partitions of `psb` blocks each.
-/

open Zones.Spec Zones.Model Zones.Proofs

namespace Zones.Props

/-- Number of samples covered by a list of sub convolvers with block size `B`. -/
def covered (B : ℕ) : List Layout → ℕ
  | [] => 0
  | l :: rest => l.np * (l.psb * B) + covered B rest

theorem covered_append (B : ℕ) (a b : List Layout) : covered B (a ++ b) = covered B a + covered B b := by
  induction a with
  | nil => simp [covered]
  | cons l a ih => simp only [List.cons_append, covered, ih]; omega

theorem samples_eq (B : ℕ) (l : Layout) : l.samples B = l.np * (l.psb * B) := by
  unfold Layout.samples; ring

theorem goodRest_covered {B L : ℕ} : ∀ (rest : List Layout) (off : ℕ), GoodRest B L off rest → L ≤ off + covered B rest
  | [], off, h => by simpa [covered, GoodRest] using h
  | l :: rest, off, h => by
    have := goodRest_covered rest _ h.2.2.2.2.2.2
    rw [samples_eq] at this
    simp only [covered]; omega

theorem goodRest_split {B L : ℕ} {l : Layout} {post : List Layout} : ∀ (pre : List Layout) (off : ℕ),
    GoodRest B L off (pre ++ l :: post) → GoodRest B L (off + covered B pre) (l :: post)
  | [], off, h => by simpa [covered] using h
  | a :: pre, off, h => by
    have := goodRest_split pre _ h.2.2.2.2.2.2
    rw [samples_eq] at this
    simp only [covered]
    rw [← add_assoc]; exact this

/-- **C16.** For every block size and every IR length from 1 to `2^24` a scheme is returned and it covers the whole
impulse response: no filter tap is dropped. The single-precision rounding of the length arithmetic is modelled. -/
theorem C16_scheme_covers_impulse_response {B L : ℕ} (hB : 0 < B) (hB' : B ≤ 2^24) (hL : 0 < L) (hL' : L ≤ 2^24) :
    ∃ scheme, getPartitionScheme kGarciaResults B L = some scheme ∧ L ≤ covered B scheme := by
  obtain ⟨sch, e, n0, rest, rfl, hn0, hg, _⟩ := getPartitionScheme_good hB hB' hL hL'
  refine ⟨_, e, ?_⟩
  have := goodRest_covered rest _ hg
  simp only [covered, one_mul]; exact this

example : ∃ scheme, getPartitionScheme kGarciaResults 64 100000 = some scheme ∧ 100000 ≤ covered 64 scheme :=
  C16_scheme_covers_impulse_response (by norm_num) (by norm_num) (by norm_num) (by norm_num)

/-- **C17.** In every returned scheme, every sub convolver after the first starts at an offset of at least two of its own
partitions plus one block, and its partitions are a power of two of at least two blocks; the first has partitions of
one block. A scheme with more than one sub convolver only occurs for power-of-two block sizes. -/
theorem C17_enough_clearance {B L : ℕ} (hB : 0 < B) (hB' : B ≤ 2^24) (hL : 0 < L) (hL' : L ≤ 2^24) :
    ∃ scheme, getPartitionScheme kGarciaResults B L = some scheme ∧
      ∀ pre l post, scheme = pre ++ l :: post →
        (pre = [] → l.psb = 1) ∧
        (pre ≠ [] → 2 * (l.psb * B) + B ≤ covered B pre ∧ (∃ p, 1 ≤ p ∧ l.psb = 2^p) ∧ ∃ b, B = 2^b) := by
  obtain ⟨sch, e, n0, rest, rfl, hn0, hg, hr⟩ := getPartitionScheme_good hB hB' hL hL'
  refine ⟨_, e, fun pre l post hs => ?_⟩
  cases pre with
  | nil =>
    simp only [List.nil_append, List.cons.injEq] at hs
    rw [← hs.1]
    exact ⟨fun _ => rfl, fun h => absurd rfl h⟩
  | cons a pre =>
    simp only [List.cons_append, List.cons.injEq] at hs
    obtain ⟨rfl, rfl⟩ := hs
    have h := goodRest_split pre _ hg
    refine ⟨fun h => by simp at h, fun _ => ⟨?_, h.1, ?_⟩⟩
    · have := h.2.2.1
      simp only [covered, one_mul]; exact this
    · rcases hr with hr | hr
      · simp at hr
      · exact hr

/-- Not vacuous: block size 64 and a long IR give a scheme with several sub convolvers (here the row of length 4096,
extended). -/
example : getPartitionScheme kGarciaResults 64 4100 ≠ none ∧
    kGarciaResults.lookup 64 = some garcia64 ∧ ∃ s ∈ garcia64, 1 < s.layout.length := by
  refine ⟨?_, ?_⟩
  · obtain ⟨s, e, _⟩ := C17_enough_clearance (B := 64) (L := 4100) (by norm_num) (by norm_num) (by norm_num) (by norm_num)
    rw [e]; simp
  · exact ⟨rfl, by decide +kernel⟩

/-- **C18** (non-empty impulse responses). Every sub convolver has at least one partition and starts inside the impulse
response, so its segment (from its offset to the end of the sub convolver or of the IR) is non-empty and inside the
IR, and its delay `offset + B - 2 * partition size` is positive; the layout is not empty; and the constructor,
in which every out-of-range sub block, division by zero and empty `front`/`back` is undefined, is defined. -/
theorem C18_construction_in_range {F : RealFFT} (hF : Lawful F) {B nch : ℕ} (hB : 0 < B) (hB' : B ≤ 2^24) {ir : Buf}
    (hL : 0 < ir.n) (hL' : ir.n ≤ 2^24) (hch : 0 < ir.ch) (g : Garbage) :
    (∃ scheme, getPartitionScheme kGarciaResults B ir.n = some scheme ∧ scheme ≠ [] ∧
      ∀ pre l post, scheme = pre ++ l :: post →
        0 < l.np ∧ covered B pre < ir.n ∧ (pre ≠ [] → 2 * (l.psb * B) < covered B pre + B)) ∧
    (NUPC.create F B nch ir g).isSome := by
  constructor
  · obtain ⟨sch, e, n0, rest, rfl, hn0, hg, hr⟩ := getPartitionScheme_good hB hB' hL hL'
    refine ⟨_, e, by simp, fun pre l post hs => ?_⟩
    cases pre with
    | nil =>
      simp only [List.nil_append, List.cons.injEq] at hs
      rw [← hs.1]
      exact ⟨hn0, hL, fun h => absurd rfl h⟩
    | cons a pre =>
      simp only [List.cons_append, List.cons.injEq] at hs
      obtain ⟨rfl, rfl⟩ := hs
      have h := goodRest_split pre _ hg
      refine ⟨h.2.1, ?_, fun _ => ?_⟩
      · have := h.2.2.2.2.1
        simp only [covered, one_mul]; exact this
      · have := h.2.2.1
        simp only [covered, one_mul]; omega
  · obtain ⟨s, _, _, e, _⟩ := NInv.create hF (nch := nch) hB hB' hL hL' (fun _ => hch) g
    rw [e]; rfl

example : (NUPC.create referenceFFT 256 2 ⟨2, 1000000, fun _ i => i⟩
    ⟨fun _ _ => 7, fun _ _ _ _ => 7, fun _ _ => 7, fun _ _ => 7, fun _ _ => 7⟩).isSome :=
  (C18_construction_in_range referenceFFT_lawful (by norm_num) (by norm_num) (by norm_num) (by norm_num) (by norm_num) _).2

theorem sort_of_check {B : ℕ} {s : Scheme} {rest : List Scheme} (h3 : checkRows B s.ir rest = true) :
    sortSchemes (s :: rest) = s :: rest := by
  obtain ⟨h4, h5⟩ := checkRows_sorted rest s.ir h3
  unfold sortSchemes
  apply List.Pairwise.insertionSort_eq
  rw [List.pairwise_cons]
  exact ⟨fun t ht => (h4 t ht).le, h5⟩

/-- **C18** (empty impulse response). For every tabulated block size an empty impulse response makes
`GetPartitionScheme` take the back of an empty layout (undefined), so no convolver can be built from it. -/
theorem C18_empty_impulse_response_is_undefined {B : ℕ} {T : List Scheme} (h : kGarciaResults.lookup B = some T) :
    getPartitionScheme kGarciaResults B 0 = none := by
  have hmem := lookup_mem B _ h
  have hall := checkAll_true
  unfold checkAll at hall
  rw [List.all_eq_true] at hall
  have h1 := (Bool.and_eq_true _ _ ▸ hall _ hmem).2
  cases T with
  | nil => simp [checkTable] at h1
  | cons s rest =>
    unfold checkTable at h1
    simp only [Bool.and_eq_true, beq_iff_eq] at h1
    obtain ⟨⟨hrow, hlen⟩, hrows⟩ := h1
    have hfind : findNearest (s :: rest) 0 = some s := by
      unfold findNearest
      rw [sort_of_check hrows]
      show some (findLoop 0 s rest) = _
      cases rest with
      | nil => rfl
      | cons t rest =>
        have hlt := (checkRows_sorted _ _ hrows).1 t (List.mem_cons_self ..)
        unfold findLoop
        simp only
        rw [if_pos (by omega), if_neg (by omega)]
    unfold getPartitionScheme
    rw [h]
    simp only [hfind, Option.bind_eq_bind, Option.bind_some]
    unfold checkRow at hrow
    rcases hl : s.layout with _ | ⟨l, ls⟩
    · rw [hl] at hrow; simp at hrow
    · rw [hl] at hrow hlen
      simp only [Bool.and_eq_true, decide_eq_true_eq] at hrow
      have hnil : ls = [] := by
        simp only [List.length_cons] at hlen
        exact List.length_eq_zero_iff.mp (by omega)
      subst hnil
      have htot : l.samples B = s.ir := by
        have := hrow.1.1.2
        simpa [totalSamples] using this
      rw [if_neg (by omega)]
      have : reduceRev [l].reverse (s.ir - 0) B = none := by
        simp only [List.reverse_cons, List.reverse_nil, List.nil_append]
        unfold reduceRev
        rw [if_neg (by omega)]
        rfl
      rw [this]; rfl

example : getPartitionScheme kGarciaResults 128 0 = none :=
  C18_empty_impulse_response_is_undefined (B := 128) (T := garcia128) rfl

/-- **C19.** For sizes up to `2^24` the number of partitions computed through float division and `ceil` is the exact
integer ceiling: the least number of partitions that covers the segment. -/
theorem C19_partition_count_exact {partitionSize segmentSize : ℕ} (h0 : 0 < partitionSize) (h1 : segmentSize ≤ 2^24)
    (h2 : partitionSize ≤ 2^24) :
    segmentSize ≤ numPartitionsFor partitionSize segmentSize * partitionSize ∧
      ∀ k, segmentSize ≤ k * partitionSize → numPartitionsFor partitionSize segmentSize ≤ k := by
  rw [numPartitionsFor_eq h0 h1 h2]
  have hd := Nat.div_add_mod (segmentSize + partitionSize - 1) partitionSize
  have hm := Nat.mod_lt (segmentSize + partitionSize - 1) h0
  constructor
  · rw [mul_comm]; omega
  · intro k hk
    refine Nat.lt_succ_iff.mp ((Nat.div_lt_iff_lt_mul h0).mpr ?_)
    rw [Nat.succ_mul]; omega

example : 4097 ≤ numPartitionsFor 100 4097 * 100 ∧ ∀ k, 4097 ≤ k * 100 → numPartitionsFor 100 4097 ≤ k :=
  C19_partition_count_exact (by norm_num) (by norm_num) (by norm_num)

/-- **C19** (the bound is sharp). One sample beyond `2^24` the count is too small for every power-of-two partition size:
the partitions cover `2^24` samples only and the last tap is lost. -/
theorem C19_fails_beyond {k : ℕ} (hk : k ≤ 24) :
    numPartitionsFor (2^k) (2^24 + 1) * 2^k = 2^24 ∧ 2^24 < 2^24 + 1 := by
  refine ⟨?_, by norm_num⟩
  have h1 : fdiv ((2^24 + 1 : ℕ) : ℤ) ((2^k : ℕ) : ℤ) = ((2^(24-k) : ℕ) : ℚ) := by
    unfold fdiv
    rw [show ((((2^24 + 1 : ℕ)) : ℤ) : ℚ) = ((2^24 + 1 : ℕ) : ℚ) by push_cast; ring, f32_fail,
      show ((((2^k : ℕ)) : ℤ) : ℚ) = ((2^k : ℕ) : ℚ) by push_cast; ring,
      f32_nat (Nat.pow_le_pow_right (by norm_num) hk)]
    have : (2^24 : ℚ) / ((2^k : ℕ) : ℚ) = ((2^(24-k) : ℕ) : ℚ) := by
      rw [div_eq_iff (by positivity)]
      push_cast
      rw [← pow_add, Nat.sub_add_cancel hk]
    rw [this]
    exact f32_nat (Nat.pow_le_pow_right (by norm_num) (by omega))
  have : numPartitionsFor (2^k) (2^24 + 1) = 2^(24-k) := by
    unfold numPartitionsFor
    rw [h1, Int.ceil_natCast]; rfl
  rw [this, ← pow_add, Nat.sub_add_cancel hk]

/-- **C19** (consequence). For a block size without a table the returned scheme then drops the last tap. -/
theorem C19_scheme_drops_tap {k : ℕ} (hk : k ≤ 24) (h : kGarciaResults.lookup (2^k) = none) :
    ∃ scheme, getPartitionScheme kGarciaResults (2^k) (2^24 + 1) = some scheme ∧ covered (2^k) scheme < 2^24 + 1 := by
  refine ⟨[⟨1, numPartitionsFor (2^k) (2^24 + 1)⟩], ?_, ?_⟩
  · unfold getPartitionScheme
    rw [h]
    have : 2^k ≠ 0 := by positivity
    simp only [this, if_false, numPartitionsFor]
  · simp only [covered, one_mul, add_zero]
    rw [(C19_fails_beyond hk).1]; norm_num

example : kGarciaResults.lookup (2^3) = none ∧ kGarciaResults.lookup (2^13) = none := by decide +kernel

/-! ## Nearest scheme -/

/-- distance between the IR length and a design length -/
def dist (L : ℕ) (s : Scheme) : ℕ := ((L : ℤ) - s.ir).natAbs

theorem findLoop_spec {L : ℕ} : ∀ (rest : List Scheme) (prev : Scheme),
    (prev :: rest).Pairwise (fun a b => a.ir ≤ b.ir) →
    (prev.ir ≤ L ∨ L < prev.ir) →
    findLoop L prev rest ∈ prev :: rest ∧
      ∀ t ∈ prev :: rest, dist L (findLoop L prev rest) < dist L t ∨
        (dist L (findLoop L prev rest) = dist L t ∧ (findLoop L prev rest).ir ≤ t.ir)
  | [], prev, _, _ => by
    refine ⟨by simp [findLoop], fun t ht => ?_⟩
    simp only [List.mem_cons, List.not_mem_nil, or_false] at ht
    subst ht
    right; exact ⟨rfl, le_rfl⟩
  | s :: rest, prev, hp, hL => by
    rw [List.pairwise_cons] at hp
    obtain ⟨hp1, hp2⟩ := hp
    have hps := hp1 s (List.mem_cons_self ..)
    have hs : ∀ t ∈ rest, s.ir ≤ t.ir := (List.pairwise_cons.mp hp2).1
    unfold findLoop
    by_cases hlt : L < s.ir
    · rw [if_pos hlt]
      simp only
      by_cases hd : ((L : ℤ) - s.ir).natAbs < ((L : ℤ) - prev.ir).natAbs
      · rw [if_pos hd]
        refine ⟨by simp, fun t ht => ?_⟩
        simp only [List.mem_cons] at ht
        unfold dist
        rcases ht with rfl | rfl | ht
        · left; exact hd
        · right; exact ⟨rfl, le_rfl⟩
        · have := hs t ht; omega
      · rw [if_neg hd]
        refine ⟨by simp, fun t ht => ?_⟩
        simp only [List.mem_cons] at ht
        unfold dist
        rcases ht with rfl | rfl | ht
        · right; exact ⟨rfl, le_rfl⟩
        · omega
        · have := hs t ht; omega
    · rw [if_neg hlt]
      obtain ⟨h1, h2⟩ := findLoop_spec (L := L) rest s hp2 (Or.inl (by omega))
      refine ⟨List.mem_cons_of_mem _ h1, fun t ht => ?_⟩
      rcases List.mem_cons.mp ht with rfl | ht
      · have := h2 s (List.mem_cons_self ..)
        unfold dist at *
        omega
      · exact h2 t ht

/-- **C20** (choice). The scheme picked from any non-empty table, in any order, is one of its rows and minimises the
distance between design length and IR length; among equally near rows it has the smallest design length. -/
theorem C20_nearest_scheme {results : List Scheme} (hne : results ≠ []) (L : ℕ) :
    ∃ s, findNearest results L = some s ∧ s ∈ results ∧ (∀ t ∈ results, dist L s ≤ dist L t) ∧
      ∀ t ∈ results, dist L s = dist L t → s.ir ≤ t.ir := by
  have hperm : (sortSchemes results).Perm results := List.perm_insertionSort _ _
  have hsort : (sortSchemes results).Pairwise fun a b => a.ir ≤ b.ir := by
    have : Std.Total (fun a b : Scheme => a.ir ≤ b.ir) := ⟨fun a b => Nat.le_total _ _⟩
    have : IsTrans Scheme (fun a b : Scheme => a.ir ≤ b.ir) := ⟨fun a b c h1 h2 => Nat.le_trans h1 h2⟩
    exact List.pairwise_insertionSort _ _
  unfold findNearest
  rcases hs : sortSchemes results with _ | ⟨s, rest⟩
  · rw [hs] at hperm; exact absurd hperm.symm.eq_nil hne
  · rw [hs] at hperm hsort
    obtain ⟨h1, h2⟩ := findLoop_spec rest s hsort (Nat.lt_or_ge L s.ir |>.symm.imp id id)
    refine ⟨_, rfl, hperm.mem_iff.mp h1, fun t ht => ?_, fun t ht heq => ?_⟩
    · rcases h2 t (hperm.mem_iff.mpr ht) with h | h <;> omega
    · rcases h2 t (hperm.mem_iff.mpr ht) with h | h <;> omega

/-- **C20** (order). The chosen design length does not depend on the order of the table. -/
theorem C20_order_irrelevant {r₁ r₂ : List Scheme} (hp : r₁.Perm r₂) (hne : r₁ ≠ []) (L : ℕ) :
    ∃ s₁ s₂, findNearest r₁ L = some s₁ ∧ findNearest r₂ L = some s₂ ∧ s₁.ir = s₂.ir := by
  obtain ⟨s1, e1, m1, d1, t1⟩ := C20_nearest_scheme hne L
  obtain ⟨s2, e2, m2, d2, t2⟩ := C20_nearest_scheme (results := r₂) (by rintro rfl; exact hne hp.eq_nil) L
  have a := d1 s2 (hp.mem_iff.mpr m2)
  have b := d2 s1 (hp.mem_iff.mp m1)
  have hd : dist L s1 = dist L s2 := by omega
  have := t1 s2 (hp.mem_iff.mpr m2) hd
  have := t2 s1 (hp.mem_iff.mp m1) hd.symm
  exact ⟨s1, s2, e1, e2, by omega⟩

example : ∃ s, findNearest garcia64 3000 = some s ∧ s ∈ garcia64 ∧
    (∀ t ∈ garcia64, dist 3000 s ≤ dist 3000 t) ∧ ∀ t ∈ garcia64, dist 3000 s = dist 3000 t → s.ir ≤ t.ir :=
  C20_nearest_scheme (by decide +kernel) 3000

theorem reduceRev_shape {B : ℕ} : ∀ (rl : List Layout) (rem : ℕ) (res : List Layout), reduceRev rl rem B = some res →
    ∃ post l front m, rl = post ++ l :: front ∧ res = ⟨l.psb, m⟩ :: front ∧ m ≤ l.np
  | [], rem, res, h => by simp [reduceRev] at h
  | last :: front, rem, res, h => by
    unfold reduceRev at h
    split at h
    · simp only at h
      split at h
      · simp only [Option.some.injEq] at h
        exact ⟨[], last, front, _, rfl, h.symm, Nat.sub_le _ _⟩
      · simp at h
    · obtain ⟨post, l, fr, m, e1, e2, e3⟩ := reduceRev_shape front _ res h
      exact ⟨last :: post, l, fr, m, by rw [e1]; rfl, e2, e3⟩

/-- **C20** (adjustment). Whatever the tables and the lengths: a scheme returned for a tabulated block size is the nearest
row with only its end changed (a longer IR adds partitions to the last sub convolver; a shorter one removes
trailing sub convolvers and shortens the then last one), and with one block added to the first. -/
theorem C20_adjusted_at_its_end {garcia : List (ℕ × List Scheme)} {B L : ℕ} {results : List Scheme} {scheme : List Layout}
    (hT : garcia.lookup B = some results) (h : getPartitionScheme garcia B L = some scheme) :
    ∃ s pre l post m first tl, findNearest results L = some s ∧ s.layout = pre ++ l :: post ∧
      pre ++ [⟨l.psb, m⟩] = first :: tl ∧ scheme = ⟨first.psb, first.np + 1⟩ :: tl ∧
      (s.ir < L → post = [] ∧ l.np ≤ m) ∧ (L ≤ s.ir → m ≤ l.np) := by
  unfold getPartitionScheme at h
  rw [hT] at h
  simp only [Option.bind_eq_bind] at h
  obtain ⟨s, hs, h⟩ := Option.bind_eq_some_iff.mp h
  obtain ⟨lay, hlay, h⟩ := Option.bind_eq_some_iff.mp h
  have hb : ∃ first tl, lay = first :: tl ∧ scheme = ⟨first.psb, first.np + 1⟩ :: tl := by
    cases lay with
    | nil => simp [bumpFront] at h
    | cons f tl => exact ⟨f, tl, rfl, by simpa [bumpFront] using h.symm⟩
  obtain ⟨first, tl, rfl, hsch⟩ := hb
  by_cases hlt : s.ir < L
  · rw [if_pos hlt] at hlay
    unfold extendLayout at hlay
    rcases hgl : s.layout.getLast? with _ | last
    · rw [hgl] at hlay; simp at hlay
    · rw [hgl] at hlay
      simp only at hlay
      split at hlay
      · simp at hlay
      · simp only [Option.some.injEq] at hlay
        have hne : s.layout ≠ [] := by rintro h0; rw [h0] at hgl; simp at hgl
        have hl : s.layout = s.layout.dropLast ++ [last] := by
          rw [List.getLast?_eq_some_getLast hne, Option.some.injEq] at hgl
          rw [← hgl, List.dropLast_append_getLast hne]
        exact ⟨s, s.layout.dropLast, last, [], _, first, tl, hs, hl, hlay, hsch,
          fun _ => ⟨rfl, Nat.le_add_right _ _⟩, fun h => absurd h (by omega)⟩
  · rw [if_neg hlt] at hlay
    obtain ⟨res, hres, hrev⟩ := Option.map_eq_some_iff.mp hlay
    obtain ⟨post, l, fr, m, e1, e2, e3⟩ := reduceRev_shape _ _ _ hres
    refine ⟨s, fr.reverse, l, post.reverse, m, first, tl, hs, ?_, ?_, hsch, fun h => absurd h hlt, fun _ => e3⟩
    · have := congrArg List.reverse e1
      rw [List.reverse_reverse] at this
      rw [this]; simp
    · rw [← hrev, e2]; simp

example : ∃ s, findNearest garcia64 3000 = some s ∧ kGarciaResults.lookup 64 = some garcia64 ∧
    ∃ scheme, getPartitionScheme kGarciaResults 64 3000 = some scheme := by
  obtain ⟨s, e, _⟩ := C20_nearest_scheme (results := garcia64) (by decide +kernel) 3000
  obtain ⟨sch, e', _⟩ := C16_scheme_covers_impulse_response (B := 64) (L := 3000) (by norm_num) (by norm_num) (by norm_num)
    (by norm_num)
  exact ⟨s, e, rfl, sch, e'⟩

theorem covered_reverse (B : ℕ) : ∀ ls : List Layout, covered B ls.reverse = covered B ls
  | [] => rfl
  | l :: ls => by
    rw [List.reverse_cons, covered_append, covered_reverse B ls]
    simp only [covered]; omega

theorem reduceRev_covered {B : ℕ} (hB : 0 < B) : ∀ (rl : List Layout) (rem : ℕ), (∀ l ∈ rl, 0 < l.psb ∧ l.psb * B ≤ 2^24) → rem < covered B rl → rem ≤ 2^24 →
    ∃ l m fr, reduceRev rl rem B = some (⟨l, m⟩ :: fr) ∧ covered B rl ≤ covered B (⟨l, m⟩ :: fr) + rem ∧ covered B (⟨l, m⟩ :: fr) + rem < covered B rl + l * B
  | [], rem, _, h, _ => by simp [covered] at h
  | last :: front, rem, hl, h, h24 => by
    obtain ⟨hp, hp24⟩ := hl last (List.mem_cons_self ..)
    unfold reduceRev
    rw [samples_eq]
    by_cases hlt : last.np * (last.psb * B) > rem
    · rw [if_pos hlt]
      have hP : 0 < B * last.psb := Nat.mul_pos hB hp
      have hcomm : last.psb * B = B * last.psb := Nat.mul_comm _ _
      rw [hcomm] at hlt hp24
      simp only
      rw [floor_fdiv_toNat hP h24 hp24]
      have hdm := Nat.div_add_mod rem (B * last.psb)
      have hmod := Nat.mod_lt rem hP
      set q := rem / (B * last.psb) with hq
      have hqlt : q < last.np := by
        rw [hq, Nat.div_lt_iff_lt_mul hP]; exact hlt
      rw [if_pos hqlt.le]
      refine ⟨_, _, _, rfl, ?_, ?_⟩ <;>
      · simp only [covered]
        rw [hcomm, Nat.sub_mul, Nat.mul_comm q]
        have : (B * last.psb) * q ≤ last.np * (B * last.psb) := by
          rw [Nat.mul_comm]; exact Nat.mul_le_mul_right _ hqlt.le
        omega
    · rw [if_neg hlt]
      simp only [covered] at h
      obtain ⟨l, m, fr, e, h1, h2⟩ := reduceRev_covered hB front (rem - last.np * (last.psb * B)) (fun l hm => hl l (List.mem_cons_of_mem _ hm)) (by omega) (by omega)
      refine ⟨l, m, fr, e, ?_, ?_⟩
      · simp only [covered] at h1 ⊢; omega
      · simp only [covered] at h2 ⊢; omega

/-- **C16**, for any tables. If every row of the table for block size `B` has the design length it covers, then for every IR length a scheme is returned that covers the whole IR, and it
covers less than one of its last partitions more than the IR and the added partition at the front: also where the length is reduced over several sub convolvers, which no length does to the
compiled tables. -/
theorem C16_any_tables {garcia : List (ℕ × List Scheme)} {B L : ℕ} {results : List Scheme} (hB : 0 < B) (hL : 0 < L) (hL' : L ≤ 2^24)
    (hT : garcia.lookup B = some results) (hne : results ≠ [])
    (hrows : ∀ s ∈ results, s.ir = covered B s.layout ∧ 0 < s.ir ∧ s.ir ≤ 2^24 ∧ ∀ l ∈ s.layout, 0 < l.psb ∧ 0 < l.np) :
    ∃ (scheme : List Layout) (first last : Layout), getPartitionScheme garcia B L = some scheme ∧ scheme.head? = some first ∧ scheme.getLast? = some last ∧
      L ≤ covered B scheme ∧ covered B scheme < L + last.psb * B + first.psb * B := by
  obtain ⟨s, hs, hsm, -⟩ := C20_nearest_scheme hne L
  obtain ⟨hir, hpos, h24, hl⟩ := hrows s hsm
  have hsz : ∀ l ∈ s.layout, 0 < l.psb ∧ l.psb * B ≤ 2^24 := by
    intro l hm
    refine ⟨(hl l hm).1, ?_⟩
    obtain ⟨a, b, e⟩ := List.append_of_mem hm
    have : l.np * (l.psb * B) ≤ s.ir := by
      rw [hir, e, covered_append]; simp only [covered]; omega
    have h1 : 1 * (l.psb * B) ≤ l.np * (l.psb * B) := Nat.mul_le_mul_right _ (hl l hm).2
    omega
  have key : ∃ (lay : List Layout) (last : Layout),
      (if s.ir < L then extendLayout s.layout (L - s.ir) B else (reduceRev s.layout.reverse (s.ir - L) B).map List.reverse) = some lay ∧
      lay.getLast? = some last ∧ L ≤ covered B lay ∧ covered B lay < L + last.psb * B := by
    by_cases hlt : s.ir < L
    · rw [if_pos hlt]
      have hln : s.layout ≠ [] := by intro h0; rw [hir, h0] at hpos; simp [covered] at hpos
      have hlast : s.layout.getLast? = some (s.layout.getLast hln) := List.getLast?_eq_some_getLast hln
      obtain ⟨hp, hp24⟩ := hsz _ (List.getLast_mem hln)
      set last := s.layout.getLast hln
      have hP : 0 < B * last.psb := Nat.mul_pos hB hp
      have hcomm : last.psb * B = B * last.psb := Nat.mul_comm _ _
      rw [hcomm] at hp24
      unfold extendLayout
      rw [hlast]
      simp only
      rw [if_neg (by omega), ceil_fdiv_toNat hP (by omega) hp24]
      refine ⟨_, _, rfl, List.getLast?_concat .., ?_, ?_⟩ <;>
      · have hc : covered B s.layout = covered B s.layout.dropLast + last.np * (last.psb * B) := by
          conv_lhs => rw [← List.dropLast_append_getLast hln, covered_append]
          simp [covered, last]
        rw [covered_append]
        simp only [covered]
        rw [hcomm] at hc ⊢
        have h1 := Nat.div_add_mod (L - s.ir + B * last.psb - 1) (B * last.psb)
        have h2 := Nat.mod_lt (L - s.ir + B * last.psb - 1) hP
        rw [Nat.add_mul, Nat.mul_comm (_ / _) (B * last.psb)]
        omega
    · rw [if_neg hlt]
      obtain ⟨l, m, fr, e, h1, h2⟩ := reduceRev_covered hB s.layout.reverse (s.ir - L) (fun l hm => hsz l (List.mem_reverse.mp hm)) (by rw [covered_reverse]; omega) (by omega)
      rw [covered_reverse] at h1 h2
      rw [e]
      refine ⟨_, ⟨l, m⟩, rfl, by simp, ?_, ?_⟩
      · rw [covered_reverse]; omega
      · rw [covered_reverse]; show _ < L + l * B; omega
  obtain ⟨lay, last, e, hlast, h1, h2⟩ := key
  cases lay with
  | nil => simp at hlast
  | cons f tl =>
    have hb : getPartitionScheme garcia B L = some ({ f with np := f.np + 1 } :: tl) := by
      unfold getPartitionScheme
      rw [hT]
      simp only [hs, Option.bind_eq_bind, Option.bind_some]
      rw [e]; rfl
    have hcov : covered B ({ f with np := f.np + 1 } :: tl) = covered B (f :: tl) + f.psb * B := by
      simp only [covered]; ring
    have hlast' : ∃ l', (({ f with np := f.np + 1 } : Layout) :: tl).getLast? = some l' ∧ l'.psb = last.psb := by
      cases tl with
      | nil => simp only [List.getLast?_singleton, Option.some.injEq] at hlast; subst hlast; exact ⟨_, rfl, rfl⟩
      | cons t tl => exact ⟨last, by rw [List.getLast?_cons_cons] at hlast ⊢; exact hlast, rfl⟩
    obtain ⟨l', e', he'⟩ := hlast'
    refine ⟨_, _, l', hb, rfl, e', ?_, ?_⟩
    · rw [hcov]; omega
    · rw [hcov, he']; show _ < L + last.psb * B + f.psb * B; omega

/-- A table with a row of three sub convolvers, and a length for which two of them are removed: 4 of 28 blocks of 16 samples remain. -/
example : ∃ (scheme : List Layout) (first last : Layout), getPartitionScheme [(16, [⟨448, [⟨1, 6⟩, ⟨2, 3⟩, ⟨4, 4⟩]⟩])] 16 60 = some scheme ∧
    scheme.head? = some first ∧ scheme.getLast? = some last ∧ 60 ≤ covered 16 scheme ∧ covered 16 scheme < 60 + last.psb * 16 + first.psb * 16 :=
  C16_any_tables (by norm_num) (by norm_num) (by norm_num) rfl (by simp) (by decide)

end Zones.Props
