import Verif.Proofs.Float

/-!
# Partition schemes: every scheme derived from the tables covers the IR and leaves enough clearance
-/

namespace Zones.Proofs
open Zones.Model

/-- total length of a layout in samples -/
def totalSamples (B : ℕ) (l : List Layout) : ℕ := (l.map fun x => x.samples B).sum

/-- condition on the sub convolvers after the first; `off` is the start of the first one of the list -/
def GoodRest (B L : ℕ) : ℕ → List Layout → Prop
  | off, [] => L ≤ off
  | off, l :: rest =>
    (∃ p, 1 ≤ p ∧ l.psb = 2 ^ p) ∧ 0 < l.np ∧ 2 * (l.psb * B) + B ≤ off ∧ l.psb * B ≤ 2^24 ∧ off < L ∧
      (∀ l' ∈ rest.head?, 2 * (l'.psb * B) ≤ l.samples B + 2 * (l.psb * B)) ∧
      GoodRest B L (off + l.samples B) rest

/-- the part of `GoodRest` that does not depend on the IR length, as a check -/
def checkRest (B : ℕ) : ℕ → List Layout → Bool
  | _, [] => true
  | off, l :: rest =>
    ((List.range 24).any fun p => l.psb == 2 ^ (p+1)) && decide (0 < l.np) && decide (2 * (l.psb * B) + B ≤ off) &&
      decide (l.psb * B ≤ 2^24) &&
      (match rest with
        | [] => true
        | l' :: _ => decide (2 * (l'.psb * B) ≤ l.samples B + 2 * (l.psb * B))) &&
      checkRest B (off + l.samples B) rest

/-- one row of a table -/
def checkRow (B : ℕ) (s : Scheme) : Bool :=
  match s.layout with
  | [] => false
  | l :: rest => decide (l.psb = 1) && decide (0 < l.np) && decide (totalSamples B s.layout = s.ir) &&
      decide (s.ir ≤ 2^24) && checkRest B ((l.np + 1) * B) rest

/-- rows in increasing order; a row with several sub convolvers is only chosen for IRs that reach its last one -/
def checkRows (B : ℕ) : ℕ → List Scheme → Bool
  | _, [] => true
  | prev, s :: rest =>
    checkRow B s && decide (prev < s.ir) &&
      (s.layout.length == 1 ||
        decide (2 * (s.ir + B - ((s.layout.getLast?).getD ⟨0,0⟩).samples B) ≤ prev + s.ir)) &&
      checkRows B s.ir rest

def checkTable (B : ℕ) : List Scheme → Bool
  | [] => false
  | s :: rest => checkRow B s && s.layout.length == 1 && checkRows B s.ir rest

def checkAll : Bool := kGarciaResults.all fun e =>
  ((List.range 24).any fun p => e.1 == 2 ^ p) && checkTable e.1 e.2

theorem checkAll_true : checkAll = true := by decide +kernel

/-- what a chosen row satisfies -/
structure RowFor (B L : ℕ) (s : Scheme) : Prop where
  row : checkRow B s = true
  reach : s.layout.length = 1 ∨ s.ir + B - ((s.layout.getLast?).getD ⟨0,0⟩).samples B < L

theorem rowFor_find {B L : ℕ} : ∀ (rest : List Scheme) (prev : Scheme), RowFor B L prev ∨ L < prev.ir →
    (L < prev.ir → prev.layout.length = 1 ∧ checkRow B prev = true) →
    checkRows B prev.ir rest = true → RowFor B L (findLoop L prev rest)
  | [], prev, h, h1, _ => by
    unfold findLoop
    rcases h with h | h
    · exact h
    · exact ⟨(h1 h).2, Or.inl (h1 h).1⟩
  | s :: rest, prev, h, h1, hc => by
    unfold checkRows at hc
    simp only [Bool.and_eq_true, Bool.or_eq_true, decide_eq_true_eq, beq_iff_eq] at hc
    obtain ⟨⟨⟨hr, hlt⟩, hreach⟩, hrest⟩ := hc
    unfold findLoop
    have hprev : RowFor B L prev := by
      rcases h with h | h
      · exact h
      · exact ⟨(h1 h).2, Or.inl (h1 h).1⟩
    split
    · next hL =>
      simp only
      split
      · next hd => exact ⟨hr, by rcases hreach with h | h; exact Or.inl h; right; omega⟩
      · exact hprev
    · next hL =>
      refine rowFor_find rest s (Or.inl ⟨hr, ?_⟩) (fun h => absurd h (by omega)) hrest
      rcases hreach with h | h
      · exact Or.inl h
      · right; omega

theorem checkRows_sorted {B : ℕ} : ∀ (rest : List Scheme) (prev : ℕ), checkRows B prev rest = true →
    (∀ s ∈ rest, prev < s.ir) ∧ rest.Pairwise (fun a b => a.ir ≤ b.ir)
  | [], _, _ => by simp
  | s :: rest, prev, hc => by
    unfold checkRows at hc
    simp only [Bool.and_eq_true, Bool.or_eq_true, decide_eq_true_eq, beq_iff_eq] at hc
    obtain ⟨⟨⟨hr, hlt⟩, hreach⟩, hrest⟩ := hc
    obtain ⟨h1, h2⟩ := checkRows_sorted rest s.ir hrest
    refine ⟨?_, ?_⟩
    · intro t ht
      rcases List.mem_cons.mp ht with rfl | ht
      · exact hlt
      · exact hlt.trans (h1 t ht)
    · rw [List.pairwise_cons]
      exact ⟨fun t ht => (h1 t ht).le, h2⟩

theorem findNearest_rowFor {B L : ℕ} {T : List Scheme} (hT : checkTable B T = true) :
    ∃ s, findNearest T L = some s ∧ RowFor B L s := by
  cases T with
  | nil => simp [checkTable] at hT
  | cons s rest =>
    unfold checkTable at hT
    simp only [Bool.and_eq_true, beq_iff_eq] at hT
    obtain ⟨⟨h1, h2⟩, h3⟩ := hT
    obtain ⟨h4, h5⟩ := checkRows_sorted rest s.ir h3
    have hs : sortSchemes (s :: rest) = s :: rest := by
      unfold sortSchemes
      apply List.Pairwise.insertionSort_eq
      rw [List.pairwise_cons]
      exact ⟨fun t ht => (h4 t ht).le, h5⟩
    refine ⟨findLoop L s rest, ?_, rowFor_find rest s (Or.inl ⟨h1, Or.inl h2⟩) (fun _ => ⟨h2, h1⟩) h3⟩
    unfold findNearest
    rw [hs]; rfl

theorem goodRest_of_check {B L m : ℕ} {last : Layout} : ∀ (init : List Layout) (off : ℕ),
    checkRest B off (init ++ [last]) = true → off + totalSamples B init < L →
    0 < m → L ≤ off + totalSamples B init + (Layout.mk last.psb m).samples B →
    GoodRest B L off (init ++ [{ last with np := m }])
  | [], off, hc, hr, hm, hL => by
    simp only [List.nil_append] at hc ⊢
    unfold checkRest at hc
    simp only [Bool.and_eq_true, decide_eq_true_eq, List.any_eq_true, List.mem_range, beq_iff_eq] at hc
    obtain ⟨⟨⟨⟨⟨⟨p, _, hp⟩, _⟩, h3⟩, h4⟩, _⟩, _⟩ := hc
    simp only [totalSamples, List.map_nil, List.sum_nil, add_zero] at hr hL
    exact ⟨⟨p+1, by omega, hp⟩, hm, h3, h4, hr, by simp, hL⟩
  | l :: init, off, hc, hr, hm, hL => by
    simp only [List.cons_append] at hc ⊢
    unfold checkRest at hc
    simp only [Bool.and_eq_true, decide_eq_true_eq, List.any_eq_true, List.mem_range, beq_iff_eq] at hc
    obtain ⟨⟨⟨⟨⟨⟨p, _, hp⟩, h2⟩, h3⟩, h4⟩, h5⟩, h6⟩ := hc
    have ht : totalSamples B (l :: init) = l.samples B + totalSamples B init := by
      simp [totalSamples]
    rw [ht] at hr hL
    refine ⟨⟨p+1, by omega, hp⟩, h2, h3, h4, by omega, ?_, ?_⟩
    · intro l' hl'
      cases init with
      | nil =>
        simp only [List.nil_append, List.head?_cons, Option.mem_def, Option.some.injEq] at hl'
        subst hl'
        simpa using h5
      | cons a as =>
        simp only [List.cons_append, List.head?_cons, Option.mem_def, Option.some.injEq] at hl'
        subst hl'
        simpa using h5
    · exact goodRest_of_check init _ h6 (by omega) hm (by omega)

/-- changing only the number of partitions of the last sub convolver -/
def setLast (l : List Layout) (m : ℕ) : List Layout :=
  l.dropLast ++ [{ (l.getLast?).getD ⟨0,0⟩ with np := m }]

/-- what the constructor relies on -/
structure GoodScheme (B L : ℕ) (sch : List Layout) : Prop where
  ex : ∃ n0 rest, sch = ⟨1, n0⟩ :: rest ∧ 0 < n0 ∧ GoodRest B L (n0 * B) rest ∧ (rest = [] ∨ ∃ b, B = 2^b)

theorem totalSamples_append (B : ℕ) (a b : List Layout) :
    totalSamples B (a ++ b) = totalSamples B a + totalSamples B b := by
  simp [totalSamples]

theorem adjust_row {B L : ℕ} (hB : 0 < B) (hB' : B ≤ 2^24) (hB2 : ∃ b, B = 2^b) (hL : 0 < L) (hL' : L ≤ 2^24) {s : Scheme} (h : RowFor B L s) :
    ∃ m, (if s.ir < L then extendLayout s.layout (L - s.ir) B
        else (reduceRev s.layout.reverse (s.ir - L) B).map List.reverse) = some (setLast s.layout m) ∧ 0 < m ∧
      totalSamples B (setLast s.layout m) < L + B * ((s.layout.getLast?).getD ⟨0,0⟩).psb ∧
      ∃ sch, bumpFront (setLast s.layout m) = some sch ∧ GoodScheme B L sch := by
  obtain ⟨hrow, hreach⟩ := h
  unfold checkRow at hrow
  rcases hlay : s.layout with _ | ⟨l, rest⟩
  · rw [hlay] at hrow; simp at hrow
  · rw [hlay] at hrow hreach
    simp only [Bool.and_eq_true, decide_eq_true_eq] at hrow
    obtain ⟨⟨⟨⟨hp1, hnp⟩, htot⟩, hir⟩, hchk⟩ := hrow
    -- the last sub convolver
    obtain ⟨init, last, hlast⟩ : ∃ init last, l :: rest = init ++ [last] :=
      ⟨_, _, (List.dropLast_concat_getLast (List.cons_ne_nil l rest)).symm⟩
    have hgl : (l :: rest).getLast? = some last := by rw [hlast]; simp
    have hdl : (l :: rest).dropLast = init := by rw [hlast]; simp
    have hset : ∀ m, setLast (l :: rest) m = init ++ [{ last with np := m }] := by
      intro m; unfold setLast; rw [hgl, hdl]; rfl
    have htot' : totalSamples B init + last.samples B = s.ir := by
      rw [← htot, hlast, totalSamples_append]; simp [totalSamples]
    rw [hgl] at hreach
    simp only [Option.getD_some] at hreach
    -- the last partition is a positive power of two and its count positive
    have hlastpos : 0 < last.psb ∧ last.psb * B ≤ 2^24 ∧ 0 < last.np := by
      rcases init with _ | ⟨a, as⟩
      · simp only [List.nil_append, List.cons.injEq] at hlast
        rw [← hlast.1, hp1]
        exact ⟨by norm_num, by omega, hnp⟩
      · simp only [List.cons_append, List.cons.injEq] at hlast
        obtain ⟨rfl, hr⟩ := hlast
        rw [hr] at hchk
        have key : ∀ (as : List Layout) (off : ℕ), checkRest B off (as ++ [last]) = true →
            0 < last.psb ∧ last.psb * B ≤ 2^24 ∧ 0 < last.np := by
          intro as
          induction as with
          | nil =>
            intro off hc
            simp only [List.nil_append] at hc
            unfold checkRest at hc
            simp only [Bool.and_eq_true, decide_eq_true_eq, List.any_eq_true, List.mem_range, beq_iff_eq] at hc
            obtain ⟨⟨⟨⟨⟨⟨p, _, hp⟩, h2⟩, h3⟩, h4⟩, _⟩, _⟩ := hc
            exact ⟨by rw [hp]; positivity, h4, h2⟩
          | cons b bs ih =>
            intro off hc
            simp only [List.cons_append] at hc
            unfold checkRest at hc
            simp only [Bool.and_eq_true] at hc
            exact ih _ hc.2
        exact key as _ hchk
    obtain ⟨hpsb, hP24, hlnp⟩ := hlastpos
    have hPpos : 0 < B * last.psb := Nat.mul_pos hB hpsb
    have hPcomm : B * last.psb = last.psb * B := mul_comm _ _
    have hP24' : B * last.psb ≤ 2^24 := by rw [hPcomm]; exact hP24
    have hsamp : ∀ m, (Layout.mk last.psb m).samples B = (B * last.psb) * m := by
      intro m; simp only [Layout.samples]; ring
    have hlsamp : last.samples B = (B * last.psb) * last.np := hsamp last.np
    have hreach' : totalSamples B init < L := by
      rcases hreach with h1 | h1
      · rw [hlast] at h1
        have : init = [] := by
          simp only [List.length_append, List.length_singleton] at h1
          exact List.length_eq_zero_iff.mp (by omega)
        rw [this]; simpa [totalSamples] using hL
      · omega
    -- the final claim from the total length
    have final : ∀ m, 0 < m → L ≤ totalSamples B init + (B * last.psb) * m →
        (1 < (l :: rest).length → totalSamples B init + B < L) →
        ∃ sch, bumpFront (setLast (l :: rest) m) = some sch ∧ GoodScheme B L sch := by
      intro m hm hLm hmore
      rw [hset]
      rcases init with _ | ⟨a, as⟩
      · simp only [List.nil_append, List.cons.injEq] at hlast
        obtain ⟨rfl, rfl⟩ := hlast
        refine ⟨_, rfl, ⟨m+1, [], by simp [hp1], by omega, ?_, Or.inl rfl⟩⟩
        show L ≤ (m+1) * B
        simp only [totalSamples, List.map_nil, List.sum_nil, zero_add, hp1, mul_one] at hLm
        calc L ≤ B * m := hLm
          _ ≤ (m+1) * B := by rw [mul_comm]; exact Nat.mul_le_mul_right _ (by omega)
      · simp only [List.cons_append, List.cons.injEq] at hlast
        obtain ⟨rfl, hr⟩ := hlast
        have hm1 := hmore (by rw [hr]; simp)
        rw [hr] at hchk
        have ht : totalSamples B (l :: as) = l.samples B + totalSamples B as := by simp [totalSamples]
        have hl : l.samples B = l.np * B := by simp [Layout.samples, hp1]
        have hb1 : (l.np + 1) * B = l.np * B + B := by ring
        rw [ht, hl] at hm1 hLm
        refine ⟨_, rfl, ⟨l.np+1, as ++ [{ last with np := m }], by simp [hp1], by omega, ?_, Or.inr hB2⟩⟩
        exact goodRest_of_check as _ hchk (by omega) hm (by rw [hsamp]; omega)
    have htotm : ∀ m, totalSamples B (setLast (l :: rest) m) = totalSamples B init + (B * last.psb) * m := by
      intro m
      rw [hset, totalSamples_append, ← hsamp m]; simp [totalSamples]
    rw [hgl]
    simp only [Option.getD_some]
    have hmore : 1 < (l :: rest).length → totalSamples B init + B < L := by
      intro hlen
      rcases hreach with h1 | h1
      · omega
      · omega
    by_cases hlt : s.ir < L
    · rw [if_pos hlt]
      unfold extendLayout
      rw [hgl]
      simp only
      rw [if_neg (by omega), ceil_fdiv_toNat hPpos (by omega) hP24', hdl]
      refine ⟨last.np + (L - s.ir + B * last.psb - 1) / (B * last.psb), by rw [hset], Nat.add_pos_left hlnp _, ?_, ?_⟩
      · rw [htotm, mul_add, ← hlsamp, ← add_assoc, htot']
        have h1 := Nat.div_add_mod (L - s.ir + B * last.psb - 1) (B * last.psb)
        omega
      refine final _ (Nat.add_pos_left hlnp _) ?_ hmore
      rw [mul_add, ← hlsamp, ← add_assoc, htot']
      have h1 := Nat.div_add_mod (L - s.ir + B * last.psb - 1) (B * last.psb)
      have h2 := Nat.mod_lt (L - s.ir + B * last.psb - 1) hPpos
      omega
    · rw [if_neg hlt]
      have hrev : (l :: rest).reverse = last :: init.reverse := by rw [hlast]; simp
      rw [hrev]
      unfold reduceRev
      rw [if_pos (by omega)]
      simp only
      rw [floor_fdiv_toNat hPpos (by omega) hP24']
      have hdm := Nat.div_add_mod (s.ir - L) (B * last.psb)
      set q := (s.ir - L) / (B * last.psb) with hq
      have hql : (B * last.psb) * q < (B * last.psb) * last.np := by rw [← hlsamp]; omega
      have hqlt : q < last.np := lt_of_mul_lt_mul_left hql (Nat.zero_le _)
      rw [if_pos hqlt.le]
      refine ⟨last.np - q, by rw [hset]; simp, by omega, ?_, ?_⟩
      · have : (B * last.psb) * (last.np - q) = (B * last.psb) * last.np - (B * last.psb) * q := Nat.mul_sub _ _ _
        have h2 := Nat.mod_lt (s.ir - L) hPpos
        rw [htotm, this, ← hlsamp]
        omega
      refine final _ (by omega) ?_ hmore
      have : (B * last.psb) * (last.np - q) = (B * last.psb) * last.np - (B * last.psb) * q := Nat.mul_sub _ _ _
      rw [this, ← hlsamp]
      omega

theorem lookup_mem {α : Type} (B : ℕ) : ∀ (l : List (ℕ × α)) {t : α}, l.lookup B = some t → (B, t) ∈ l
  | [], t, h => by simp at h
  | (a, b) :: l, t, h => by
    rw [List.lookup_cons] at h
    split at h
    · next he =>
      simp only [beq_iff_eq] at he
      rw [Option.some.injEq] at h
      subst he; subst h; simp
    · exact List.mem_cons_of_mem _ (lookup_mem B l h)

/-- everything the constructor needs, for every block size and every length up to `2^24` -/
theorem getPartitionScheme_good {B L : ℕ} (hB : 0 < B) (hB' : B ≤ 2^24) (hL : 0 < L) (hL' : L ≤ 2^24) :
    ∃ sch, getPartitionScheme kGarciaResults B L = some sch ∧ GoodScheme B L sch := by
  unfold getPartitionScheme
  rcases hlk : kGarciaResults.lookup B with _ | T
  · simp only
    rw [if_neg (by omega), ceil_fdiv_toNat hB hL' hB']
    refine ⟨_, rfl, ⟨_, [], rfl, ?_, ?_, Or.inl rfl⟩⟩
    · exact Nat.div_pos (by omega) hB
    · show L ≤ (L + B - 1) / B * B
      have := Nat.div_add_mod (L + B - 1) B
      have := Nat.mod_lt (L + B - 1) hB
      rw [mul_comm]; omega
  · simp only
    have hmem := lookup_mem B _ hlk
    have hall := checkAll_true
    unfold checkAll at hall
    rw [List.all_eq_true] at hall
    have h1 := hall _ hmem
    simp only [Bool.and_eq_true, List.any_eq_true, List.mem_range, beq_iff_eq] at h1
    have hB2 : ∃ b, B = 2^b := by obtain ⟨⟨p, _, hp⟩, _⟩ := h1; exact ⟨p, hp⟩
    obtain ⟨s, e1, hs⟩ := findNearest_rowFor (L := L) h1.2
    obtain ⟨m, e2, hm, _, sch, e3, hg⟩ := adjust_row hB hB' hB2 hL hL' hs
    refine ⟨sch, ?_, hg⟩
    rw [e1]
    simp only [Option.bind_eq_bind, Option.bind_some]
    rw [e2]
    simp only [Option.bind_some]
    exact e3

theorem setLast_last {lay : List Layout} (m : ℕ) : (setLast lay m).getLast? = some ⟨((lay.getLast?).getD ⟨0,0⟩).psb, m⟩ := by
  unfold setLast; simp

/-- the scheme is not longer than needed: one block and less than one partition of its last sub convolver -/
theorem getPartitionScheme_size {B L : ℕ} (hB : 0 < B) (hB' : B ≤ 2^24) (hL : 0 < L) (hL' : L ≤ 2^24) {sch : List Layout}
    (h : getPartitionScheme kGarciaResults B L = some sch) : ∃ last, sch.getLast? = some last ∧ totalSamples B sch < L + B * last.psb + B := by
  unfold getPartitionScheme at h
  rcases hlk : kGarciaResults.lookup B with _ | T
  · rw [hlk] at h
    simp only at h
    rw [if_neg (by omega), ceil_fdiv_toNat hB hL' hB'] at h
    simp only [Option.some.injEq] at h
    subst h
    refine ⟨_, rfl, ?_⟩
    have := Nat.div_add_mod (L + B - 1) B
    simp only [totalSamples, List.map_cons, List.map_nil, List.sum_cons, List.sum_nil, add_zero, Layout.samples, one_mul, mul_one]
    rw [mul_comm] at this
    omega
  · rw [hlk] at h
    simp only at h
    have hmem := lookup_mem B _ hlk
    have hall := checkAll_true
    unfold checkAll at hall
    rw [List.all_eq_true] at hall
    have h1 := hall _ hmem
    simp only [Bool.and_eq_true, List.any_eq_true, List.mem_range, beq_iff_eq] at h1
    have hB2 : ∃ b, B = 2^b := by obtain ⟨⟨p, _, hp⟩, _⟩ := h1; exact ⟨p, hp⟩
    obtain ⟨s, e1, hs⟩ := findNearest_rowFor (L := L) h1.2
    obtain ⟨m, e2, hm, ht, sch', e3, hg⟩ := adjust_row hB hB' hB2 hL hL' hs
    rw [e1] at h
    simp only [Option.bind_eq_bind, Option.bind_some] at h
    rw [e2] at h
    simp only [Option.bind_some] at h
    -- the first sub convolver has partitions of one block
    have hrow := hs.row
    unfold checkRow at hrow
    have hl := setLast_last (lay := s.layout) m
    rcases hlay : s.layout with _ | ⟨l, rest⟩
    · rw [hlay] at hrow; simp at hrow
    rw [hlay] at hrow hl ht h
    simp only [Bool.and_eq_true, decide_eq_true_eq] at hrow
    have hp1 : l.psb = 1 := hrow.1.1.1.1
    have hfront : ∃ n tl, setLast (l :: rest) m = ⟨1, n⟩ :: tl := by
      cases rest with
      | nil => exact ⟨m, [], by simp [setLast, hp1]⟩
      | cons a as => exact ⟨l.np, _, by unfold setLast; rw [List.dropLast_cons_of_ne_nil (by simp), List.cons_append]; congr 1; cases l; simp_all⟩
    obtain ⟨n, tl, htl⟩ := hfront
    rw [htl] at h hl ht
    simp only [bumpFront, Option.some.injEq] at h
    subst h
    have e : totalSamples B (⟨1, n + 1⟩ :: tl) = totalSamples B (⟨1, n⟩ :: tl) + B := by
      simp only [totalSamples, List.map_cons, List.sum_cons, Layout.samples]; ring
    cases tl with
    | nil =>
      simp only [List.getLast?_singleton, Option.some.injEq] at hl
      refine ⟨_, List.getLast?_singleton, ?_⟩
      rw [e]
      have := congrArg Layout.psb hl
      simp only at this
      rw [← this] at ht
      show _ < L + B * 1 + B
      omega
    | cons a as =>
      rw [List.getLast?_cons_cons] at hl
      refine ⟨_, by rw [List.getLast?_cons_cons]; exact hl, ?_⟩
      rw [e]
      simp only
      omega

end Zones.Proofs
