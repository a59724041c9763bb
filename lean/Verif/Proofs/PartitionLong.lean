import Verif.Proofs.Partition
import Verif.Proofs.FloatLong

/-! # The partition scheme of an impulse response longer than `2^24` samples -/

namespace Zones.Proofs
open Zones.Model

theorem findLoop_last {L : ℕ} : ∀ (rest : List Scheme) (prev : Scheme), (∀ s ∈ rest, s.ir ≤ L) →
    (prev :: rest).getLast? = some (findLoop L prev rest)
  | [], prev, _ => rfl
  | s :: rest, prev, h => by
    unfold findLoop
    rw [if_neg (by have := h s (by simp); omega), List.getLast?_cons_cons]
    exact findLoop_last rest s fun t ht => h t (by simp [ht])

theorem checkRows_ir {B : ℕ} : ∀ (rest : List Scheme) (prev : ℕ), checkRows B prev rest = true → ∀ s ∈ rest, s.ir ≤ 2^24
  | [], _, _ => by simp
  | s :: rest, prev, hc => by
    unfold checkRows at hc
    simp only [Bool.and_eq_true] at hc
    obtain ⟨⟨⟨hr, _⟩, _⟩, hrest⟩ := hc
    intro t ht
    rcases List.mem_cons.mp ht with rfl | ht
    · unfold checkRow at hr
      split at hr
      · simp at hr
      · simp only [Bool.and_eq_true, decide_eq_true_eq] at hr
        exact hr.1.2
    · exact checkRows_ir rest _ hrest t ht

/-- the largest scheme of every table has several parts, and the last one long partitions -/
def checkLast : Bool := kGarciaResults.all fun e =>
  match e.2.getLast? with
  | none => false
  | some s => decide (1 < s.layout.length) && decide (2^7 ≤ ((s.layout.getLast?).getD ⟨0,0⟩).psb * e.1)

theorem checkLast_true : checkLast = true := by decide +kernel

/-- the scheme of a long impulse response: the parts before the last, the last one (`m` partitions of `2^p` blocks at offset
`off`), and what is left over -/
structure LongScheme (B L : ℕ) (sch : List Layout) (n0 : ℕ) (as : List Layout) (p m : ℕ) : Prop where
  eq : sch = ⟨1, n0⟩ :: (as ++ [⟨2^p, m⟩])
  pow : ∃ b, B = 2^b ∧ 7 ≤ b + p ∧ b + p ≤ 24
  hp : 1 ≤ p
  hn0 : 0 < n0
  hm : 0 < m
  check : ∃ np, checkRest B (n0 * B) (as ++ [⟨2^p, np⟩]) = true
  reach : n0 * B + totalSamples B as ≤ 2^24
  left : (L - (n0 * B + totalSamples B as + m * (2^p * B))) * 2^24 ≤ L
  over : n0 * B + totalSamples B as + m * (2^p * B) < L + 2^p * B + B

theorem getPartitionScheme_long {B L : ℕ} {T : List Scheme} (hT : kGarciaResults.lookup B = some T) (hB : 0 < B)
    (hBm : B ≤ 2048) (hL : 2^24 < L) (hL' : L < 2^31) :
    ∃ sch n0 as p m, getPartitionScheme kGarciaResults B L = some sch ∧ LongScheme B L sch n0 as p m := by
  have hmem := lookup_mem B _ hT
  have hall := checkAll_true
  unfold checkAll at hall
  rw [List.all_eq_true] at hall
  have h1 := hall _ hmem
  simp only [Bool.and_eq_true, List.any_eq_true, List.mem_range, beq_iff_eq] at h1
  obtain ⟨⟨b, _, hb⟩, h1⟩ := h1
  have hall2 := checkLast_true
  unfold checkLast at hall2
  rw [List.all_eq_true] at hall2
  have h2 := hall2 _ hmem
  simp only at h2
  obtain ⟨s, e1, hs⟩ := findNearest_rowFor (L := L) h1
  have hlast : T.getLast? = some s := by
    cases T with
    | nil => simp [checkTable] at h1
    | cons s0 rest =>
      unfold checkTable at h1
      simp only [Bool.and_eq_true, beq_iff_eq] at h1
      obtain ⟨⟨_, _⟩, h3⟩ := h1
      obtain ⟨h4, h5⟩ := checkRows_sorted rest s0.ir h3
      have hsort : sortSchemes (s0 :: rest) = s0 :: rest := by
        unfold sortSchemes
        apply List.Pairwise.insertionSort_eq
        rw [List.pairwise_cons]
        exact ⟨fun t ht => (h4 t ht).le, h5⟩
      unfold findNearest at e1
      rw [hsort] at e1
      rw [← e1]
      exact findLoop_last rest s0 fun t ht => (checkRows_ir rest _ h3 t ht).trans hL.le
  rw [hlast] at h2
  simp only [Bool.and_eq_true, decide_eq_true_eq] at h2
  obtain ⟨hlen, h7⟩ := h2
  obtain ⟨hrow, _⟩ := hs
  unfold checkRow at hrow
  rcases hlay : s.layout with _ | ⟨l, rest⟩
  · rw [hlay] at hlen; simp at hlen
  rw [hlay] at hrow hlen h7
  simp only [Bool.and_eq_true, decide_eq_true_eq] at hrow
  obtain ⟨⟨⟨⟨hp1, hnp⟩, htot⟩, hir⟩, hchk⟩ := hrow
  have hrne : rest ≠ [] := by rintro rfl; simp at hlen
  obtain ⟨as, last, hr⟩ : ∃ as last, rest = as ++ [last] := ⟨_, _, (List.dropLast_concat_getLast hrne).symm⟩
  subst hr
  have hgl : (l :: (as ++ [last])).getLast? = some last := by rw [← List.cons_append]; exact List.getLast?_concat
  have hdl : (l :: (as ++ [last])).dropLast = l :: as := by rw [← List.cons_append]; exact List.dropLast_concat
  rw [hgl] at h7
  simp only [Option.getD_some] at h7
  have key : ∀ (as : List Layout) (off : ℕ), checkRest B off (as ++ [last]) = true →
      (∃ p, 1 ≤ p ∧ last.psb = 2^p) ∧ last.psb * B ≤ 2^24 ∧ 0 < last.np := by
    intro as
    induction as with
    | nil =>
      intro off hc
      simp only [List.nil_append] at hc
      unfold checkRest at hc
      simp only [Bool.and_eq_true, decide_eq_true_eq, List.any_eq_true, List.mem_range, beq_iff_eq] at hc
      obtain ⟨⟨⟨⟨⟨⟨p, _, hp⟩, h2⟩, h3⟩, h4⟩, _⟩, _⟩ := hc
      exact ⟨⟨p+1, by omega, hp⟩, h4, h2⟩
    | cons b bs ih =>
      intro off hc
      simp only [List.cons_append] at hc
      unfold checkRest at hc
      simp only [Bool.and_eq_true] at hc
      exact ih _ hc.2
  obtain ⟨⟨p, hp, hpsb⟩, h24, hlnp⟩ := key as _ hchk
  have hPe : 2^p * B = 2^(b+p) := by rw [hb, ← pow_add, add_comm]
  rw [hpsb, hPe] at h7 h24
  have hk7 : 7 ≤ b + p := (Nat.pow_le_pow_iff_right (by norm_num)).mp h7
  have hk24 : b + p ≤ 24 := (Nat.pow_le_pow_iff_right (by norm_num)).mp h24
  have hl : l.samples B = l.np * B := by simp [Layout.samples, hp1]
  have hls : last.samples B = last.np * (2^p * B) := by simp only [Layout.samples, hpsb]; ring
  have htot' : l.np * B + totalSamples B as + last.np * (2^p * B) = s.ir := by
    rw [← htot, ← hls, ← hl]; simp [totalSamples]; ring
  have hslt : s.ir < L := by omega
  set A := numPartitionsFor (2^(b+p)) (L - s.ir) with hA
  obtain ⟨hA1, hA2⟩ := numPartitionsFor_long (S := L - s.ir) hk7 hk24 (by omega)
  rw [← hA] at hA1 hA2
  have hb1 : (l.np + 1) * B = l.np * B + B := by ring
  have hm1 : (last.np + A) * (2^p * B) = last.np * (2^p * B) + A * (2^p * B) := by ring
  have hP0 : 0 < 2^(b+p) := by positivity
  have hA3 : A * 2^(b+p) < L - s.ir + 2^(b+p) := by
    have h3 := Nat.div_add_mod (L - s.ir + 2^(b+p) - 1) (2^(b+p))
    have h4 : A * 2^(b+p) ≤ (L - s.ir + 2^(b+p) - 1) / 2^(b+p) * 2^(b+p) := Nat.mul_le_mul_right _ hA1
    rw [mul_comm] at h3
    omega
  refine ⟨_, l.np + 1, as, p, last.np + A, ?_, ⟨rfl, ⟨b, hb, hk7, hk24⟩, hp, by omega, by omega, ⟨last.np, ?_⟩, ?_, ?_, ?_⟩⟩
  · unfold getPartitionScheme
    rw [hT]
    simp only [Option.bind_eq_bind]
    rw [e1]
    simp only [Option.bind_some]
    rw [if_pos hslt]
    unfold extendLayout
    rw [hlay, hgl]
    have hPe' : B * last.psb = 2^(b+p) := by rw [hpsb, mul_comm, hPe]
    simp only [hPe']
    rw [if_neg (by omega), hdl]
    simp only [Option.bind_some]
    show bumpFront (l :: as ++ [{ last with np := last.np + A }]) = _
    simp only [List.cons_append, bumpFront, hp1, hpsb]
  · rw [← hpsb]; exact hchk
  · have h6 : 1 * (2 * B) ≤ last.np * (2^p * B) :=
      Nat.mul_le_mul hlnp (Nat.mul_le_mul_right _ (by
        calc 2 = 2^1 := rfl
          _ ≤ 2^p := Nat.pow_le_pow_right (by norm_num) hp))
    rw [hb1]; omega
  · rw [hm1, hb1, hPe]
    rw [hPe] at htot'
    have h5 : L - (l.np * B + B + totalSamples B as + (last.np * 2^(b+p) + A * 2^(b+p))) ≤ L - s.ir - A * 2^(b+p) := by
      clear hA2; omega
    calc _ ≤ (L - s.ir - A * 2^(b+p)) * 2^24 := Nat.mul_le_mul_right _ h5
      _ ≤ L - s.ir := hA2
      _ ≤ L := Nat.sub_le _ _
  · rw [hm1, hb1, hPe]
    rw [hPe] at htot'
    omega

end Zones.Proofs
