import Verif.Model.Ints
import Verif.Proofs.PartitionLong

/-!
# No `int` overflow in the construction
-/

namespace Zones.Proofs
open Zones.Model

/-- `ck` accepts the values of a 32 bit `int` -/
def FitsInt (ck : ℤ → Option ℤ) : Prop := ∀ x, -2^31 ≤ x → x < 2^31 → ck x = some x

theorem fits_int32 : FitsInt int32 := fun x h1 h2 => by unfold int32; rw [if_pos ⟨h1, h2⟩]

theorem fits_some : FitsInt some := fun _ _ _ => rfl

theorem ceil_fdiv_int {a b : ℕ} (hb : 0 < b) (ha : a ≤ 2^24) (hb' : b ≤ 2^24) :
    ⌈fdiv a b⌉ = (((a + b - 1) / b : ℕ) : ℤ) := by
  rw [← ceil_fdiv_toNat hb ha hb', Int.toNat_of_nonneg]
  rw [ceil_fdiv hb ha hb']
  exact Int.ceil_nonneg (by positivity)

theorem floor_fdiv_int {a b : ℕ} (hb : 0 < b) (ha : a ≤ 2^24) (hb' : b ≤ 2^24) :
    ⌊fdiv a b⌋ = ((a / b : ℕ) : ℤ) := by
  rw [← floor_fdiv_toNat hb ha hb', Int.toNat_of_nonneg]
  rw [floor_fdiv hb ha hb']
  exact Int.floor_nonneg.mpr (by positivity)

/-- what a row of a table gives for each of its sub convolvers -/
structure SmallLayout (B : ℕ) (l : Layout) : Prop where
  psb : 0 < l.psb
  np : 0 < l.np
  part : l.psb * B ≤ 2^24
  size : l.samples B ≤ 2^24

theorem SmallLayout.pn {B : ℕ} (hB : 0 < B) {l : Layout} (h : SmallLayout B l) : l.psb * l.np ≤ 2^24 :=
  le_trans (Nat.le_mul_of_pos_right _ hB) h.size

theorem SmallLayout.np_le {B : ℕ} (hB : 0 < B) {l : Layout} (h : SmallLayout B l) : l.np ≤ 2^24 :=
  le_trans (Nat.le_mul_of_pos_left _ h.psb) (h.pn hB)

theorem small_of_total {B : ℕ} {lay : List Layout} {t : ℕ} (h : totalSamples B lay ≤ t) {l : Layout} (hl : l ∈ lay) :
    l.samples B ≤ t := by
  refine le_trans ?_ h
  clear h
  induction lay with
  | nil => simp at hl
  | cons a as ih =>
    simp only [totalSamples, List.map_cons, List.sum_cons]
    rcases List.mem_cons.mp hl with rfl | hl
    · omega
    · have := ih hl
      unfold totalSamples at this
      omega

theorem checkRest_mem {B : ℕ} : ∀ (rest : List Layout) (off : ℕ), checkRest B off rest = true →
    ∀ l ∈ rest, 0 < l.psb ∧ 0 < l.np ∧ l.psb * B ≤ 2^24
  | [], _, _, _, h => by simp at h
  | a :: rest, off, hc, l, hl => by
    unfold checkRest at hc
    simp only [Bool.and_eq_true, decide_eq_true_eq, List.any_eq_true, List.mem_range, beq_iff_eq] at hc
    obtain ⟨⟨⟨⟨⟨⟨p, _, hp⟩, h2⟩, h3⟩, h4⟩, _⟩, h5⟩ := hc
    rcases List.mem_cons.mp hl with rfl | hl
    · exact ⟨by rw [hp]; positivity, h2, h4⟩
    · exact checkRest_mem rest _ h5 l hl

theorem checkRow_small {B : ℕ} (hB' : B ≤ 2^24) {s : Scheme} (h : checkRow B s = true) :
    s.ir ≤ 2^24 ∧ ∀ l ∈ s.layout, SmallLayout B l := by
  unfold checkRow at h
  rcases hlay : s.layout with _ | ⟨l, rest⟩
  · rw [hlay] at h; simp at h
  rw [hlay] at h
  simp only [Bool.and_eq_true, decide_eq_true_eq] at h
  obtain ⟨⟨⟨⟨hp1, hnp⟩, htot⟩, hir⟩, hchk⟩ := h
  refine ⟨hir, fun a ha => ?_⟩
  have hs := small_of_total (B := B) (t := 2^24) (by omega) ha
  rcases List.mem_cons.mp ha with rfl | ha
  · exact ⟨by omega, hnp, by rw [hp1]; omega, hs⟩
  · obtain ⟨h1, h2, h3⟩ := checkRest_mem rest _ hchk a ha
    exact ⟨h1, h2, h3, hs⟩

theorem checkRows_small {B : ℕ} (hB' : B ≤ 2^24) : ∀ (rest : List Scheme) (prev : ℕ), checkRows B prev rest = true →
    ∀ s ∈ rest, s.ir ≤ 2^24
  | [], _, _, _, h => by simp at h
  | a :: rest, prev, hc, s, hs => by
    unfold checkRows at hc
    simp only [Bool.and_eq_true] at hc
    rcases List.mem_cons.mp hs with rfl | hs
    · exact (checkRow_small hB' hc.1.1.1).1
    · exact checkRows_small hB' rest _ hc.2 s hs

theorem ints_samples {ck : ℤ → Option ℤ} (hck : FitsInt ck) {B : ℕ} {l : Layout} (h1 : l.psb * l.np < 2^31)
    (h2 : l.samples B < 2^31) : Ints.samples ck l B = some (l.samples B : ℤ) := by
  unfold Ints.samples
  rw [show ((l.psb:ℤ) * l.np) = ((l.psb * l.np : ℕ) : ℤ) by push_cast; rfl, hck _ (by omega) (by omega)]
  simp only [Option.bind_eq_bind, Option.bind_some]
  rw [show (((l.psb * l.np : ℕ) : ℤ) * (B:ℤ)) = ((l.samples B : ℕ) : ℤ) by unfold Layout.samples; push_cast; rfl,
    hck _ (by omega) (by omega)]

theorem ints_findLoop {ck : ℤ → Option ℤ} (hck : FitsInt ck) {L : ℕ} (hL : L ≤ 2^30) : ∀ (rest : List Scheme) (prev : Scheme),
    prev.ir ≤ 2^24 → (∀ s ∈ rest, s.ir ≤ 2^24) → Ints.findLoop ck L prev rest = some (findLoop L prev rest)
  | [], _, _, _ => rfl
  | s :: rest, prev, hp, hr => by
    have hs := hr s (List.mem_cons_self ..)
    unfold Ints.findLoop findLoop
    by_cases h : L < s.ir
    · rw [if_pos (by omega), if_pos h, hck _ (by omega) (by omega)]
      simp only [Option.bind_eq_bind, Option.bind_some]
      rw [Int.abs_eq_natAbs, hck _ (by omega) (by omega)]
      simp only [Option.bind_some]
      rw [hck _ (by omega) (by omega)]
      simp only [Option.bind_some]
      rw [Int.abs_eq_natAbs, hck _ (by omega) (by omega)]
      simp only [Option.bind_some, Option.pure_def, Nat.cast_lt]
    · rw [if_neg (by omega), if_neg h]
      exact ints_findLoop hck hL rest s hs (fun t ht => hr t (List.mem_cons_of_mem _ ht))

theorem ints_findNearest {ck : ℤ → Option ℤ} (hck : FitsInt ck) {B L : ℕ} (hB' : B ≤ 2^24) (hL : L ≤ 2^30) {T : List Scheme}
    (hT : checkTable B T = true) : Ints.findNearest ck T L = findNearest T L := by
  cases T with
  | nil => simp [checkTable] at hT
  | cons s rest =>
    unfold checkTable at hT
    simp only [Bool.and_eq_true, beq_iff_eq] at hT
    obtain ⟨⟨h1, h2⟩, h3⟩ := hT
    obtain ⟨h4, h5⟩ := checkRows_sorted rest s.ir h3
    have hs : sortSchemes (s :: rest) = s :: rest := by
      unfold sortSchemes
      apply List.Pairwise.insertionSort_eq
      rw [List.pairwise_cons]
      exact ⟨fun t ht => (h4 t ht).le, h5⟩
    unfold Ints.findNearest findNearest
    rw [hs]
    simp only [findInSorted]
    exact ints_findLoop hck hL rest s (checkRow_small hB' h1).1 (checkRows_small hB' rest _ h3)

/-- a quotient rounded up that fits: the partitions do not reach further than one partition beyond the end -/
def CeilOk (S P : ℕ) : Prop := ∃ q : ℕ, ⌈fdiv S P⌉ = q ∧ q * P ≤ S + P

theorem ceilOk_small {S P : ℕ} (hP : 0 < P) (hS : S ≤ 2^24) (hP' : P ≤ 2^24) : CeilOk S P := by
  refine ⟨(S + P - 1) / P, ceil_fdiv_int hP hS hP', ?_⟩
  have := Nat.div_mul_le_self (S + P - 1) P
  omega

theorem ceilOk_long {S k : ℕ} (hk7 : 7 ≤ k) (hk : k ≤ 24) (h : S < 2^31) : CeilOk S (2^k) := by
  refine ⟨numPartitionsFor (2^k) S, ?_, ?_⟩
  · unfold numPartitionsFor
    rw [Int.toNat_of_nonneg]
    rw [fdiv_pow hk h]
    apply Int.ceil_nonneg
    rcases Nat.eq_zero_or_pos S with h0 | h0
    · subst h0; simp [f32]
    · obtain ⟨j, _, _, hm0, _, e⟩ := f32_len h0 h
      rw [e]
      have h1 : (0:ℚ) ≤ (roundEven ((S:ℚ) / (2:ℚ)^j) : ℚ) := by exact_mod_cast hm0
      have h2 : (0:ℚ) < (2:ℚ)^j := zpow_pos (by norm_num) _
      positivity
  · have h1 := (numPartitionsFor_long hk7 hk h).1
    have h2 := Nat.div_mul_le_self (S + 2^k - 1) (2^k)
    have h3 : numPartitionsFor (2^k) S * 2^k ≤ (S + 2^k - 1) / 2^k * 2^k := Nat.mul_le_mul_right _ h1
    exact h3.trans (h2.trans (Nat.sub_le _ _))

theorem ints_extend {ck : ℤ → Option ℤ} (hck : FitsInt ck) {B d : ℕ} (hB : 0 < B) (hd : d ≤ 2^30) {lay : List Layout}
    (hlay : ∀ l ∈ lay, SmallLayout B l) (hc : ∀ l ∈ lay.getLast?, CeilOk d (B * l.psb)) :
    Ints.extend ck lay d B = extendLayout lay d B := by
  unfold Ints.extend extendLayout
  rcases hl : lay.getLast? with _ | last
  · rfl
  have hs := hlay last (List.mem_of_getLast? hl)
  have hpos : 0 < B * last.psb := Nat.mul_pos hB hs.psb
  have hle : B * last.psb ≤ 2^24 := by rw [mul_comm]; exact hs.part
  have hnp := hs.np_le hB
  obtain ⟨q, eq, hq⟩ := hc last hl
  have hk : q ≤ q * (B * last.psb) := Nat.le_mul_of_pos_right _ hpos
  simp only
  rw [show ((B:ℤ) * last.psb) = ((B * last.psb : ℕ) : ℤ) by push_cast; rfl, hck _ (by omega) (by omega)]
  simp only [Option.bind_eq_bind, Option.bind_some]
  rw [if_neg (by omega), if_neg (by omega), eq]
  rw [hck _ (by omega) (by omega)]
  simp only [Option.bind_some]
  rw [hck _ (by omega) (by omega)]
  simp only [Option.bind_some, Option.pure_def, Int.toNat_natCast]
  rw [← Nat.cast_add, Int.toNat_natCast]

theorem ints_reduce {ck : ℤ → Option ℤ} (hck : FitsInt ck) {B : ℕ} (hB : 0 < B) : ∀ (lay : List Layout) (d : ℤ),
    d.natAbs ≤ 2^24 → (∀ l ∈ lay, SmallLayout B l) → Ints.reduceRev ck lay d B = reduceRev lay d.natAbs B
  | [], _, _, _ => rfl
  | last :: front, d, hd, hlay => by
    have hs := hlay last (List.mem_cons_self ..)
    have hpos : 0 < B * last.psb := Nat.mul_pos hB hs.psb
    have hle : B * last.psb ≤ 2^24 := by rw [mul_comm]; exact hs.part
    have hnp := hs.np_le hB
    have hpn := hs.pn hB
    have hsz := hs.size
    unfold Ints.reduceRev reduceRev
    rw [Int.abs_eq_natAbs, hck _ (by omega) (by omega)]
    simp only [Option.bind_eq_bind, Option.bind_some]
    rw [ints_samples hck (by omega) (by omega)]
    simp only [Option.bind_some]
    by_cases h : last.samples B > d.natAbs
    · rw [if_pos (by omega), if_pos h,
        show ((B:ℤ) * last.psb) = ((B * last.psb : ℕ) : ℤ) by push_cast; rfl, hck _ (by omega) (by omega)]
      simp only [Option.bind_some]
      have hk : d.natAbs / (B * last.psb) ≤ 2^24 := le_trans (Nat.div_le_self _ _) hd
      rw [floor_fdiv_int hpos hd hle]
      generalize d.natAbs / (B * last.psb) = q at hk ⊢
      rw [hck _ (by omega) (by omega)]
      simp only [Option.bind_some, Int.toNat_natCast]
      rw [hck _ (by omega) (by omega)]
      simp only [Option.bind_some]
      by_cases h2 : q ≤ last.np
      · rw [if_pos (by omega), if_pos h2, Option.pure_def]
        congr 3
        omega
      · rw [if_neg (by omega), if_neg h2]
    · rw [if_neg (by omega), if_neg h, hck _ (by omega) (by omega)]
      simp only [Option.bind_some]
      rw [ints_reduce hck hB front _ (by omega) (fun l hl => hlay l (List.mem_cons_of_mem _ hl))]
      congr 1
      omega

theorem ints_bump {ck : ℤ → Option ℤ} (hck : FitsInt ck) {lay : List Layout} (h : ∀ l ∈ lay, l.np < 2^31 - 1) :
    Ints.bump ck lay = bumpFront lay := by
  cases lay with
  | nil => rfl
  | cons l rest =>
    have := h l (List.mem_cons_self ..)
    show (ck (l.np + 1)).bind _ = _
    rw [hck _ (by omega) (by omega)]
    rfl

/-- sizes in a layout of known total length -/
theorem np_le_total {B : ℕ} (hB : 0 < B) {lay : List Layout} {t : ℕ} (h : totalSamples B lay ≤ t) {l : Layout} (hl : l ∈ lay)
    (hp : 0 < l.psb) : l.np ≤ t := by
  have h1 := small_of_total h hl
  have h2 : l.np ≤ l.samples B := by
    unfold Layout.samples
    calc l.np ≤ l.psb * l.np := Nat.le_mul_of_pos_left _ hp
      _ ≤ _ := Nat.le_mul_of_pos_right _ hB
  omega

/-- the `int` version of the scheme is the scheme -/
theorem ints_scheme {ck : ℤ → Option ℤ} (hck : FitsInt ck) {B L : ℕ} (hB : 0 < B) (hB' : B ≤ 2^24) (hL : 0 < L) (hL' : L ≤ 2^24) :
    Ints.scheme ck kGarciaResults B L = getPartitionScheme kGarciaResults B L := by
  unfold Ints.scheme getPartitionScheme
  rcases hlk : kGarciaResults.lookup B with _ | T
  · simp only
    have hk : (L + B - 1) / B ≤ 2^25 := le_trans (Nat.div_le_self _ _) (by omega)
    rw [if_neg (by omega), if_neg (by omega), ceil_fdiv_int hB hL' hB']
    generalize (L + B - 1) / B = q at hk ⊢
    rw [hck _ (by omega) (by omega)]
    rfl
  · simp only
    have hmem := lookup_mem B _ hlk
    have hall := checkAll_true
    unfold checkAll at hall
    rw [List.all_eq_true] at hall
    have h1 := hall _ hmem
    simp only [Bool.and_eq_true, List.any_eq_true, List.mem_range, beq_iff_eq] at h1
    have hB2 : ∃ b, B = 2^b := by obtain ⟨⟨p, _, hp⟩, _⟩ := h1; exact ⟨p, hp⟩
    obtain ⟨s, e1, hs⟩ := findNearest_rowFor (L := L) h1.2
    obtain ⟨m, e2, hm, ht, sch', e3, hg⟩ := adjust_row hB hB' hB2 hL hL' hs
    obtain ⟨hir, hsmall⟩ := checkRow_small hB' hs.row
    rw [ints_findNearest hck hB' (by omega) h1.2, e1]
    simp only [Option.bind_eq_bind, Option.bind_some]
    rw [hck _ (by omega) (by omega)]
    simp only [Option.bind_some]
    have e : (if ((L:ℤ) - s.ir) > 0 then Ints.extend ck s.layout ((L:ℤ) - s.ir) B
        else (Ints.reduceRev ck s.layout.reverse ((L:ℤ) - s.ir) B).map List.reverse) =
        (if s.ir < L then extendLayout s.layout (L - s.ir) B
        else (reduceRev s.layout.reverse (s.ir - L) B).map List.reverse) := by
      by_cases h : s.ir < L
      · rw [if_pos (by omega), if_pos h, ← Nat.cast_sub h.le, ints_extend hck hB (by omega) hsmall (fun l hl => by
          have h6 := hsmall l (List.mem_of_getLast? hl)
          exact ceilOk_small (Nat.mul_pos hB h6.psb) (by omega) (by rw [mul_comm]; exact h6.part))]
      · rw [if_neg (by omega), if_neg h, ints_reduce hck hB _ _ (by omega) (fun l hl => hsmall l (List.mem_reverse.mp hl))]
        congr 2
        omega
    rw [e, e2]
    simp only [Option.bind_some]
    refine ints_bump hck fun l hl => ?_
    have hnl : s.layout ≠ [] := by
      intro h0
      have := hs.row
      unfold checkRow at this
      rw [h0] at this
      simp at this
    have hlast : ((s.layout.getLast?).getD ⟨0,0⟩) ∈ s.layout := by
      rw [List.getLast?_eq_some_getLast hnl]; exact List.getLast_mem hnl
    have hsl := hsmall _ hlast
    have hpos : 0 < l.psb := by
      unfold setLast at hl
      rcases List.mem_append.mp hl with hl | hl
      · exact (hsmall l (List.dropLast_subset _ hl)).psb
      · simp only [List.mem_singleton] at hl
        rw [hl]; exact hsl.psb
    have hpart := hsl.part
    rw [mul_comm] at hpart
    have := np_le_total hB (t := 2^25) (by omega) hl hpos
    omega

theorem ints_cuts {ck : ℤ → Option ℤ} (hck : FitsInt ck) {P S : ℕ} (hS : S ≤ 2^30) : ∀ n : ℕ, n * P ≤ 2^30 + 2^26 →
    Ints.cuts ck P S n = Ints.cuts some P S n
  | 0, _ => rfl
  | n + 1, h => by
    have h' : n * P ≤ 2^30 + 2^26 := le_trans (Nat.mul_le_mul_right _ (by omega)) h
    unfold Ints.cuts
    rw [ints_cuts hck hS n h']
    rw [show ((n:ℤ) * P) = ((n * P : ℕ) : ℤ) by push_cast; rfl, hck _ (by omega) (by omega)]
    simp only [Option.bind_eq_bind, Option.bind_some]
    rw [hck _ (by omega) (by omega)]
    rfl

theorem cuts_isSome {P S : ℤ} : ∀ n : ℕ, (Ints.cuts some P S n).isSome
  | 0 => rfl
  | n + 1 => by
    unfold Ints.cuts
    obtain ⟨tl, e⟩ := Option.isSome_iff_exists.mp (cuts_isSome (P := P) (S := S) n)
    rw [e]; rfl

theorem ceil_mul_le {a b : ℕ} : (a + b - 1) / b * b ≤ a + b := by
  have := Nat.div_mul_le_self (a + b - 1) b
  omega

theorem ints_uniform {ck : ℤ → Option ℤ} (hck : FitsInt ck) {P S : ℕ} (hP : 0 < P) (hP' : P ≤ 2^24) (hS : S ≤ 2^24) :
    Ints.uniform ck P S = Ints.uniform some P S ∧ (Ints.uniform some P S).isSome := by
  have hcl : 2 ^ Nat.clog 2 (P * 2) ≤ 2^25 :=
    Nat.pow_le_pow_right (by norm_num) (Nat.clog_le_of_le_pow (by omega))
  have hk : (S + P - 1) / P ≤ 2^25 := le_trans (Nat.div_le_self _ _) (by omega)
  have hm := ceil_mul_le (a := S) (b := P)
  have h0 : (2:ℤ) ^ Nat.clog 2 (P * 2) = ((2 ^ Nat.clog 2 (P * 2) : ℕ) : ℤ) := by push_cast; rfl
  unfold Ints.uniform Ints.numPartitions
  rw [show ((P:ℤ) * 2) = ((P * 2 : ℕ) : ℤ) by push_cast; rfl, hck _ (by omega) (by omega)]
  simp only [Option.bind_eq_bind, Option.bind_some, Int.toNat_natCast]
  rw [h0]
  generalize 2 ^ Nat.clog 2 (P * 2) = f at hcl ⊢
  rw [hck _ (by omega) (by omega)]
  simp only [Option.bind_some]
  rw [hck _ (by omega) (by omega)]
  simp only [Option.bind_some]
  rw [ceil_fdiv_int hP hS hP']
  generalize (S + P - 1) / P = q at hk hm ⊢
  rw [hck _ (by omega) (by omega)]
  simp only [Option.bind_some, Int.toNat_natCast]
  rw [ints_cuts hck (by omega) _ (by omega)]
  refine ⟨rfl, ?_⟩
  obtain ⟨tl, e⟩ := Option.isSome_iff_exists.mp (cuts_isSome (P := P) (S := S) q)
  rw [e]; rfl

theorem ints_subs_of {ck : ℤ → Option ℤ} (hck : FitsInt ck) {B L : ℕ} (hB : 0 < B) (hB' : B ≤ 2^24) (hL : L ≤ 2^30) :
    ∀ (rest : List Layout) (off : ℕ), (∀ l ∈ rest, 0 < l.psb ∧ 0 < l.np ∧ l.psb * B ≤ 2^24) →
      off + totalSamples B rest ≤ 2^30 + 2^26 →
      (∀ pre l post, rest = pre ++ l :: post → off + totalSamples B pre < L ∧
        CeilOk (min (l.samples B) (L - (off + totalSamples B pre))) (l.psb * B)) →
      Ints.subs ck B L off rest = Ints.subs some B L off rest ∧ (Ints.subs some B L off rest).isSome
  | [], _, _, _, _ => ⟨rfl, rfl⟩
  | l :: rest, off, hl, ht, hin => by
    obtain ⟨hp, hn, hP⟩ := hl l (List.mem_cons_self ..)
    have ht' : totalSamples B (l :: rest) = l.samples B + totalSamples B rest := by simp [totalSamples]
    rw [ht'] at ht
    obtain ⟨hoff, q, eq, hm⟩ : off < L ∧ CeilOk (min (l.samples B) (L - off)) (l.psb * B) := by
      simpa [totalSamples] using hin [] l rest rfl
    have hpn : l.psb * l.np ≤ l.samples B := Nat.le_mul_of_pos_right _ hB
    have hPpos : 0 < l.psb * B := Nat.mul_pos hp hB
    obtain ⟨ih1, ih2⟩ := ints_subs_of hck hB hB' hL rest (off + l.samples B)
      (fun a ha => hl a (List.mem_cons_of_mem _ ha)) (by omega) (fun pre a post e => by
        have := hin (l :: pre) a post (by rw [e]; rfl)
        have e2 : totalSamples B (l :: pre) = l.samples B + totalSamples B pre := by simp [totalSamples]
        rw [e2, ← Nat.add_assoc] at this
        exact this)
    have hmin : min ((l.samples B : ℕ) : ℤ) ((L:ℤ) - off) = ((min (l.samples B) (L - off) : ℕ) : ℤ) := by omega
    have hk : q ≤ q * (l.psb * B) := Nat.le_mul_of_pos_right _ hPpos
    unfold Ints.subs Ints.numPartitions
    rw [ints_samples hck (by omega) (by omega), ints_samples fits_some (by omega) (by omega)]
    simp only [Option.bind_eq_bind, Option.bind_some]
    rw [hck _ (by omega) (by omega)]
    simp only [Option.bind_some]
    rw [show ((l.psb:ℤ) * B) = ((l.psb * B : ℕ) : ℤ) by push_cast; rfl, hck _ (by omega) (by omega)]
    simp only [Option.bind_some]
    rw [hck _ (by omega) (by omega)]
    simp only [Option.bind_some]
    rw [hmin, eq]
    rw [hck _ (by omega) (by omega)]
    simp only [Option.bind_some, Int.toNat_natCast]
    rw [ints_cuts hck (by omega) _ (by omega)]
    obtain ⟨c, ec⟩ := Option.isSome_iff_exists.mp (cuts_isSome (P := ((l.psb * B : ℕ):ℤ)) (S := ((min (l.samples B) (L - off) : ℕ) : ℤ)) q)
    rw [ec]
    simp only [Option.bind_some]
    rw [hck _ (by omega) (by omega)]
    simp only [Option.bind_some]
    rw [hck _ (by omega) (by omega)]
    simp only [Option.bind_some]
    rw [hck _ (by omega) (by omega)]
    simp only [Option.bind_some]
    rw [← Nat.cast_add, ih1]
    refine ⟨rfl, ?_⟩
    obtain ⟨tl, et⟩ := Option.isSome_iff_exists.mp ih2
    rw [et]; rfl

theorem ints_subs {ck : ℤ → Option ℤ} (hck : FitsInt ck) {B L : ℕ} (hB : 0 < B) (hB' : B ≤ 2^24) (hL : L ≤ 2^24)
    (rest : List Layout) (off : ℕ) (hl : ∀ l ∈ rest, 0 < l.psb ∧ 0 < l.np ∧ l.psb * B ≤ 2^24)
    (ht : off + totalSamples B rest ≤ 2^26)
    (hin : ∀ pre l post, rest = pre ++ l :: post → off + totalSamples B pre < L) :
      Ints.subs ck B L off rest = Ints.subs some B L off rest ∧ (Ints.subs some B L off rest).isSome := by
  refine ints_subs_of hck hB hB' (by omega) rest off hl (by omega) fun pre l post e => ⟨hin pre l post e, ?_⟩
  have hm := hl l (by rw [e]; simp)
  exact ceilOk_small (Nat.mul_pos hm.1 hB) (by omega) hm.2.2

theorem goodRest_mem {B L : ℕ} : ∀ (rest : List Layout) (off : ℕ), GoodRest B L off rest →
    (∀ l ∈ rest, 0 < l.psb ∧ 0 < l.np ∧ l.psb * B ≤ 2^24) ∧
      (∀ pre l post, rest = pre ++ l :: post → off + totalSamples B pre < L)
  | [], _, _ => by simp
  | l :: rest, off, h => by
    obtain ⟨⟨p, _, hp⟩, h2, h3, h4, h5, h6, h7⟩ := h
    obtain ⟨i1, i2⟩ := goodRest_mem rest _ h7
    refine ⟨fun a ha => ?_, fun pre a post e => ?_⟩
    · rcases List.mem_cons.mp ha with rfl | ha
      · exact ⟨by rw [hp]; positivity, h2, h4⟩
      · exact i1 a ha
    · cases pre with
      | nil => simpa [totalSamples] using h5
      | cons b pre =>
        simp only [List.cons_append, List.cons.injEq] at e
        obtain ⟨rfl, e⟩ := e
        have := i2 pre a post e
        simp only [totalSamples, List.map_cons, List.sum_cons] at this ⊢
        omega

/-- everything after the choice of the scheme -/
theorem ints_after {B L : ℕ} (hB : 0 < B) (hB' : B ≤ 2^24) (hL' : L ≤ 2^24) {n0 : ℕ} {rest : List Layout} (hn0 : 0 < n0)
    (hg : GoodRest B L (n0 * B) rest) (ht : n0 * B + totalSamples B rest ≤ 2^26) {ck : ℤ → Option ℤ} (hck : FitsInt ck) :
    (Ints.uniform ck B ((min (n0 * B) L : ℕ) : ℤ) = Ints.uniform some B ((min (n0 * B) L : ℕ) : ℤ) ∧
      (Ints.uniform some B ((min (n0 * B) L : ℕ) : ℤ)).isSome) ∧
    (Ints.subs ck B L ((min (n0 * B) L : ℕ) : ℤ) rest = Ints.subs some B L ((min (n0 * B) L : ℕ) : ℤ) rest ∧
      (Ints.subs some B L ((min (n0 * B) L : ℕ) : ℤ) rest).isSome) := by
  obtain ⟨hm, hin⟩ := goodRest_mem rest _ hg
  refine ⟨ints_uniform hck (P := B) (S := min (n0 * B) L) hB hB' (by omega), ?_⟩
  cases rest with
  | nil => exact ⟨by simp only [Ints.subs], by simp only [Ints.subs, Option.isSome_some]⟩
  | cons l rest =>
    have hlt : n0 * B < L := by simpa [totalSamples] using hin [] l rest rfl
    rw [min_eq_left hlt.le]
    exact ints_subs hck hB hB' hL' (l :: rest) (n0 * B) hm ht hin

/-- total length of a returned scheme -/
theorem scheme_total {B L : ℕ} (hB : 0 < B) (hB' : B ≤ 2^24) (hL : 0 < L) (hL' : L ≤ 2^24) {n0 : ℕ} {rest : List Layout}
    (e : getPartitionScheme kGarciaResults B L = some (⟨1, n0⟩ :: rest)) (hg : GoodRest B L (n0 * B) rest) :
    n0 * B + totalSamples B rest ≤ 2^26 := by
  obtain ⟨last, hlast, htot⟩ := getPartitionScheme_size hB hB' hL hL' e
  obtain ⟨hm, hin⟩ := goodRest_mem rest _ hg
  have hlp : B * last.psb ≤ 2^24 := by
    rw [List.getLast?_cons] at hlast
    have : last = ⟨1, n0⟩ ∨ last ∈ rest := by
      rcases hr : rest.getLast? with _ | z
      · rw [hr] at hlast; simp at hlast; exact Or.inl hlast.symm
      · rw [hr] at hlast; simp at hlast; subst hlast; exact Or.inr (List.mem_of_getLast? hr)
    rcases this with rfl | h
    · simpa using hB'
    · rw [mul_comm]; exact (hm last h).2.2
  have ht : totalSamples B (⟨1, n0⟩ :: rest) = n0 * B + totalSamples B rest := by simp [totalSamples, Layout.samples]
  omega

/-- `construct` from its parts -/
theorem construct_of {ck : ℤ → Option ℤ} {B L : ℕ} {front : Layout} {rest : List Layout} {a : ℤ} {u : Ints.UniformSizes}
    {s : List Ints.SubSizes} (h1 : Ints.scheme ck kGarciaResults B L = some (front :: rest))
    (h2 : Ints.samples ck front B = some a) (h3 : Ints.uniform ck B (min a (L : ℤ)) = some u)
    (h4 : Ints.subs ck B L (min a (L : ℤ)) rest = some s) : Ints.construct ck B L = some (u, s) := by
  unfold Ints.construct
  rw [h1]
  simp only [Option.bind_eq_bind, Option.bind_some, h2, h3, h4, Option.pure_def]

/-- the whole construction: machine `int`s give what unbounded numbers give -/
theorem ints_construct {B L : ℕ} (hB : 0 < B) (hB' : B ≤ 2^24) (hL : 0 < L) (hL' : L ≤ 2^24) :
    ∃ r, Ints.construct int32 B L = some r ∧ Ints.construct some B L = some r := by
  obtain ⟨sch, e, ⟨n0, rest, rfl, hn0, hg, _⟩⟩ := getPartitionScheme_good hB hB' hL hL'
  have ht := scheme_total hB hB' hL hL' e hg
  have hs0 : (Layout.mk 1 n0).samples B = n0 * B := by simp [Layout.samples]
  have hn0le : n0 ≤ n0 * B := Nat.le_mul_of_pos_right _ hB
  obtain ⟨⟨u1, u2⟩, s1, s2⟩ := ints_after hB hB' hL' hn0 hg ht fits_int32
  obtain ⟨u, eu⟩ := Option.isSome_iff_exists.mp u2
  obtain ⟨t, et⟩ := Option.isSome_iff_exists.mp s2
  rw [eu] at u1
  rw [et] at s1
  rw [Nat.cast_min] at u1 s1 eu et
  have hq : (Layout.mk 1 n0).psb * (Layout.mk 1 n0).np < 2^31 := by
    show 1 * n0 < _
    omega
  have hq2 : (Layout.mk 1 n0).samples B < 2^31 := by omega
  have a1 := ints_samples fits_int32 hq hq2
  have a2 := ints_samples fits_some hq hq2
  rw [hs0] at a1 a2
  exact ⟨(u, t), construct_of ((ints_scheme fits_int32 hB hB' hL hL').trans e) a1 u1 s1,
    construct_of ((ints_scheme fits_some hB hB' hL hL').trans e) a2 eu et⟩

/-! ## Long impulse responses -/

theorem long_last {B L : ℕ} {T : List Scheme} (hT : kGarciaResults.lookup B = some T) (hB : 0 < B) (hBm : B ≤ 2048)
    (hL : 2^24 < L) (hL' : L < 2^31) : ∃ s last k, findNearest T L = some s ∧ s.layout.getLast? = some last ∧
      checkRow B s = true ∧ B * last.psb = 2^k ∧ 7 ≤ k ∧ k ≤ 24 ∧ s.ir < L := by
  obtain ⟨sch, n0, as, p, m, e, hs⟩ := getPartitionScheme_long hT hB hBm hL hL'
  obtain ⟨heq, ⟨b, hb, h7, h24⟩, _⟩ := hs
  have h1 := checkAll_true
  unfold checkAll at h1
  rw [List.all_eq_true] at h1
  have h1 := h1 _ (lookup_mem B _ hT)
  simp only [Bool.and_eq_true] at h1
  obtain ⟨s, e1, hrow, _⟩ := findNearest_rowFor (L := L) h1.2
  obtain ⟨hir, hsmall⟩ := checkRow_small (by omega) hrow
  unfold getPartitionScheme at e
  rw [hT] at e
  simp only [Option.bind_eq_bind, e1, Option.bind_some] at e
  rw [if_pos (by omega)] at e
  unfold extendLayout at e
  rcases hl : s.layout.getLast? with _ | last
  · rw [hl] at e; cases e
  · rw [hl] at e
    simp only at e
    split at e
    · cases e
    · simp only [Option.bind_some] at e
      have hlen : sch.getLast? = some ⟨2^p, m⟩ := by
        rw [heq, ← List.cons_append]; exact List.getLast?_concat
      refine ⟨s, last, b + p, e1, hl, hrow, ?_, h7, h24, by omega⟩
      have hp : last.psb = 2^p := by
        cases hd : s.layout.dropLast with
        | nil =>
          rw [hd] at e
          simp only [List.nil_append, bumpFront, Option.some.injEq] at e
          rw [← e] at hlen
          simp only [List.getLast?_singleton, Option.some.injEq, Layout.mk.injEq] at hlen
          exact hlen.1
        | cons a t =>
          rw [hd] at e
          simp only [List.cons_append, bumpFront, Option.some.injEq] at e
          rw [← e, ← List.cons_append, List.getLast?_concat] at hlen
          simp only [Option.some.injEq, Layout.mk.injEq] at hlen
          exact hlen.1
      rw [hp, hb, ← pow_add]

theorem ints_scheme_long {ck : ℤ → Option ℤ} (hck : FitsInt ck) {B L : ℕ} {T : List Scheme}
    (hT : kGarciaResults.lookup B = some T) (hB : 0 < B) (hBm : B ≤ 2048) (hL : 2^24 < L) (hL' : L ≤ 2^30) :
    Ints.scheme ck kGarciaResults B L = getPartitionScheme kGarciaResults B L := by
  obtain ⟨s, last, k, e1, hlast, hrow, hk, h7, h24, hlt⟩ := long_last hT hB hBm hL (by omega)
  obtain ⟨hir, hsmall⟩ := checkRow_small (by omega) hrow
  have h1 := checkAll_true
  unfold checkAll at h1
  rw [List.all_eq_true] at h1
  have h1 := h1 _ (lookup_mem B _ hT)
  simp only [Bool.and_eq_true] at h1
  unfold Ints.scheme getPartitionScheme
  rw [hT]
  simp only [Option.bind_eq_bind]
  rw [ints_findNearest hck (by omega) hL' h1.2, e1]
  simp only [Option.bind_some]
  rw [hck _ (by omega) (by omega)]
  simp only [Option.bind_some]
  have hceil : CeilOk (L - s.ir) (B * last.psb) := by
    rw [hk]; exact ceilOk_long h7 h24 (by omega)
  rw [if_pos (by omega), if_pos hlt, ← Nat.cast_sub hlt.le, ints_extend hck hB (by omega) hsmall (fun l hl => by
    rw [hlast] at hl
    have : last = l := by simpa using hl
    rw [← this]; exact hceil)]
  unfold extendLayout
  rw [hlast]
  have hs := hsmall last (List.mem_of_getLast? hlast)
  have hpos : 0 < B * last.psb := Nat.mul_pos hB hs.psb
  simp only
  rw [if_neg (by omega)]
  simp only [Option.bind_some]
  obtain ⟨q, eq, hq⟩ := hceil
  have hq' : q ≤ q * (B * last.psb) := Nat.le_mul_of_pos_right _ hpos
  have hP : B * last.psb ≤ 2^24 := by rw [mul_comm]; exact hs.part
  refine ints_bump hck fun l hl => ?_
  rcases List.mem_append.mp hl with hl | hl
  · have := (hsmall l (List.dropLast_subset _ hl)).np_le hB
    omega
  · simp only [List.mem_singleton] at hl
    have := hs.np_le hB
    rw [hl, eq]
    simp only [Int.toNat_natCast]
    omega

theorem ints_construct_long {B L : ℕ} {T : List Scheme}
    (hT : kGarciaResults.lookup B = some T) (hB : 0 < B) (hBm : B ≤ 2048) (hL : 2^24 < L) (hL' : L ≤ 2^30) :
    ∃ r, Ints.construct int32 B L = some r ∧ Ints.construct some B L = some r := by
  obtain ⟨sch, n0, as, p, m, e, hs⟩ := getPartitionScheme_long hT hB hBm hL (by omega)
  obtain ⟨rfl, ⟨b, hb, h7, h24⟩, hp, hn0, hm, ⟨np, hchk⟩, hreach, _, hover⟩ := hs
  have hP : 2^p * B = 2^(b+p) := by rw [hb, ← pow_add, add_comm]
  have hPle : 2^(b+p) ≤ 2^24 := Nat.pow_le_pow_right (by norm_num) h24
  have hP0 : 0 < 2^(b+p) := by positivity
  rw [hP] at hover
  have hs0 : (Layout.mk 1 n0).samples B = n0 * B := by simp [Layout.samples]
  have hs' : (Layout.mk (2^p) m).samples B = m * 2^(b+p) := by
    simp only [Layout.samples]; rw [← hP]; ring
  have hn0le : n0 ≤ n0 * B := Nat.le_mul_of_pos_right _ hB
  have hmin : min (n0 * B) L = n0 * B := min_eq_left (by omega)
  have hmem : ∀ l ∈ as ++ [⟨2^p, m⟩], 0 < l.psb ∧ 0 < l.np ∧ l.psb * B ≤ 2^24 := by
    intro l hl
    rcases List.mem_append.mp hl with hl | hl
    · exact checkRest_mem _ _ hchk l (List.mem_append_left _ hl)
    · simp only [List.mem_singleton] at hl
      rw [hl]
      exact ⟨by positivity, hm, by show 2^p * B ≤ _; rw [hP]; exact hPle⟩
  have htot : totalSamples B (as ++ [⟨2^p, m⟩]) = totalSamples B as + m * 2^(b+p) := by
    rw [totalSamples_append, ← hs']; simp [totalSamples]
  have hin : ∀ pre l post, as ++ [⟨2^p, m⟩] = pre ++ l :: post → n0 * B + totalSamples B pre < L ∧
      CeilOk (min (l.samples B) (L - (n0 * B + totalSamples B pre))) (l.psb * B) := by
    intro pre l post e
    have hl := hmem l (by rw [e]; simp)
    rcases List.eq_nil_or_concat post with rfl | ⟨post', z, rfl⟩
    · have h1 : as = pre ∧ (⟨2^p, m⟩ : Layout) = l := by
        have := List.append_inj' e rfl
        exact ⟨this.1, by simpa using this.2⟩
      obtain ⟨rfl, rfl⟩ := h1
      refine ⟨by omega, ?_⟩
      show CeilOk _ (2^p * B)
      rw [hP]
      exact ceilOk_long h7 h24 (by omega)
    · have h1 : as = pre ++ l :: post' := by
        have h2 : as ++ [(⟨2^p, m⟩ : Layout)] = (pre ++ l :: post') ++ [z] := by
          rw [e]; simp
        exact (List.append_inj' h2 rfl).1
      have h3 : totalSamples B as = totalSamples B pre + (l.samples B + totalSamples B post') := by
        rw [h1, totalSamples_append]; simp [totalSamples]
      refine ⟨by omega, ceilOk_small (Nat.mul_pos hl.1 hB) (by omega) hl.2.2⟩
  obtain ⟨u1, u2⟩ := ints_uniform fits_int32 hB (show B ≤ 2^24 by omega) (show n0 * B ≤ 2^24 by omega)
  obtain ⟨s1, s2⟩ := ints_subs_of fits_int32 hB (by omega) hL' (as ++ [⟨2^p, m⟩]) (n0 * B) hmem (by rw [htot]; omega) hin
  obtain ⟨u, eu⟩ := Option.isSome_iff_exists.mp u2
  obtain ⟨t, et⟩ := Option.isSome_iff_exists.mp s2
  rw [eu] at u1
  rw [et] at s1
  have hq : (Layout.mk 1 n0).psb * (Layout.mk 1 n0).np < 2^31 := by
    show 1 * n0 < _
    omega
  have hq2 : (Layout.mk 1 n0).samples B < 2^31 := by omega
  have a1 := ints_samples fits_int32 hq hq2
  have a2 := ints_samples fits_some hq hq2
  rw [hs0] at a1 a2
  have hmin' : min ((n0 * B : ℕ) : ℤ) (L : ℤ) = ((n0 * B : ℕ) : ℤ) := by rw [← Nat.cast_min, hmin]
  exact ⟨(u, t), construct_of ((ints_scheme_long fits_int32 hT hB hBm hL hL').trans e) a1 (by rw [hmin']; exact u1) (by rw [hmin']; exact s1),
    construct_of ((ints_scheme_long fits_some hT hB hBm hL hL').trans e) a2 (by rw [hmin']; exact eu) (by rw [hmin']; exact et)⟩

end Zones.Proofs
