import Verif.Proofs.Ints
import Verif.Model.NUPC
import Verif.Props.Partition

/-!
# C65 and C66: the size of a scheme, and no overflow in the arithmetic of the construction
-/

open Zones.Spec Zones.Model Zones.Proofs

namespace Zones.Props

theorem totalSamples_covered (B : ℕ) : ∀ l : List Layout, totalSamples B l = covered B l
  | [] => rfl
  | a :: l => by
    have := totalSamples_covered B l
    simp only [totalSamples, List.map_cons, List.sum_cons, covered] at this ⊢
    rw [this, samples_eq]

/-- **C65.** A returned scheme is not wasteful: it covers less than the impulse response plus one block plus one partition
of its last sub convolver. So without the extra block added for the time distribution and without the last partition it
would no longer cover the impulse response. -/
theorem C65_scheme_is_not_wasteful {B L : ℕ} (hB : 0 < B) (hB' : B ≤ 2^24) (hL : 0 < L) (hL' : L ≤ 2^24) :
    ∃ scheme last, getPartitionScheme kGarciaResults B L = some scheme ∧ scheme.getLast? = some last ∧
      covered B scheme < L + last.psb * B + B := by
  obtain ⟨sch, e, _⟩ := getPartitionScheme_good hB hB' hL hL'
  obtain ⟨last, hl, ht⟩ := getPartitionScheme_size hB hB' hL hL' e
  refine ⟨sch, last, e, hl, ?_⟩
  rw [← totalSamples_covered, mul_comm last.psb]
  exact ht

example : ∃ scheme last, getPartitionScheme kGarciaResults 256 1000000 = some scheme ∧ scheme.getLast? = some last ∧
    covered 256 scheme < 1000000 + last.psb * 256 + 256 :=
  C65_scheme_is_not_wasteful (by norm_num) (by norm_num) (by norm_num) (by norm_num)

theorem subs_delays {B nch : ℕ} {ir : Buf} {tail0 : ℕ → ℕ → ℕ → ℕ → ℝ} : ∀ (rest : List Layout) (off i : ℕ)
    {r : List SubConv} {t : List Ints.SubSizes}, NUPC.buildSubs B nch ir tail0 off i rest = some r →
    Ints.subs some B ir.n off rest = some t → t.map (·.delay) = r.map fun c => (c.delay : ℤ)
  | [], _, _, r, t, h1, h2 => by
    simp only [NUPC.buildSubs, Ints.subs, Option.some.injEq] at h1 h2
    subst h1; subst h2; rfl
  | l :: rest, off, i, r, t, h1, h2 => by
    unfold NUPC.buildSubs at h1
    simp only at h1
    split at h1
    · simp only [bind, Option.bind_eq_some_iff] at h1
      obtain ⟨seg, _, td, _, h1⟩ := h1
      split at h1
      · next hle =>
        simp only [Option.bind_eq_some_iff, pure, Option.some.injEq] at h1
        obtain ⟨tl, e1, rfl⟩ := h1
        unfold Ints.subs Ints.samples at h2
        simp only [bind, Option.bind_some, Option.bind_eq_some_iff, pure, Option.some.injEq] at h2
        obtain ⟨n, _, parts, _, tl2, e2, rfl⟩ := h2
        have hs : ((off:ℤ) + (l.psb:ℤ) * l.np * B) = ((off + l.samples B : ℕ) : ℤ) := by
          unfold Layout.samples; push_cast; rfl
        rw [hs] at e2
        simp only [List.map_cons, subs_delays rest _ _ e1 e2, List.cons.injEq, and_true]
        push_cast [Nat.cast_sub hle]
        ring
      · cases h1
    · cases h1

theorem cuts_length {P S : ℤ} : ∀ {n : ℕ} {l : List (ℤ × ℤ)}, Ints.cuts some P S n = some l → l.length = n
  | 0, l, h => by simp only [Ints.cuts, Option.some.injEq] at h; subst h; rfl
  | n + 1, l, h => by
    unfold Ints.cuts at h
    simp only [bind, Option.bind_some, Option.bind_eq_some_iff, pure, Option.some.injEq] at h
    obtain ⟨tl, e, rfl⟩ := h
    simp [cuts_length e]

/-- the values of unbounded arithmetic are those of the convolver -/
theorem ints_values {B L : ℕ} (hB : 0 < B) (hL : 0 < L) (hsch' : Ints.scheme some kGarciaResults B L = getPartitionScheme kGarciaResults B L)
    {u : Ints.UniformSizes} {t : List Ints.SubSizes} (e2 : Ints.construct some B L = some (u, t)) :
    ∀ (F : RealFFT) (nch : ℕ) (ir : Buf) (g : Garbage) (s : NUPC), ir.n = L → NUPC.create F B nch ir g = some s →
        u.fftSize = s.upc.fftSize ∧ u.discard = s.upc.discard ∧ u.parts.length = s.upc.numFilters ∧
        t.map (·.delay) = s.subs.map fun c => (c.delay : ℤ) := by
  rintro F nch ir g s rfl hc
  unfold NUPC.create at hc
  rw [if_pos hL] at hc
  unfold Ints.construct at e2
  rw [hsch'] at e2
  rcases hsch : getPartitionScheme kGarciaResults B ir.n with _ | sch
  · rw [hsch] at hc; cases hc
  rw [hsch] at hc e2
  simp only [Option.bind_eq_bind, Option.bind_some] at hc e2
  cases sch with
  | nil => cases hc
  | cons front rest =>
    unfold NUPC.ofScheme at hc
    simp only [Option.bind_eq_bind, Option.bind_eq_some_iff, pure, Option.some.injEq] at hc e2
    obtain ⟨seg, es, upc, eu, subs, eb, rfl⟩ := hc
    obtain ⟨a, ea, u', eu', t', et', h⟩ := e2
    obtain ⟨rfl, rfl⟩ := h
    have ha : a = (front.samples B : ℤ) := by
      unfold Ints.samples at ea
      simp only [bind, Option.bind_some, Option.some.injEq] at ea
      rw [← ea]; unfold Layout.samples; push_cast; rfl
    subst ha
    rw [← Nat.cast_min] at eu' et'
    have hd := subs_delays rest _ _ eb et'
    have hn : seg.n = min (front.samples B) ir.n := by
      unfold Buf.sub at es
      split at es
      · cases es; rfl
      · cases es
    unfold UPC.create at eu
    rw [if_neg (by omega)] at eu
    simp only [bind, Option.bind_eq_some_iff, pure, Option.some.injEq] at eu
    obtain ⟨filters, _, rfl⟩ := eu
    unfold Ints.uniform Ints.numPartitions at eu'
    simp only [bind, Option.bind_some, Option.bind_eq_some_iff, pure, Option.some.injEq] at eu'
    obtain ⟨parts, ep, rfl⟩ := eu'
    have htn : ((B:ℤ) * 2).toNat = B * 2 := by omega
    have hpow : B ≤ 2 ^ Nat.clog 2 (B * 2) := le_trans (by omega) (Nat.le_pow_clog (by norm_num) (B * 2))
    refine ⟨?_, ?_, ?_, ?_⟩
    · simp only [NUPC.reset, UPC.reset, fftOrder, htn, Nat.cast_pow, Nat.cast_ofNat]
    · simp only [NUPC.reset, UPC.reset, fftOrder, htn]
      rw [Nat.cast_sub hpow]
      push_cast
      rfl
    · rw [cuts_length ep]
      simp only [NUPC.reset, UPC.reset, numPartitionsFor, hn]
    · rw [hd]
      simp only [NUPC.reset, List.map_map]
      rfl

/-- **C66.** For every block size and impulse response length up to `2^24`, all the `int` arithmetic of building a convolver
(`GetPartitionScheme`, and the sizes, offsets and delays computed by the three convolver classes from the scheme) stays in
the range of a 32 bit `int`: evaluated with machine `int`s, where an overflow is undefined, it is defined and gives the
values of unbounded arithmetic. Those are the values the other theorems are about: the scheme, the FFT size and number of
samples to discard of the uniform convolver, and the delays of the sub convolvers. -/
theorem C66_no_int_overflow {B L : ℕ} (hB : 0 < B) (hB' : B ≤ 2^24) (hL : 0 < L) (hL' : L ≤ 2^24) :
    Ints.scheme int32 kGarciaResults B L = getPartitionScheme kGarciaResults B L ∧
    ∃ u subs, Ints.construct int32 B L = some (u, subs) ∧ Ints.construct some B L = some (u, subs) ∧
      ∀ (F : RealFFT) (nch : ℕ) (ir : Buf) (g : Garbage) (s : NUPC), ir.n = L → NUPC.create F B nch ir g = some s →
        u.fftSize = s.upc.fftSize ∧ u.discard = s.upc.discard ∧ u.parts.length = s.upc.numFilters ∧
        subs.map (·.delay) = s.subs.map fun c => (c.delay : ℤ) := by
  refine ⟨ints_scheme fits_int32 hB hB' hL hL', ?_⟩
  obtain ⟨⟨u, t⟩, e1, e2⟩ := ints_construct hB hB' hL hL'
  exact ⟨u, t, e1, e2, ints_values hB hL (ints_scheme fits_some hB hB' hL hL') e2⟩

/-- The samples from `start` on, `len` of them. -/
def span (start len : ℤ) : List ℤ := (List.range len.toNat).map fun k : ℕ => start + (k : ℤ)

theorem span_nat (a n : ℕ) : span (a : ℤ) (n : ℤ) = (List.range' a n).map fun k : ℕ => (k : ℤ) := by
  unfold span
  rw [List.range'_eq_map_range, List.map_map, Int.toNat_natCast]
  apply List.map_congr_left
  intro k _
  simp

theorem span_append (a m n : ℕ) : span (a : ℤ) (m : ℤ) ++ span ((a + m : ℕ) : ℤ) (n : ℤ) = span (a : ℤ) ((m + n : ℕ) : ℤ) := by
  rw [span_nat, span_nat, span_nat, ← List.map_append, List.range'_append_1]

theorem cuts_spans {P S : ℕ} (hP : 0 < P) (a : ℕ) : ∀ {n : ℕ} {l : List (ℤ × ℤ)}, (n - 1) * P < S → Ints.cuts some P S n = some l →
    (l.flatMap fun p => span (a + p.1) p.2) = span a ((min (n * P) S : ℕ) : ℤ) ∧ ∀ p ∈ l, 0 < p.2 ∧ p.2 ≤ P
  | 0, l, _, h => by
    simp only [Ints.cuts, Option.some.injEq] at h
    subst h
    simp [span]
  | n + 1, l, hn, h => by
    unfold Ints.cuts at h
    simp only [bind, Option.bind_some, Option.bind_eq_some_iff, pure, Option.some.injEq] at h
    obtain ⟨tl, e, rfl⟩ := h
    simp only [Nat.add_sub_cancel] at hn
    have hn' : (n - 1) * P < S := lt_of_le_of_lt (Nat.mul_le_mul_right _ (by omega)) hn
    obtain ⟨ih1, ih2⟩ := cuts_spans hP a hn' e
    have hd : min (P:ℤ) ((S:ℤ) - (n:ℤ) * P) = ((min P (S - n * P) : ℕ) : ℤ) := by
      have : ((n:ℤ) * P) = ((n * P : ℕ) : ℤ) := by push_cast; rfl
      rw [this]; omega
    constructor
    · rw [List.flatMap_append, ih1, hd]
      simp only [List.flatMap_cons, List.flatMap_nil, List.append_nil]
      rw [min_eq_left hn.le, show ((a:ℤ) + (n:ℤ) * P) = ((a + n * P : ℕ) : ℤ) by push_cast; rfl, span_append]
      congr 2
      rw [Nat.succ_mul]
      omega
    · intro p hp
      rcases List.mem_append.mp hp with hp | hp
      · exact ih2 p hp
      · rw [List.mem_singleton] at hp
        subst hp
        simp only [hd]
        omega

theorem ceil_covers {S P : ℕ} (hP : 0 < P) (hS : 0 < S) :
    ((S + P - 1) / P - 1) * P < S ∧ S ≤ (S + P - 1) / P * P := by
  have h1 := Nat.div_add_mod (S + P - 1) P
  have h2 := Nat.mod_lt (S + P - 1) hP
  rw [mul_comm] at h1
  have h3 : 0 < (S + P - 1) / P := Nat.div_pos (by omega) hP
  have h4 := Nat.sub_mul ((S + P - 1) / P) 1 P
  rw [one_mul] at h4
  omega

theorem subs_spans {B L : ℕ} (hB : 0 < B) (hL' : L ≤ 2^24) : ∀ (rest : List Layout) (off : ℕ) {t : List Ints.SubSizes},
    GoodRest B L off rest → off ≤ L → Ints.subs some B L off rest = some t →
    (t.flatMap fun c => c.parts.flatMap fun p => span (c.start + p.1) p.2) = span off ((L - off : ℕ) : ℤ) ∧
      ∀ c ∈ t, c.fftSize = 2 * c.partitionSize ∧ ∀ p ∈ c.parts, 0 < p.2 ∧ p.2 ≤ c.partitionSize
  | [], off, t, hg, ho, h => by
    simp only [Ints.subs, Option.some.injEq] at h
    subst h
    have : L ≤ off := hg
    rw [show L - off = 0 by omega]
    simp [span]
  | l :: rest, off, t, hg, ho, h => by
    obtain ⟨⟨p, _, hp⟩, hn, _, hP', hoff, _, hg'⟩ := hg
    have hpp : 0 < l.psb := by rw [hp]; positivity
    have hP : 0 < l.psb * B := Nat.mul_pos hpp hB
    have hs : ((l.psb:ℤ) * l.np * B) = ((l.samples B : ℕ) : ℤ) := by unfold Layout.samples; push_cast; rfl
    have hmin : min ((l.samples B : ℕ) : ℤ) ((L:ℤ) - off) = ((min (l.samples B) (L - off) : ℕ) : ℤ) := by omega
    have hpb : ((l.psb:ℤ) * B) = ((l.psb * B : ℕ) : ℤ) := by push_cast; rfl
    have hspos : 0 < l.samples B := Nat.mul_pos (Nat.mul_pos hpp hn) hB
    unfold Ints.subs Ints.samples Ints.numPartitions at h
    simp only [bind, Option.bind_some, Option.bind_eq_some_iff, pure, Option.some.injEq, hs, hmin, hpb] at h
    obtain ⟨parts, ep, tl, et, rfl⟩ := h
    rw [ceil_fdiv_int hP (by omega) hP', Int.toNat_natCast] at ep
    obtain ⟨hc1, hc2⟩ := ceil_covers (S := min (l.samples B) (L - off)) hP (by omega)
    obtain ⟨c1, c2⟩ := cuts_spans hP off hc1 ep
    rw [min_eq_right hc2] at c1
    rw [← Nat.cast_add] at et
    by_cases hle : off + l.samples B ≤ L
    · obtain ⟨i1, i2⟩ := subs_spans hB hL' rest _ hg' hle et
      refine ⟨?_, ?_⟩
      · rw [List.flatMap_cons, i1, c1, min_eq_left (by omega), span_append]
        congr 2
        omega
      · intro c hc
        rcases List.mem_cons.mp hc with rfl | hc
        · exact ⟨rfl, c2⟩
        · exact i2 c hc
    · have : rest = [] := by
        cases rest with
        | nil => rfl
        | cons a as => obtain ⟨_, _, _, _, h5, _⟩ := hg'; omega
      subst this
      simp only [Ints.subs, Option.some.injEq] at et
      subst et
      refine ⟨?_, ?_⟩
      · rw [List.flatMap_cons, List.flatMap_nil, List.append_nil, c1, min_eq_right (by omega)]
      · intro c hc
        rw [List.mem_singleton] at hc
        subst hc
        exact ⟨rfl, c2⟩

/-- **C66, the cut of the impulse response.** The ranges of samples the convolvers copy into their filter partitions, as
computed with machine `int`s, taken in order (first the partitions of the uniform convolver, then those of each sub
convolver), are the samples `0, 1, …, L-1` of the impulse response: each is copied exactly once, none is skipped and nothing
is read past its end. Each range is non-empty and fits in a partition, and an FFT holds two partitions. -/
theorem C66_every_sample_once {B L : ℕ} (hB : 0 < B) (hB' : B ≤ 2^24) (hL : 0 < L) (hL' : L ≤ 2^24) :
    ∃ u subs, Ints.construct int32 B L = some (u, subs) ∧
      (u.parts.flatMap fun p => span p.1 p.2) ++
        (subs.flatMap fun c => c.parts.flatMap fun p => span (c.start + p.1) p.2) = (List.range L).map (fun k : ℕ => (k : ℤ)) ∧
      (∀ p ∈ u.parts, 0 < p.2 ∧ p.2 ≤ B) ∧ 2 * B ≤ u.fftSize ∧
      ∀ c ∈ subs, c.fftSize = 2 * c.partitionSize ∧ ∀ p ∈ c.parts, 0 < p.2 ∧ p.2 ≤ c.partitionSize := by
  obtain ⟨⟨u, t⟩, e1, e2⟩ := ints_construct hB hB' hL hL'
  refine ⟨u, t, e1, ?_⟩
  obtain ⟨sch, e, ⟨n0, rest, rfl, hn0, hg, _⟩⟩ := getPartitionScheme_good hB hB' hL hL'
  unfold Ints.construct at e2
  rw [ints_scheme fits_some hB hB' hL hL', e] at e2
  have hs : ((1:ℕ):ℤ) * n0 * B = ((n0 * B : ℕ) : ℤ) := by push_cast; ring
  simp only [Option.bind_eq_bind, Option.bind_some, Option.bind_eq_some_iff, pure, Option.some.injEq, Ints.samples, hs,
    ← Nat.cast_min] at e2
  obtain ⟨u', eu, t', et, h⟩ := e2
  obtain ⟨rfl, rfl⟩ := h
  have hpos : 0 < n0 * B := Nat.mul_pos hn0 hB
  unfold Ints.uniform Ints.numPartitions at eu
  simp only [bind, Option.bind_some, Option.bind_eq_some_iff, pure, Option.some.injEq] at eu
  obtain ⟨parts, ep, rfl⟩ := eu
  rw [ceil_fdiv_int hB (by omega) hB', Int.toNat_natCast] at ep
  obtain ⟨hc1, hc2⟩ := ceil_covers (S := min (n0 * B) L) hB (by omega)
  obtain ⟨c1, c2⟩ := cuts_spans hB 0 hc1 ep
  rw [min_eq_right hc2] at c1
  simp only [Nat.cast_zero, zero_add] at c1
  have hfft : (2:ℤ) * B ≤ 2 ^ Nat.clog 2 ((B:ℤ) * 2).toNat := by
    rw [show ((B:ℤ) * 2).toNat = B * 2 by omega]
    have := Nat.le_pow_clog (b := 2) (by norm_num) (B * 2)
    have h2 : ((B * 2 : ℕ) : ℤ) ≤ ((2 ^ Nat.clog 2 (B * 2) : ℕ) : ℤ) := by exact_mod_cast this
    push_cast at h2
    linarith
  have htail : (t.flatMap fun c => c.parts.flatMap fun p => span (c.start + p.1) p.2) =
      span ((min (n0 * B) L : ℕ) : ℤ) ((L - min (n0 * B) L : ℕ) : ℤ) ∧
      ∀ c ∈ t, c.fftSize = 2 * c.partitionSize ∧ ∀ p ∈ c.parts, 0 < p.2 ∧ p.2 ≤ c.partitionSize := by
    by_cases hle : n0 * B ≤ L
    · rw [min_eq_left hle] at et ⊢
      exact subs_spans hB hL' rest _ hg hle et
    · have : rest = [] := by
        cases rest with
        | nil => rfl
        | cons a as => obtain ⟨_, _, _, _, h5, _⟩ := hg; omega
      subst this
      simp only [Ints.subs, Option.some.injEq] at et
      subst et
      rw [min_eq_right (by omega), Nat.sub_self]
      simp [span]
  refine ⟨?_, c2, hfft, htail.2⟩
  rw [c1, htail.1]
  have := span_append 0 (min (n0 * B) L) (L - min (n0 * B) L)
  rw [zero_add, Nat.cast_zero] at this
  rw [this, show min (n0 * B) L + (L - min (n0 * B) L) = L by omega]
  unfold span
  simp

/-- Beyond the machine range the same arithmetic is undefined: a block size of `2^30` makes `partition_size_ * 2`
overflow. -/
theorem C66_overflow_is_reported (S : ℤ) : Ints.uniform int32 (2^30) S = none := by
  unfold Ints.uniform int32
  norm_num

example : ∃ u subs, Ints.construct int32 512 3000000 = some (u, subs) := by
  obtain ⟨_, u, subs, e, _⟩ := C66_no_int_overflow (B := 512) (L := 3000000) (by norm_num) (by norm_num) (by norm_num) (by norm_num)
  exact ⟨u, subs, e⟩

example : ∃ u subs, Ints.construct int32 512 3000000 = some (u, subs) ∧
    ((u.parts.flatMap fun p => span p.1 p.2) ++
      (subs.flatMap fun c => c.parts.flatMap fun p => span (c.start + p.1) p.2)).length = 3000000 := by
  obtain ⟨u, subs, e, h, _⟩ := C66_every_sample_once (B := 512) (L := 3000000) (by norm_num) (by norm_num) (by norm_num) (by norm_num)
  exact ⟨u, subs, e, by rw [h, List.length_map, List.length_range]⟩

end Zones.Props
