import Verif.Proofs.Multi

/-!
# Properties of the distribution of channels over the phases: C21, C22

`channelPlans psb irCh n` lists, for each of the `n` channels, what `TimeDistributedUPCMulti` passes to the channel's
`TimeDistributedUPC`: the filter channel, the phase its transforms start at and the decomposition depth.
-/

open Zones.Spec Zones.Model Zones.Proofs

namespace Zones.Props

/-- In phase `ph` a channel with this plan performs transforms (TimeDistributedUPC works on stage B in the
`2 * 2^depth` phases from its offset on). -/
def Busy (pl : ChannelPlan) (ph : ℕ) : Prop := pl.transformOffset ≤ ph ∧ ph < pl.transformOffset + 2 * 2 ^ pl.nd

/-- **C22.** The group sizes are powers of two, strictly decreasing, and sum to the channel count; there is one plan per
channel, and channel `c` uses filter channel `c mod` (number of IR channels). -/
theorem C22_groups_are_binary_decomposition (n : ℕ) :
    (∀ g ∈ getPowersOf2In n, ∃ k, g = 2^k) ∧ (getPowersOf2In n).Pairwise (· > ·) ∧ (getPowersOf2In n).sum = n ∧
    ∀ psb irCh, (channelPlans psb irCh n).length = n ∧
      ∀ c < n, ∃ pl, (channelPlans psb irCh n)[c]? = some pl ∧ pl.filterChannel = c % irCh := by
  refine ⟨powers_pow n, ?_, powers_sum n, fun psb irCh => ⟨channelPlans_length _ _ _, fun c hc => ?_⟩⟩
  · induction n using Nat.strong_induction_on with
    | _ n ih =>
      rcases Nat.eq_zero_or_pos n with rfl | h
      · rw [powers_zero]; exact List.Pairwise.nil
      · have hp : 0 < largestPowerOf2In n := by rw [largest_pos h]; positivity
        have hle := largest_le n
        rw [powers_unfold h, List.pairwise_cons]
        refine ⟨fun g hg => ?_, ih _ (by omega)⟩
        have hsum := powers_sum (n - largestPowerOf2In n)
        have : g ≤ n - largestPowerOf2In n := by
          rw [← hsum]; exact List.single_le_sum (fun _ _ => Nat.zero_le _) g hg
        have hlt : n < 2 * largestPowerOf2In n := by
          rw [largest_pos h]
          have := Nat.lt_pow_succ_log_self (b := 2) (by norm_num) n
          rw [pow_succ] at this; omega
        show largestPowerOf2In n > g
        omega
  · have hlen := channelPlans_length psb irCh n
    refine ⟨(channelPlans psb irCh n)[c]'(by omega), List.getElem?_eq_getElem (by omega), ?_⟩
    unfold channelPlans at hlen ⊢
    obtain ⟨g, hg, ci, hci, e⟩ := plansFrom_get psb irCh (getPowersOf2In n) 0 c (by rw [powers_sum]; exact hc) ⟨0,0,0⟩
    rw [List.getD_eq_getElem _ _ (by omega)] at e
    rw [e]; rfl

/-- 13 channels are 8 + 4 + 1. -/
example : getPowersOf2In 13 = [8, 4, 1] := by
  rw [powers_unfold (by norm_num), show largestPowerOf2In 13 = 8 by decide +kernel,
    powers_unfold (by norm_num), show largestPowerOf2In (13 - 8) = 4 by decide +kernel,
    powers_unfold (by norm_num), show largestPowerOf2In (13 - 8 - 4) = 1 by decide +kernel, powers_zero]

/-- **C21** (fit). For any channel count and any partition size of `2^p ≥ 2` blocks, all transforms of every channel lie
within the phases of one stage. -/
theorem C21_transforms_fit_the_stage {p : ℕ} (hp : 1 ≤ p) (irCh n : ℕ) :
    ∀ pl ∈ channelPlans (2^p) irCh n, pl.transformOffset + 2 * 2 ^ pl.nd ≤ 2^p := by
  intro pl hpl
  obtain ⟨c, hc, rfl⟩ := List.getElem_of_mem hpl
  rw [channelPlans_length] at hc
  have h := (channelPlans_get hp irCh n c hc ⟨0,0,0⟩).2.2
  rw [List.getD_eq_getElem _ _ (by rw [channelPlans_length]; exact hc), pow_succ] at h
  omega

theorem plansFrom_group (psb irCh : ℕ) (g : ℕ) (post : List ℕ) : ∀ (pre : List ℕ) (off ci : ℕ), ci < g →
    (plansFrom psb irCh off (pre ++ g :: post))[pre.sum + ci]? =
      some ⟨(ci + (off + pre.sum)) % irCh, (ci * 2^(numDecompositions psb g + 1)) % psb, numDecompositions psb g⟩
  | [], off, ci, h => by
    simp only [List.nil_append, plansFrom, List.sum_nil, zero_add, add_zero]
    rw [List.getElem?_append_left (by simpa [groupPlans] using h)]
    simp [groupPlans, h]
  | a :: pre, off, ci, h => by
    simp only [List.cons_append, plansFrom, List.sum_cons]
    rw [List.getElem?_append_right (by simp [groupPlans]; omega)]
    rw [show a + pre.sum + ci - (groupPlans psb irCh a off).length = pre.sum + ci by simp [groupPlans]; omega]
    rw [plansFrom_group psb irCh g post pre (off + a) ci h]
    rw [show off + a + pre.sum = off + (a + pre.sum) by omega]

theorem card_mod {M r : ℕ} (hr : r < M) (q : ℕ) :
    ((Finset.range (q * M)).filter fun c => c % M = r).card = q := by
  induction q with
  | zero => simp
  | succ q ih =>
    have h1 : (Finset.range ((q+1) * M)).filter (fun c => c % M = r) =
        insert (q * M + r) ((Finset.range (q * M)).filter fun c => c % M = r) := by
      ext c
      simp only [Finset.mem_filter, Finset.mem_range, Finset.mem_insert]
      rw [Nat.succ_mul]
      constructor
      · rintro ⟨h1, h2⟩
        rcases Nat.lt_or_ge c (q * M) with h | h
        · right; exact ⟨h, h2⟩
        · left
          obtain ⟨d, rfl⟩ := Nat.exists_eq_add_of_le h
          rw [add_comm, Nat.add_mul_mod_self_right, Nat.mod_eq_of_lt (by omega)] at h2
          omega
      · rintro (rfl | ⟨h1, h2⟩)
        · refine ⟨by omega, ?_⟩
          rw [add_comm, Nat.add_mul_mod_self_right, Nat.mod_eq_of_lt hr]
        · exact ⟨by omega, h2⟩
    rw [h1, Finset.card_insert_of_notMem (by simp), ih]

/-- offsets that are multiples of a divisor of `2^p` -/
theorem busy_iff {a q ci ph : ℕ} (hph : ph < 2^(q+a)) :
    ((ci * 2^a) % 2^(q+a) ≤ ph ∧ ph < (ci * 2^a) % 2^(q+a) + 2^a) ↔ ci % 2^q = ph / 2^a := by
  rw [pow_add, Nat.mul_mod_mul_right]
  have ha : 0 < 2^a := by positivity
  generalize ci % 2^q = m
  constructor
  · rintro ⟨h1, h2⟩
    refine (Nat.div_eq_of_lt_le h1 ?_).symm
    rw [Nat.succ_mul]; exact h2
  · rintro rfl
    have := Nat.div_add_mod ph (2^a)
    have := Nat.mod_lt ph ha
    rw [mul_comm]; omega

/-- **C21** (level load). Take any group: `getPowersOf2In n = pre ++ g :: post`, i.e. the channels from `pre.sum` to
`pre.sum + g - 1`. In every phase of a stage of `2^p` phases exactly `max 1 (g / (2^p / 2))` of its channels are
busy: exactly one if the group has at most half as many channels as there are phases. -/
theorem C21_load_is_level {p : ℕ} (hp : 1 ≤ p) (irCh n : ℕ) {pre post : List ℕ} {g : ℕ}
    (hg : getPowersOf2In n = pre ++ g :: post) {ph : ℕ} (hph : ph < 2^p) :
    ∃ busy : Finset ℕ, (∀ c, c ∈ busy ↔ pre.sum ≤ c ∧ c < pre.sum + g ∧
        ∃ pl, (channelPlans (2^p) irCh n)[c]? = some pl ∧ Busy pl ph) ∧
      busy.card = max 1 (g / (2^p / 2)) ∧ (g ≤ 2^p / 2 → busy.card = 1) := by
  obtain ⟨k, rfl⟩ := powers_pow n g (by rw [hg]; simp)
  have hn := numDecompositions_pow p k hp
  have hhalf : 2^p / 2 = 2^(p-1) := by
    obtain ⟨q, rfl⟩ : ∃ q, p = q+1 := ⟨p-1, by omega⟩
    rw [pow_succ, Nat.mul_div_cancel _ (by norm_num)]; rfl
  set a := p - 1 - k + 1 with ha
  obtain ⟨q, hq⟩ : ∃ q, p = q + a := ⟨p - a, by omega⟩
  have hr : ph / 2^a < 2^q := by
    rw [Nat.div_lt_iff_lt_mul (by positivity), ← pow_add, ← hq]; exact hph
  have hqk : q ≤ k := by omega
  have hcard : (((Finset.range (2^k)).filter fun c => c % 2^q = ph / 2^a).map (addLeftEmbedding pre.sum)).card = 2^(k-q) := by
    rw [Finset.card_map]
    have := card_mod hr (2^(k-q))
    rw [← pow_add, Nat.sub_add_cancel hqk] at this
    exact this
  have hmax : 2^(k-q) = max 1 (2^k / 2^(p-1)) := by
    rcases Nat.lt_or_ge k p with h | h
    · have h1 : k - q = 0 := by omega
      rw [h1]
      rcases Nat.lt_or_ge k (p-1) with h2 | h2
      · rw [Nat.div_eq_of_lt (Nat.pow_lt_pow_right (by norm_num) h2)]; rfl
      · obtain rfl : k = p - 1 := by omega
        rw [Nat.div_self (by positivity)]; rfl
    · rw [Nat.pow_div (by omega) (by norm_num)]
      have h1 : k - q = k - (p-1) := by omega
      rw [h1, max_eq_right (Nat.one_le_two_pow)]
  refine ⟨_, fun c => ?_, hcard.trans (by rw [hhalf]; exact hmax), fun hle => ?_⟩
  · simp only [Finset.mem_map, Finset.mem_filter, Finset.mem_range, addLeftEmbedding_apply]
    constructor
    · rintro ⟨ci, ⟨h1, h2⟩, rfl⟩
      have hpl : (channelPlans (2^p) irCh n)[pre.sum + ci]? = some ⟨(ci + (0 + pre.sum)) % irCh,
          (ci * 2^(numDecompositions (2^p) (2^k) + 1)) % 2^p, numDecompositions (2^p) (2^k)⟩ := by
        unfold channelPlans
        rw [hg]
        exact plansFrom_group _ _ _ _ pre 0 ci h1
      refine ⟨by omega, by omega, _, hpl, ?_⟩
      · unfold Busy
        simp only [hn]
        have := (busy_iff (a := a) (q := q) (ci := ci) (ph := ph) (by rw [← hq]; exact hph)).mpr h2
        rw [← hq] at this
        have e : 2 * 2^(p-1-k) = 2^a := by rw [ha, pow_succ]; ring
        rw [e]
        exact this
    · rintro ⟨h1, h2, pl, h3, h4⟩
      refine ⟨c - pre.sum, ⟨by omega, ?_⟩, by omega⟩
      have h5 := plansFrom_group (2^p) irCh (2^k) post pre 0 (c - pre.sum) (by omega)
      unfold channelPlans at h3
      rw [hg] at h3
      rw [show pre.sum + (c - pre.sum) = c by omega, h3, Option.some.injEq] at h5
      subst h5
      unfold Busy at h4
      simp only [hn] at h4
      have e : 2 * 2^(p-1-k) = 2^a := by rw [ha, pow_succ]; ring
      rw [e] at h4
      exact (busy_iff (a := a) (q := q) (by rw [← hq]; exact hph)).mp (by rw [← hq]; exact h4)
  · rw [hcard, hmax]
    rw [hhalf] at hle
    rcases Nat.eq_or_lt_of_le hle with h | h
    · rw [h, Nat.div_self (by positivity)]; rfl
    · rw [Nat.div_eq_of_lt h]; rfl

/-- 13 channels = 8 + 4 + 1 on partitions of 16 blocks: groups of at most half the phases. -/
example (irCh ph : ℕ) (hph : ph < 16) : ∃ busy : Finset ℕ, (∀ c, c ∈ busy ↔ 8 ≤ c ∧ c < 12 ∧
    ∃ pl, (channelPlans 16 irCh 13)[c]? = some pl ∧ Busy pl ph) ∧ busy.card = 1 := by
  have hg : getPowersOf2In 13 = [8] ++ 4 :: [1] := by
    rw [powers_unfold (by norm_num), show largestPowerOf2In 13 = 8 by decide +kernel,
      powers_unfold (by norm_num), show largestPowerOf2In (13 - 8) = 4 by decide +kernel,
      powers_unfold (by norm_num), show largestPowerOf2In (13 - 8 - 4) = 1 by decide +kernel, powers_zero]
    rfl
  obtain ⟨busy, h1, _, h3⟩ := C21_load_is_level (p := 4) (by norm_num) irCh 13 hg (ph := ph) hph
  exact ⟨busy, h1, h3 (by norm_num)⟩

end Zones.Props
