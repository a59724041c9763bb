import Verif.Proofs.GarciaTable
import Verif.Model.PartitionTables

open Zones.Model Zones.Spec

namespace Zones.Proofs.Garcia

/-! ## The cost of a partitioning from below

Costs in fifths for a block size of `2 ^ lg`: 20 for each partition, `34 (1 + lg + j)` for the transforms of each new size `2 ^ j`. -/

/-- A common multiple of the partition sizes that occur. -/
abbrev W : ℕ := 2 ^ 12

/-- `a`: exponent of the size so far; the new sizes that follow, as exponents. What they add to the number of partitions times `W`. -/
def weight : ℕ → List ℕ → ℕ
  | _, [] => 0
  | a, j :: js => (2 * 2 ^ j - 1) * (W / 2 ^ a - W / 2 ^ j) + weight j js

/-- The exponents of the new sizes. -/
def newCost (lg : ℕ) (js : List ℕ) : ℕ := (js.map fun j => 34 * (1 + lg + j)).sum

theorem weight_snoc : ∀ (js : List ℕ) (a j : ℕ), weight a (js ++ [j]) =
    weight a js + (2 * 2 ^ j - 1) * (W / 2 ^ (js.getLast?.getD a) - W / 2 ^ j) := by
  intro js
  induction js with
  | nil => intro a j; simp [weight]
  | cons i js ih =>
    intro a j
    rw [List.cons_append, weight, ih, weight, List.getLast?_cons]
    simp only [Option.getD_some]
    omega

theorem div_W {i : ℕ} (h : i ≤ 12) : 2 ^ i * (W / 2 ^ i) = W := Nat.mul_div_cancel' (pow_dvd_pow 2 h)

/-- A partitioning is at least as expensive as its sizes imply. -/
theorem lower_bound (lg : ℕ) (bs : List ℕ) (hv : Viable bs) (hmax : ∀ b ∈ bs, b ≤ 2 ^ 12) :
    ∃ js : List ℕ, (0 :: js).Pairwise (· < ·) ∧ (∀ j ∈ js, ∃ pre post, bs = pre ++ 2 ^ j :: post ∧ pre ≠ []) ∧
      (∃ pre, bs = pre ++ [2 ^ (js.getLast?.getD 0)]) ∧
      weight 0 js + bs.sum * (W / 2 ^ (js.getLast?.getD 0)) ≤ bs.length * W ∧
      5 * partitioningCost (2 ^ lg) bs + 20 = 20 * bs.length + (newCost lg js : ℝ) ∧
      ∀ b ∈ bs, b = 1 ∨ ∃ j ∈ js, b = 2 ^ j := by
  induction bs using List.reverseRecOn with
  | nil => exact absurd rfl (viable_ne_nil hv)
  | append_singleton xs b ih =>
    rcases List.eq_nil_or_concat xs with rfl | ⟨pre, a, rfl⟩
    · have := hv.first
      simp at this
      subst this
      refine ⟨[], by simp, by simp, ⟨[], by simp⟩, by simp [weight], ?_, by simp⟩
      simp [partitioningCost, newCost]
    · rw [List.concat_eq_append] at hv ih hmax ⊢
      obtain ⟨h1, ⟨j, hj⟩, h3, h4⟩ := viable_snoc.mp hv
      obtain ⟨js, i1, i2, ⟨pre', i3⟩, i4, i5, i6⟩ := ih h1 fun x hx => hmax x (List.mem_append_left _ hx)
      have hj12 : j ≤ 12 := by
        have := hmax b (by simp)
        rw [hj] at this
        exact (Nat.pow_le_pow_iff_right (by norm_num)).mp this
      have hi3 := List.append_inj' i3 rfl
      obtain ⟨hpre, ha⟩ := hi3
      injection ha with ha _
      subst hpre
      rw [cost_snoc]
      generalize hlast : js.getLast?.getD 0 = i at ha i3 i4
      by_cases hab : a = b
      · have hij : i = j := by
          rw [ha, hj] at hab
          exact Nat.pow_right_injective (le_refl 2) hab
        subst hij
        refine ⟨js, i1, ?_, ⟨pre ++ [a], by rw [hlast, hj]⟩, ?_, ?_, ?_⟩
        · intro x hx
          obtain ⟨p, q, e, hp⟩ := i2 x hx
          exact ⟨p, q ++ [b], by rw [e]; simp, hp⟩
        · rw [hlast, List.sum_append, List.length_append, List.sum_singleton, List.length_singleton, Nat.add_mul, Nat.add_mul]
          have := div_W hj12
          rw [← hj] at this ⊢
          rw [one_mul]
          rw [← hj] at i4
          omega
        · simp only [List.length_append, List.length_singleton] at i5 ⊢
          have : stepCost (2 ^ lg) a b = 4 := by unfold stepCost; simp [hab]
          rw [this]
          push_cast
          push_cast at i5
          linarith
        · intro x hx
          rcases List.mem_append.mp hx with hx | hx
          · exact i6 x hx
          · rw [List.mem_singleton] at hx
            rw [hx, ← hab]
            exact i6 a (by simp)
      · have hlt : a < b := by omega
        have hij : i < j := by
          rw [ha, hj] at hlt
          exact (Nat.pow_lt_pow_iff_right (by norm_num)).mp hlt
        refine ⟨js ++ [j], ?_, ?_, ⟨pre ++ [a], by simp [hj]⟩, ?_, ?_, ?_⟩
        · rw [← List.cons_append]
          refine List.pairwise_append.mpr ⟨i1, List.pairwise_singleton _ _, ?_⟩
          intro x hx y hy
          rw [List.mem_singleton] at hy
          subst hy
          have hxi : x ≤ i := by
            rw [← hlast]
            rcases List.eq_nil_or_concat js with rfl | ⟨js', z, rfl⟩
            · simpa using hx
            · rw [List.concat_eq_append] at i1 hx ⊢
              simp only [List.getLast?_append, List.getLast?_singleton, Option.some_or, Option.getD_some]
              rw [← List.cons_append] at i1 hx
              rcases List.mem_append.mp hx with hx | hx
              · exact le_of_lt ((List.pairwise_append.mp i1).2.2 x hx z (by simp))
              · rw [List.mem_singleton] at hx
                omega
          omega
        · intro x hx
          rcases List.mem_append.mp hx with hx | hx
          · obtain ⟨p, q, e, hp⟩ := i2 x hx
            exact ⟨p, q ++ [b], by rw [e]; simp, hp⟩
          · rw [List.mem_singleton] at hx
            subst hx
            exact ⟨pre ++ [a], [], by rw [hj], by simp⟩
        · rw [weight_snoc, hlast]
          simp only [List.getLast?_append, List.getLast?_singleton, Option.some_or, Option.getD_some]
          rw [List.sum_append, List.length_append, List.sum_singleton, List.length_singleton, Nat.add_mul, Nat.add_mul, one_mul]
          have hw : b * (W / 2 ^ j) = W := by rw [hj]; exact div_W hj12
          have hmono : W / 2 ^ j ≤ W / 2 ^ i := Nat.div_le_div_left (Nat.pow_le_pow_right (by norm_num) hij.le) (by positivity)
          have hsum : 2 * 2 ^ j - 1 ≤ (pre ++ [a]).sum := by
            rw [List.sum_append, List.sum_singleton]
            rw [← hj]
            omega
          have hmul : (2 * 2 ^ j - 1) * (W / 2 ^ i - W / 2 ^ j) ≤ (pre ++ [a]).sum * (W / 2 ^ i - W / 2 ^ j) :=
            Nat.mul_le_mul_right _ hsum
          rw [Nat.mul_sub (pre ++ [a]).sum] at hmul
          have hm2 : (pre ++ [a]).sum * (W / 2 ^ j) ≤ (pre ++ [a]).sum * (W / 2 ^ i) := Nat.mul_le_mul_left _ hmono
          omega
        · simp only [List.length_append, List.length_singleton] at i5 ⊢
          have hstep : 5 * stepCost (2 ^ lg) a b = 20 + 34 * (1 + lg + j) := by
            unfold stepCost
            rw [if_neg hab, hj]
            have : Real.logb 2 (2 * ((2 ^ lg : ℕ) : ℝ) * ((2 ^ j : ℕ) : ℝ)) = 1 + lg + j := by
              push_cast
              rw [show (2:ℝ) * 2 ^ lg * 2 ^ j = 2 ^ (1 + lg + j) by rw [pow_add, pow_add]; ring]
              rw [Real.logb_pow, Real.logb_self_eq_one (by norm_num)]
              push_cast
              ring
            rw [this]
            ring
          have hnew : (newCost lg (js ++ [j]) : ℝ) = newCost lg js + 34 * (1 + lg + j) := by
            unfold newCost
            rw [List.map_append, List.sum_append]
            push_cast
            simp
          rw [hnew, mul_add, hstep]
          push_cast
          push_cast at i5
          linarith
        · intro x hx
          rcases List.mem_append.mp hx with hx | hx
          · exact (i6 x hx).imp_right fun ⟨i, h1, h2⟩ => ⟨i, by simp [h1], h2⟩
          · rw [List.mem_singleton] at hx
            exact Or.inr ⟨j, by simp, by rw [hx, hj]⟩

/-! ## The check -/

/-- All choices of new sizes with exponents from the list `cand`, after the size with exponent `a`: the cost is at least `c` fifths. `x`, `y`: weight and cost of
transforms so far. -/
def checkBound (lg n c : ℕ) : List ℕ → ℕ → ℕ → ℕ → Bool
  | [], a, x, y => decide (c + 20 ≤ 20 * ((x + n * (W / 2 ^ a) + (W - 1)) / W) + y)
  | j :: cand, a, x, y =>
    checkBound lg n c cand a x y &&
      checkBound lg n c cand j (x + (2 * 2 ^ j - 1) * (W / 2 ^ a - W / 2 ^ j)) (y + 34 * (1 + lg + j))

theorem checkBound_spec {lg n c : ℕ} : ∀ (cand : List ℕ) (a x y : ℕ), checkBound lg n c cand a x y = true →
    ∀ js : List ℕ, js.Sublist cand → c + 20 ≤
      20 * ((x + weight a js + n * (W / 2 ^ (js.getLast?.getD a)) + (W - 1)) / W) + y + newCost lg js := by
  intro cand
  induction cand with
  | nil =>
    intro a x y h js hjs
    rw [List.sublist_nil] at hjs
    subst hjs
    simpa [weight, newCost, checkBound] using h
  | cons j cand ih =>
    intro a x y h js hjs
    rw [checkBound, Bool.and_eq_true] at h
    cases hjs with
    | cons _ hs => exact ih a x y h.1 js hs
    | @cons_cons js' _ _ hs =>
      have := ih j _ _ h.2 js' hs
      rw [weight, List.getLast?_cons]
      simp only [newCost, List.map_cons, List.sum_cons] at this ⊢
      simp only [Option.getD_some]
      rw [← add_assoc x]
      omega

theorem sublist_range {m : ℕ} : ∀ (js : List ℕ) (k : ℕ), (k :: js).Pairwise (· < ·) → (∀ j ∈ js, j < k + 1 + m) →
    js.Sublist (List.range' (k + 1) m) := by
  induction m with
  | zero =>
    intro js k h1 h2
    cases js with
    | nil => simp
    | cons j js =>
      have a := (List.pairwise_cons.mp h1).1 j (by simp)
      have b := h2 j (by simp)
      omega
  | succ m ih =>
    intro js k h1 h2
    rw [List.range'_succ]
    cases js with
    | nil => simp
    | cons j js =>
      obtain ⟨p1, p2⟩ := List.pairwise_cons.mp h1
      have a := p1 j (by simp)
      by_cases hj : j = k + 1
      · subst hj
        apply List.Sublist.cons_cons
        exact ih js (k + 1) p2 fun i hi => by have := h2 i (by simp [hi]); omega
      · apply List.Sublist.cons
        apply ih (j :: js) (k + 1)
        · refine List.pairwise_cons.mpr ⟨fun i hi => ?_, p2⟩
          rcases List.mem_cons.mp hi with rfl | hi
          · omega
          · have := (List.pairwise_cons.mp p2).1 i hi
            omega
        · intro i hi
          have := h2 i hi
          omega

/-- A row that is not beaten. -/
theorem bound_of_check {lg n c m : ℕ} (h : checkBound lg n c (List.range' 1 m) 0 0 0 = true) (hn : n ≤ 2 * 2 ^ (m + 1) - 1) (hm : m < 12)
    {bs : List ℕ} (hv : Viable bs) (hc : CoversBlocks n bs) : (c : ℝ) ≤ 5 * partitioningCost (2 ^ lg) bs := by
  have hsmall : ∀ pre b post, bs = pre ++ b :: post → pre ≠ [] → 2 * b ≤ n := by
    intro pre b post e hp
    have h1 := hv.clearance pre b post e hp
    have h2 := hc.1
    have h3 : pre.sum ≤ bs.dropLast.sum := by
      rw [e, List.dropLast_append_of_ne_nil (by simp), List.sum_append]
      omega
    omega
  have hexp : ∀ pre j post, bs = pre ++ 2 ^ j :: post → pre ≠ [] → j < m + 1 := by
    intro pre j post e hp
    have h1 := hsmall pre _ post e hp
    have : (2:ℕ) ^ j < 2 ^ (m + 1) := by
      have hp1 : 0 < (2:ℕ) ^ (m + 1) := by positivity
      omega
    exact (Nat.pow_lt_pow_iff_right (by norm_num)).mp this
  have hmax : ∀ b ∈ bs, b ≤ 2 ^ 12 := by
    intro b hb
    obtain ⟨pre, post, e⟩ := List.append_of_mem hb
    by_cases hp : pre = []
    · subst hp
      have := hv.first
      rw [e] at this
      simp at this
      rw [this]
      norm_num
    · obtain ⟨j, rfl⟩ := hv.powers b hb
      have := hexp pre j post e hp
      exact Nat.pow_le_pow_right (by norm_num) (by omega)
  obtain ⟨js, i1, i2, _, i4, i5, _⟩ := lower_bound lg bs hv hmax
  have hsub : js.Sublist (List.range' (0 + 1) m) := sublist_range js 0 i1 fun j hj => by
    obtain ⟨pre, post, e, hp⟩ := i2 j hj
    have := hexp pre j post e hp
    omega
  have hb := checkBound_spec _ _ _ _ h js hsub
  simp only [Nat.zero_add] at hb
  have hcount : (weight 0 js + n * (W / 2 ^ (js.getLast?.getD 0)) + (W - 1)) / W ≤ bs.length := by
    have h1 : n * (W / 2 ^ (js.getLast?.getD 0)) ≤ bs.sum * (W / 2 ^ (js.getLast?.getD 0)) := Nat.mul_le_mul_right _ hc.2
    have hW : 0 < W := by positivity
    rw [← Nat.lt_succ_iff, Nat.div_lt_iff_lt_mul hW, Nat.succ_mul]
    omega
  have hnat : c + 20 ≤ 20 * bs.length + newCost lg js := by
    have := Nat.mul_le_mul_left 20 hcount
    omega
  have hreal : (c : ℝ) + 20 ≤ 20 * bs.length + newCost lg js := by exact_mod_cast hnat
  linarith

end Zones.Proofs.Garcia
