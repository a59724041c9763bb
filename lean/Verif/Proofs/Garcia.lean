import Verif.Model.Garcia
import Verif.Spec.Garcia
import Mathlib.Tactic.Linarith

/-! The dynamic program of `garcia_optimal_partitioning.py`. -/

open Zones.Model.Garcia Zones.Spec

namespace Zones.Proofs.Garcia

/-! ## Partitionings -/

theorem viable_single : Viable [1] :=
  ⟨rfl, fun b hb => ⟨0, by simpa using hb⟩, List.pairwise_singleton _ _, fun pre b post h hp => by
    cases pre with
    | nil => exact absurd rfl hp
    | cons x xs => simp at h⟩

theorem viable_snoc {pre : List ℕ} {a b : ℕ} :
    Viable (pre ++ [a] ++ [b]) ↔ Viable (pre ++ [a]) ∧ (∃ j, b = 2 ^ j) ∧ a ≤ b ∧ 2 * b ≤ pre.sum + a + 1 := by
  constructor
  · intro h
    refine ⟨⟨?_, ?_, ?_, ?_⟩, ?_, ?_, ?_⟩
    · have := h.first
      cases pre <;> simpa using this
    · intro x hx
      exact h.powers x (List.mem_append_left _ hx)
    · exact (List.pairwise_append.mp h.ascending).1
    · intro p x q e hp
      exact h.clearance p x (q ++ [b]) (by rw [e]; simp) hp
    · exact h.powers b (by simp)
    · have := (List.pairwise_append.mp h.ascending).2.2
      exact this a (by simp) b (by simp)
    · have := h.clearance (pre ++ [a]) b [] (by simp) (by simp)
      simpa [add_assoc] using this
  · rintro ⟨h, hj, hab, hc⟩
    refine ⟨?_, ?_, ?_, ?_⟩
    · have := h.first
      cases pre <;> simpa using this
    · intro x hx
      rcases List.mem_append.mp hx with hx | hx
      · exact h.powers x hx
      · rw [List.mem_singleton] at hx; subst hx; exact hj
    · refine List.pairwise_append.mpr ⟨h.ascending, List.pairwise_singleton _ _, fun x hx y hy => ?_⟩
      rw [List.mem_singleton] at hy
      subst hy
      rcases List.mem_append.mp hx with hx | hx
      · exact le_trans ((List.pairwise_append.mp h.ascending).2.2 x hx a (by simp)) hab
      · rw [List.mem_singleton] at hx; subst hx; exact hab
    · intro p x q e hp
      rcases List.eq_nil_or_concat q with rfl | ⟨q', z, rfl⟩
      · have := List.append_inj' (s₁ := pre ++ [a]) (s₂ := p) (t₁ := [b]) (t₂ := [x]) e rfl
        obtain ⟨e1, e2⟩ := this
        injection e2 with e2 _
        subst e1 e2
        simpa [add_assoc] using hc
      · rw [show p ++ x :: (q'.concat z) = (p ++ x :: q') ++ [z] by simp] at e
        have := List.append_inj' e rfl
        exact h.clearance p x q' this.1 hp

/-- The cost of one more partition. -/
noncomputable def stepCost (L a b : ℕ) : ℝ := 4 + if a = b then 0 else 4 * (17 / 10) * Real.logb 2 (2 * L * b)

theorem cost_snoc (L : ℕ) (pre : List ℕ) (a b : ℕ) :
    partitioningCost L (pre ++ [a] ++ [b]) = partitioningCost L (pre ++ [a]) + stepCost L a b := by
  induction pre with
  | nil => simp [partitioningCost, stepCost]
  | cons x xs ih =>
    cases xs with
    | nil => simp [partitioningCost, stepCost]
    | cons y ys =>
      simp only [List.cons_append, partitioningCost] at ih ⊢
      rw [ih]
      ring

theorem stepCost_ge {L a b : ℕ} (hL : 0 < L) (hb : 0 < b) : 4 ≤ stepCost L a b := by
  unfold stepCost
  split
  · norm_num
  · have : (0:ℝ) ≤ Real.logb 2 (2 * L * b) := by
      apply Real.logb_nonneg (by norm_num)
      have h1 : (1:ℝ) ≤ L := by exact_mod_cast hL
      have h2 : (1:ℝ) ≤ b := by exact_mod_cast hb
      nlinarith
    linarith

theorem viable_ne_nil {bs : List ℕ} (h : Viable bs) : bs ≠ [] := by
  rintro rfl
  have := h.first
  simp at this

theorem viable_pos {bs : List ℕ} (h : Viable bs) {b : ℕ} (hb : b ∈ bs) : 0 < b := by
  obtain ⟨j, rfl⟩ := h.powers b hb
  positivity

/-- A prefix. -/
theorem viable_prefix {pre post : List ℕ} (h : Viable (pre ++ post)) (hp : pre ≠ []) : Viable pre := by
  refine ⟨?_, fun b hb => h.powers b (List.mem_append_left _ hb), (List.pairwise_append.mp h.ascending).1, fun p x q e hn => ?_⟩
  · have := h.first
    cases pre with
    | nil => exact absurd rfl hp
    | cons a as => simpa using this
  · exact h.clearance p x (q ++ post) (by rw [e]; simp) hn

theorem cost_append_ge {L : ℕ} (hL : 0 < L) {pre post : List ℕ} (h : Viable (pre ++ post)) (hp : pre ≠ []) :
    partitioningCost L pre + 4 * post.length ≤ partitioningCost L (pre ++ post) := by
  induction post using List.reverseRecOn with
  | nil => simp
  | append_singleton xs x ih =>
    rw [← List.append_assoc] at h ⊢
    have hne : pre ++ xs ≠ [] := by simp [hp]
    have h' := viable_prefix h hne
    have := ih h'
    obtain ⟨ys, y, e⟩ := (List.eq_nil_or_concat (pre ++ xs)).resolve_left hne
    rw [List.concat_eq_append] at e
    rw [e, cost_snoc, ← e]
    have := stepCost_ge (L := L) (a := y) hL (viable_pos h (b := x) (by simp))
    simp only [List.length_append, List.length_singleton]
    push_cast
    linarith

/-- A list of powers of two that never increase, all dividing `r`, can be cut at sum `r`. -/
theorem cut_at : ∀ (l : List ℕ) (r : ℕ), (∀ x ∈ l, ∃ j, x = 2 ^ j) → l.Pairwise (· ≥ ·) → (∀ x ∈ l, x ∣ r) → r ≤ l.sum →
    ∃ k, (l.take k).sum = r := by
  intro l
  induction l with
  | nil => intro r _ _ _ h; exact ⟨0, by simp at h; simp [h]⟩
  | cons x xs ih =>
    intro r hp hs hd hr
    by_cases h0 : r = 0
    · exact ⟨0, by simp [h0]⟩
    · have hx : x ∣ r := hd x (by simp)
      have hxr : x ≤ r := Nat.le_of_dvd (by omega) hx
      have := ih (r - x) (fun y hy => hp y (by simp [hy])) (List.pairwise_cons.mp hs).2 (fun y hy => ?_) (by
        simp at hr; omega)
      · obtain ⟨k, hk⟩ := this
        exact ⟨k + 1, by simp [hk]; omega⟩
      · have h1 : y ∣ r := hd y (by simp [hy])
        have h2 : y ∣ x := by
          obtain ⟨j, rfl⟩ := hp y (by simp [hy])
          obtain ⟨i, rfl⟩ := hp x (by simp)
          have := (List.pairwise_cons.mp hs).1 _ hy
          exact pow_dvd_pow 2 ((Nat.pow_le_pow_iff_right (by norm_num)).mp this)
        exact Nat.dvd_sub h1 h2

/-- The exchange argument: instead of partitions no longer than `a < s` up to the end of a partition of `s` blocks, that partition
itself is cheaper even with its transforms. -/
theorem exchange {L : ℕ} (hL : 0 < L) {pre : List ℕ} {a s o : ℕ} (h : Viable (pre ++ [a])) (hs : ∃ j, s = 2 ^ j) (has : a < s)
    (ho : pre.sum + a = o + s) (hc : 2 * s ≤ o + 1) :
    ∃ pre', Viable (pre' ++ [s]) ∧ pre'.sum = o ∧
      partitioningCost L (pre' ++ [s]) < partitioningCost L (pre ++ [a]) + 4 * (17 / 10) * Real.logb 2 (2 * L * s) := by
  have hsum : (pre ++ [a]).sum = o + s := by simpa using ho
  have hle : ∀ x ∈ pre ++ [a], x ≤ a := by
    intro x hx
    rcases List.mem_append.mp hx with hx | hx
    · exact (List.pairwise_append.mp h.ascending).2.2 x hx a (by simp)
    · rw [List.mem_singleton] at hx; omega
  generalize pre ++ [a] = bs at h hsum hle ⊢
  obtain ⟨pre', post, e, hps⟩ : ∃ pre' post, bs = pre' ++ post ∧ post.sum = s := by
    obtain ⟨k, hk⟩ := cut_at bs.reverse s (fun x hx => h.powers x (List.mem_reverse.mp hx))
      (List.pairwise_reverse.mpr h.ascending)
      (fun x hx => by
        have hx := List.mem_reverse.mp hx
        have h1 := hle x hx
        obtain ⟨j, rfl⟩ := h.powers x hx
        obtain ⟨i, rfl⟩ := hs
        have : 2 ^ j ≤ 2 ^ i := by omega
        exact pow_dvd_pow 2 ((Nat.pow_le_pow_iff_right (by norm_num)).mp this))
      (by rw [List.sum_reverse, hsum]; omega)
    refine ⟨(bs.reverse.drop k).reverse, (bs.reverse.take k).reverse, ?_, by rw [List.sum_reverse, hk]⟩
    rw [← List.reverse_append, List.take_append_drop, List.reverse_reverse]
  subst e
  have hpre : pre'.sum = o := by
    rw [List.sum_append, hps] at hsum
    omega
  have hne : pre' ≠ [] := by
    intro h0
    rw [h0] at hpre
    simp at hpre
    omega
  have hv : Viable pre' := viable_prefix h hne
  obtain ⟨ys, y, ey⟩ := (List.eq_nil_or_concat pre').resolve_left hne
  rw [List.concat_eq_append] at ey
  have hy : y ≤ a := hle y (by rw [ey]; simp)
  have hlen : 2 ≤ post.length := by
    by_contra hlt
    push Not at hlt
    match post, hlt with
    | [], _ => simp at hps; omega
    | [x], _ =>
      simp at hps
      have := hle x (by simp)
      omega
  refine ⟨pre', ?_, hpre, ?_⟩
  · rw [ey, viable_snoc, ← ey]
    refine ⟨hv, hs, by omega, ?_⟩
    have := congrArg List.sum ey
    rw [List.sum_append, List.sum_singleton] at this
    omega
  · have h1 := cost_append_ge hL h hne
    have h2 := cost_snoc L ys y s
    rw [← ey] at h2
    rw [h2]
    unfold stepCost
    rw [if_neg (by omega)]
    have : (2:ℝ) ≤ post.length := by exact_mod_cast hlen
    linarith

end Zones.Proofs.Garcia
