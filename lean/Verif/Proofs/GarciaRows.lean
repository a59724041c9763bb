import Verif.Proofs.GarciaShipped

open Zones.Model Zones.Spec

namespace Zones.Proofs.Garcia

/-! ## The rows of the tables -/

/-- The partitions of a layout, one by one. -/
def expand (layout : List Layout) : List ℕ := layout.flatMap fun l => List.replicate l.np l.psb

theorem extend_same (L : ℕ) : ∀ (n : ℕ) (pre : List ℕ) (a : ℕ), Viable (pre ++ [a]) →
    Viable (pre ++ [a] ++ List.replicate n a) ∧ (∃ pre', pre ++ [a] ++ List.replicate n a = pre' ++ [a]) ∧
      5 * partitioningCost L (pre ++ [a] ++ List.replicate n a) = 5 * partitioningCost L (pre ++ [a]) + 20 * n := by
  intro n
  induction n with
  | zero => intro pre a h; exact ⟨by simpa using h, ⟨pre, by simp⟩, by simp⟩
  | succ n ih =>
    intro pre a h
    obtain ⟨h1, ⟨pre', h2⟩, h3⟩ := ih pre a h
    have e : pre ++ [a] ++ List.replicate (n + 1) a = pre' ++ [a] ++ [a] := by
      rw [List.replicate_succ', ← List.append_assoc, h2]
    rw [h2] at h1 h3
    rw [e]
    refine ⟨?_, ⟨_, rfl⟩, ?_⟩
    · rw [viable_snoc]
      refine ⟨h1, h1.powers a (by simp), le_refl _, ?_⟩
      by_cases hp : pre' = []
      · subst hp
        have := h1.first
        simp at this
        subst this
        simp
      · have := h1.clearance pre' a [] rfl hp
        omega
    · rw [cost_snoc, mul_add, h3]
      have : stepCost L a a = 4 := by unfold stepCost; simp
      rw [this]
      push_cast
      ring

/-- The layouts after `pre ++ [a]` of `sum` blocks and cost `c` fifths: the cost of the whole. -/
def rowFold (lg : ℕ) : List Layout → ℕ → ℕ → ℕ → Option ℕ
  | [], _, _, c => some c
  | l :: rest, a, sum, c =>
    if a < l.psb ∧ l.psb = 2 ^ Nat.log2 l.psb ∧ 2 * l.psb ≤ sum + 1 ∧ 0 < l.np then
      rowFold lg rest l.psb (sum + l.np * l.psb) (c + 20 * l.np + 34 * (1 + lg + Nat.log2 l.psb))
    else none

theorem rowFold_spec {lg : ℕ} : ∀ (rest : List Layout) (pre : List ℕ) (a c c' : ℕ), Viable (pre ++ [a]) →
    5 * partitioningCost (2 ^ lg) (pre ++ [a]) = c → rowFold lg rest a (pre ++ [a]).sum c = some c' →
    Viable (pre ++ [a] ++ expand rest) ∧ 5 * partitioningCost (2 ^ lg) (pre ++ [a] ++ expand rest) = c' := by
  intro rest
  induction rest with
  | nil =>
    intro pre a c c' h1 h2 h3
    simp only [rowFold, Option.some.injEq] at h3
    subst h3
    exact ⟨by simpa [expand] using h1, by simpa [expand] using h2⟩
  | cons l rest ih =>
    intro pre a c c' h1 h2 h3
    rw [rowFold] at h3
    split at h3
    · rename_i hc
      obtain ⟨c1, c2, c3, c4⟩ := hc
      generalize Nat.log2 l.psb = j at c2 h3
      have hv : Viable (pre ++ [a] ++ [l.psb]) := by
        rw [viable_snoc]
        exact ⟨h1, ⟨j, c2⟩, c1.le, by rw [List.sum_append, List.sum_singleton] at c3; omega⟩
      obtain ⟨n, hn⟩ : ∃ n, l.np = n + 1 := ⟨l.np - 1, by omega⟩
      obtain ⟨e1, ⟨pre', e2⟩, e3⟩ := extend_same (2 ^ lg) n (pre ++ [a]) l.psb hv
      have hx : pre ++ [a] ++ expand (l :: rest) = pre' ++ [l.psb] ++ expand rest := by
        rw [← e2]
        simp [expand, hn, List.replicate_succ]
      rw [hx]
      have hstep : 5 * stepCost (2 ^ lg) a l.psb = 20 + 34 * (1 + lg + j) := by
        unfold stepCost
        rw [if_neg (by omega), c2]
        have : Real.logb 2 (2 * ((2 ^ lg : ℕ) : ℝ) * ((2 ^ j : ℕ) : ℝ)) = 1 + lg + j := by
          push_cast
          rw [show (2:ℝ) * 2 ^ lg * 2 ^ j = 2 ^ (1 + lg + j) by rw [pow_add, pow_add]; ring]
          rw [Real.logb_pow, Real.logb_self_eq_one (by norm_num)]
          push_cast
          ring
        rw [this]
        ring
      refine ih pre' l.psb (c + 20 * l.np + 34 * (1 + lg + j)) c' (by rw [← e2]; exact e1) ?_ ?_
      · rw [← e2, e3, cost_snoc, mul_add, h2, hstep, hn]
        push_cast
        ring
      · have hs : (pre' ++ [l.psb]).sum = (pre ++ [a]).sum + l.np * l.psb := by
          rw [← e2, hn]
          simp
          ring
        rw [hs]
        exact h3
    · cases h3

/-- A row is a viable partitioning of exactly its length, and no viable partitioning that covers this length is cheaper. -/
def rowOptimal (lg : ℕ) (s : Scheme) : Bool :=
  match s.layout with
  | [] => false
  | l :: rest =>
    let n := s.ir / 2 ^ lg
    decide (l.psb = 1) && decide (0 < l.np) && decide ((expand s.layout).sum * 2 ^ lg = s.ir) && decide (Nat.log2 n - 1 < 12) &&
      decide (n ≤ 2 * 2 ^ (Nat.log2 n - 1 + 1) - 1) &&
      match rowFold lg rest 1 l.np (20 * (l.np - 1)) with
      | none => false
      | some c => checkBound lg n c (List.range' 1 (Nat.log2 n - 1)) 0 0 0

theorem rowOptimal_spec {lg : ℕ} {s : Scheme} (h : rowOptimal lg s = true) :
    Viable (expand s.layout) ∧ (expand s.layout).sum * 2 ^ lg = s.ir ∧
      ∀ bs, Viable bs → CoversBlocks (s.ir / 2 ^ lg) bs → partitioningCost (2 ^ lg) (expand s.layout) ≤ partitioningCost (2 ^ lg) bs := by
  unfold rowOptimal at h
  cases hl : s.layout with
  | nil => rw [hl] at h; cases h
  | cons l rest =>
    rw [hl] at h
    simp only [Bool.and_eq_true, decide_eq_true_eq] at h
    obtain ⟨⟨⟨⟨⟨h1, h2⟩, h3⟩, h4⟩, h5⟩, h6⟩ := h
    cases hf : rowFold lg rest 1 l.np (20 * (l.np - 1)) with
    | none => rw [hf] at h6; cases h6
    | some c =>
      rw [hf] at h6
      obtain ⟨n, hn⟩ : ∃ n, l.np = n + 1 := ⟨l.np - 1, by omega⟩
      obtain ⟨e1, ⟨pre', e2⟩, e3⟩ := extend_same (2 ^ lg) n [] 1 viable_single
      rw [List.nil_append] at e1 e2 e3
      have hx : expand (l :: rest) = pre' ++ [1] ++ expand rest := by
        rw [← e2]
        simp [expand, hn, h1, List.replicate_succ]
      have hc1 : 5 * partitioningCost (2 ^ lg) (pre' ++ [1]) = ((20 * (l.np - 1) : ℕ) : ℝ) := by
        rw [← e2, e3, hn]
        simp [partitioningCost]
      have hsum : (pre' ++ [1]).sum = l.np := by
        rw [← e2, hn]
        simp
        omega
      obtain ⟨r1, r2⟩ := rowFold_spec rest pre' 1 _ c (by rw [← e2]; exact e1) hc1 (by rw [hsum]; exact hf)
      rw [hx]
      refine ⟨r1, by rw [← hx]; exact h3, fun bs hv hc => ?_⟩
      have := bound_of_check h6 h5 h4 hv hc
      rw [← r2] at this
      linarith

theorem shipped_optimal : (kGarciaResults.all fun e => e.2.all (rowOptimal (Nat.log2 e.1)) && e.1 == 2 ^ Nat.log2 e.1) = true := by
  decide +kernel

end Zones.Proofs.Garcia
