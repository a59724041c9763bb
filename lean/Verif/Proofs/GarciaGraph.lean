import Verif.Proofs.Garcia

open Zones.Model.Garcia Zones.Spec

namespace Zones.Proofs.Garcia

/-! ## The sequences of states -/

/-- The states at transition `t`: position `q` of a partition of `s` blocks, which ends with block `n`. -/
def InSeq (t : ℕ) (e : El) : Prop :=
  (∃ j, e.s = 2 ^ j) ∧ 1 ≤ e.q ∧ e.q ≤ e.s ∧ e.s + e.q ≤ t + 2 ∧ e.n + e.q = t + 1 + e.s

structure SeqInv (t : ℕ) (seq : List El) : Prop where
  mem : ∀ e, e ∈ seq ↔ InSeq t e
  last : ∃ e, seq.getLast? = some e ∧ InSeq t e ∧ e.s + e.q = t + 2

theorem InSeq.ext {t : ℕ} {a b : El} (ha : InSeq t a) (hb : InSeq t b) (hs : a.s = b.s) (hq : a.q = b.q) : a = b := by
  have h1 := ha.2.2.2.2
  have h2 := hb.2.2.2.2
  have hn : a.n = b.n := by omega
  cases a; cases b
  simp only at hs hq hn
  subst hs hq hn
  rfl

theorem nextPow (i : ℕ) : nextPowerOf2 (2 ^ i + 1) = 2 ^ (i + 1) := by
  unfold nextPowerOf2
  rw [if_neg (Nat.succ_ne_zero (2 ^ i))]
  congr 1
  apply le_antisymm
  · rw [Nat.clog_le_iff_le_pow (by norm_num)]
    have : 1 ≤ 2 ^ i := Nat.one_le_two_pow
    rw [pow_succ]
    omega
  · have := (Nat.lt_clog_iff_pow_lt (b := 2) (x := 2 ^ i + 1) (y := i) (by norm_num)).mpr (by omega)
    omega

theorem pow_unique {i j x : ℕ} (h1 : 2 ^ i < x) (h2 : x ≤ 2 * 2 ^ i) (h3 : 2 ^ j < x) (h4 : x ≤ 2 * 2 ^ j) : i = j := by
  have a : 2 ^ i < 2 ^ (j + 1) := by rw [pow_succ]; omega
  have b : 2 ^ j < 2 ^ (i + 1) := by rw [pow_succ]; omega
  have a' := (Nat.pow_lt_pow_iff_right (by norm_num : 1 < 2)).mp a
  have b' := (Nat.pow_lt_pow_iff_right (by norm_num : 1 < 2)).mp b
  omega

theorem seqInv_init : SeqInv 0 [⟨1, 1, 1⟩] := by
  refine ⟨fun e => ?_, ⟨⟨1, 1, 1⟩, rfl, ⟨⟨0, rfl⟩, by norm_num, by norm_num, by norm_num, by norm_num⟩, rfl⟩⟩
  rw [List.mem_singleton]
  constructor
  · rintro rfl
    exact ⟨⟨0, rfl⟩, by norm_num, by norm_num, by norm_num, by norm_num⟩
  · rintro ⟨_, h1, h2, h3, h4⟩
    cases e
    simp only at *
    congr 1 <;> omega

theorem seqInv_next {t : ℕ} {seq : List El} (h : SeqInv t seq) : ∃ next, nextSequence seq = some next ∧ SeqInv (t + 1) next := by
  obtain ⟨l, hl, ⟨⟨i, hi⟩, q1, q2, q3, q4⟩, hlast⟩ := h.last
  refine ⟨_, by unfold nextSequence; rw [hl], ?_⟩
  have hnew : InSeq (t + 1) (if l.q = l.s then ⟨l.n + nextPowerOf2 (l.s + 1), nextPowerOf2 (l.s + 1), 1⟩ else ⟨l.n, l.s, l.q + 1⟩) ∧
      (if l.q = l.s then (⟨l.n + nextPowerOf2 (l.s + 1), nextPowerOf2 (l.s + 1), 1⟩ : El) else ⟨l.n, l.s, l.q + 1⟩).s +
      (if l.q = l.s then (⟨l.n + nextPowerOf2 (l.s + 1), nextPowerOf2 (l.s + 1), 1⟩ : El) else ⟨l.n, l.s, l.q + 1⟩).q = t + 3 := by
    split
    · rename_i hq
      rw [hi, nextPow]
      have : (2:ℕ) ^ (i + 1) = 2 * 2 ^ i := by rw [pow_succ]; ring
      refine ⟨⟨⟨i + 1, rfl⟩, le_refl _, ?_, ?_, ?_⟩, ?_⟩ <;> simp only <;> omega
    · rename_i hq
      refine ⟨⟨⟨i, hi⟩, ?_, ?_, ?_, ?_⟩, ?_⟩ <;> simp only <;> omega
  refine ⟨fun e => ?_, ⟨_, by simp, hnew.1, hnew.2⟩⟩
  rw [List.mem_append, List.mem_map, List.mem_singleton]
  constructor
  · rintro (⟨e0, h0, rfl⟩ | rfl)
    · obtain ⟨a, b, c, d, f⟩ := (h.mem e0).mp h0
      exact ⟨a, b, c, by simp only; omega, by simp only; omega⟩
    · exact hnew.1
  · rintro ⟨⟨j, hj⟩, b, c, d, f⟩
    by_cases hle : e.s + e.q ≤ t + 2
    · left
      refine ⟨⟨e.n - 1, e.s, e.q⟩, (h.mem _).mpr ⟨⟨j, hj⟩, b, c, hle, by simp only; omega⟩, ?_⟩
      cases e
      simp only at *
      congr 1
      omega
    · right
      apply InSeq.ext (t := t + 1) ⟨⟨j, hj⟩, b, c, d, f⟩ hnew.1
      · by_cases hq : l.q = l.s
        · rw [if_pos hq]
          simp only
          rw [hi, nextPow]
          have h2 : (2:ℕ) ^ (i + 1) = 2 * 2 ^ i := by rw [pow_succ]; ring
          rw [hj]
          congr 1
          apply pow_unique (x := t + 3) <;> omega
        · rw [if_neg hq]
          simp only
          rw [hj, hi]
          congr 1
          apply pow_unique (x := t + 3) <;> omega
      · by_cases hq : l.q = l.s
        · rw [if_pos hq]
          simp only
          have h2 : (2:ℕ) ^ (i + 1) = 2 * 2 ^ i := by rw [pow_succ]; ring
          have : j = i + 1 := by apply pow_unique (x := t + 3) <;> omega
          subst this
          omega
        · rw [if_neg hq]
          simp only
          have : j = i := by apply pow_unique (x := t + 3) <;> omega
          subst this
          omega

/-! ## The graph -/

/-- The edges that end in a node. -/
def inE (g : Graph) (k : Key) : List (Key × Key) := g.edges.filter fun e => e.2 = k

theorem lookup_map_update (l : List (Key × ℝ)) (k2 k : Key) (x : ℝ) :
    (l.map fun n => if n.1 = k2 then (k2, x) else n).lookup k =
      if k = k2 then (l.lookup k2).map fun _ => x else l.lookup k := by
  induction l with
  | nil => simp
  | cons n l ih =>
    rw [List.map_cons, List.lookup_cons]
    obtain ⟨n1, n2⟩ := n
    by_cases h : n1 = k2
    · subst h
      simp only [if_true]
      by_cases hk : k = n1
      · subst hk
        simp
      · rw [if_neg hk] at ih ⊢
        have : (k == n1) = false := by simpa using hk
        rw [this, ih, List.lookup_cons, this]
    · simp only [h, if_false]
      by_cases hk : k = n1
      · subst hk
        simp [h]
      · have hb : (k == n1) = false := by simpa using hk
        rw [hb, ih]
        by_cases h2 : k = k2
        · subst h2
          simp only [if_true]
          rw [List.lookup_cons, hb]
        · simp only [h2, if_false]
          rw [List.lookup_cons, hb]

theorem lookup_append_single (l : List (Key × ℝ)) (k2 k : Key) (x : ℝ) (h : l.lookup k2 = none) :
    (l ++ [(k2, x)]).lookup k = if k = k2 then some x else l.lookup k := by
  induction l with
  | nil =>
    by_cases hk : k = k2
    · subst hk; simp
    · have hb : (k == k2) = false := by simpa using hk
      simp [hk, List.lookup_cons, hb]
  | cons n l ih =>
    obtain ⟨n1, n2⟩ := n
    rw [List.lookup_cons] at h
    by_cases h2 : k2 = n1
    · subst h2; simp at h
    · have hb : (k2 == n1) = false := by simpa using h2
      rw [hb] at h
      rw [List.cons_append, List.lookup_cons, List.lookup_cons]
      by_cases hk : k = n1
      · subst hk
        have : ¬ k = k2 := fun h => h2 h.symm
        simp [this]
      · have hb' : (k == n1) = false := by simpa using hk
        rw [hb']
        exact ih h

theorem cost_relax (g : Graph) (k1 k2 k : Key) (x : ℝ) :
    (g.relax k1 k2 x).cost? k =
      if k = k2 then some (match g.cost? k2 with | some c => if x < c then x else c | none => x) else g.cost? k := by
  unfold Graph.relax
  cases hc : g.cost? k2 with
  | none =>
    simp only
    exact lookup_append_single _ _ _ _ hc
  | some c =>
    simp only
    by_cases hx : x < c
    · rw [if_pos hx, if_pos hx]
      have := lookup_map_update g.nodes k2 k x
      unfold Graph.cost? at hc ⊢
      rw [hc] at this
      exact this
    · rw [if_neg hx, if_neg hx]
      by_cases hk : k = k2
      · rw [if_pos hk, hk, hc]
      · rw [if_neg hk]

theorem inE_relax_ne (g : Graph) (k1 k2 k : Key) (x : ℝ) (h : k ≠ k2) : inE (g.relax k1 k2 x) k = inE g k := by
  have hadd : (Graph.addEdge g.edges k1 k2).filter (fun e => decide (e.2 = k)) = g.edges.filter fun e => e.2 = k := by
    unfold Graph.addEdge
    split
    · rfl
    · rw [List.filter_append]
      have : ¬ k2 = k := fun h' => h h'.symm
      simp [this]
  unfold Graph.relax
  cases hc : g.cost? k2 with
  | none => exact hadd
  | some c =>
    simp only
    split
    · unfold inE
      simp only
      rw [← hadd, List.filter_filter, List.filter_congr]
      intro e he
      by_cases h2 : e.2 = k
      · have : ¬ e.2 = k2 := fun h' => h (h2.symm.trans h')
        simp [this]
      · simp [h2]
    · rfl

theorem inE_relax_new (g : Graph) (k1 k2 : Key) (x : ℝ) (hc : g.cost? k2 = none) (hE : inE g k2 = []) :
    inE (g.relax k1 k2 x) k2 = [(k1, k2)] := by
  unfold Graph.relax
  rw [hc]
  have hn : (k1, k2) ∉ g.edges := by
    intro h
    have : (k1, k2) ∈ inE g k2 := List.mem_filter.mpr ⟨h, by simp⟩
    rw [hE] at this
    cases this
  unfold inE at hE ⊢
  simp only [Graph.addEdge, hn, if_false]
  rw [List.filter_append, hE]
  simp

theorem inE_relax_better (g : Graph) (k1 k2 : Key) (x c : ℝ) (hc : g.cost? k2 = some c) (hx : x < c) (hn : (k1, k2) ∉ inE g k2) :
    inE (g.relax k1 k2 x) k2 = [(k1, k2)] := by
  have hn' : (k1, k2) ∉ g.edges := fun h => hn (List.mem_filter.mpr ⟨h, by simp⟩)
  unfold Graph.relax
  rw [hc]
  unfold inE
  simp only [hx, if_true, Graph.addEdge, hn', if_false]
  rw [List.filter_append, List.filter_append]
  have : (g.edges.filter fun e => decide (e ∉ g.edges.filter fun e => decide (e.2 = k2))).filter (fun e => decide (e.2 = k2)) = [] := by
    rw [List.filter_filter, List.filter_eq_nil_iff]
    intro e he
    simp only [List.mem_filter, he, true_and, decide_eq_true_eq, Bool.and_eq_true, not_and]
    exact fun h => by simpa using h
  rw [this]
  simp [hn']

theorem inE_relax_worse (g : Graph) (k1 k2 : Key) (x c : ℝ) (hc : g.cost? k2 = some c) (hx : ¬ x < c) :
    g.relax k1 k2 x = g := by
  unfold Graph.relax
  rw [hc]
  simp [hx]

end Zones.Proofs.Garcia
