import Verif.Proofs.GarciaStage

open Zones.Model.Garcia Zones.Spec

namespace Zones.Proofs.Garcia

/-! ## The leafs -/

theorem mem_nodes_iff (g : Graph) (k : Key) : k ∈ g.nodes.map Prod.fst ↔ ∃ c, g.cost? k = some c := by
  unfold Graph.cost?
  induction g.nodes with
  | nil => simp
  | cons n l ih =>
    obtain ⟨n1, n2⟩ := n
    rw [List.map_cons, List.mem_cons, List.lookup_cons]
    by_cases h : k = n1
    · subst h; simp
    · have hb : (k == n1) = false := by simpa using h
      rw [hb]
      simp only [h, false_or]
      exact ih

theorem inDegree_eq (g : Graph) (k : Key) : g.inDegree k = (inE g k).length := rfl

theorem outDegree_pos (g : Graph) (k k' : Key) (h : (k, k') ∈ inE g k') : g.outDegree k ≠ 0 := by
  unfold Graph.outDegree
  intro h0
  have := List.length_eq_zero_iff.mp h0
  have hm : (k, k') ∈ g.edges.filter fun e => e.1 = k := List.mem_filter.mpr ⟨(List.mem_filter.mp h).1, by simp⟩
  rw [this] at hm
  cases hm

/-- A node before the last stage is not a leaf. -/
theorem no_dead_end {L T t : ℕ} {g : Graph} (hL : 0 < L) (h : GInv L T g) (ht : t < T) {e : El} {c : ℝ} (hc : g.cost? (t, e) = some c) :
    g.outDegree (t, e) ≠ 0 := by
  obtain ⟨_, ie, pre, hv, hsum, hcost⟩ := h.sound t e c hc
  by_cases hq : e.q < e.s
  · obtain ⟨c', x1, _⟩ := h.complete (t + 1) (by omega) pre e.s (e.q + 1) hv (by omega) (by omega) (by omega)
    obtain ⟨p, cp, d, y1, y2, y3, _, _⟩ := h.edge t _ _ x1
    have ip := (h.sound t p cp y2).2.1
    have ie' := (h.sound (t + 1) _ _ x1).2.1
    have hq0 := ie.2.1
    rcases trans_cases ip ie' y3 with ⟨z1, z2⟩ | ⟨_, z2, _⟩
    · simp only [elAt] at z1 z2
      have : p = e := InSeq.ext ip ie z1 (by omega)
      subst this
      exact outDegree_pos g _ _ (by rw [y1]; simp)
    · simp only [elAt] at z2
      omega
  · have hqs : e.q = e.s := le_antisymm ie.2.2.1 (not_lt.mp hq)
    have hs0 : 1 ≤ e.s := by have := ie.2.1; omega
    have hclear : 2 * e.s ≤ t + 2 := by have := ie.2.2.2.1; omega
    have hv2 : Viable (pre ++ [e.s] ++ [e.s]) := by
      rw [viable_snoc]
      exact ⟨hv, ie.1, le_refl _, by omega⟩
    obtain ⟨c', x1, x2⟩ := h.complete (t + 1) (by omega) (pre ++ [e.s]) e.s 1 hv2 (by omega) hs0 (by
      rw [List.sum_append, List.sum_singleton]; omega)
    rw [cost_snoc, hcost] at x2
    obtain ⟨p, cp, d, y1, y2, y3, y4, y5⟩ := h.edge t _ _ x1
    obtain ⟨_, ip, pre1, pv, psum, pcost⟩ := h.sound t p cp y2
    have ie' := (h.sound (t + 1) _ _ x1).2.1
    rcases trans_cases ip ie' y3 with ⟨_, z2⟩ | ⟨z1, z2, z3, z4⟩
    · simp only [elAt] at z2
      have := ip.2.1
      omega
    · simp only [elAt] at z3 z4
      by_cases hps : p.s = e.s
      · have : p = e := InSeq.ext ip ie hps (by omega)
        subst this
        exact outDegree_pos g _ _ (by rw [y1]; simp)
      · exfalso
        have hlt : p.s < e.s := by omega
        have hpre : pre ≠ [] := by
          rintro rfl
          have h1 := hv.first
          simp at h1
          have := ip.2.1
          omega
        have hcl := hv.clearance pre e.s [] rfl hpre
        obtain ⟨pre', v', s', k'⟩ := exchange hL (o := pre.sum) pv ie.1 hlt (by omega) hcl
        obtain ⟨c'', w1, w2⟩ := h.complete t (by omega) pre' e.s e.s v' hs0 (le_refl _) (by omega)
        have he := inSeq_elAt ie
        rw [hqs] at he
        rw [← he, hc] at w1
        injection w1 with w1
        have hp := inSeq_elAt ip
        rw [z1] at hp
        have hp0 := ip.2.1
        have hstep := (trans_new (t := t) (a := p.s) (s := e.s) (by omega) z3 hclear).2 L
        rw [← hp, y4] at hstep
        injection hstep with hstep
        rw [pcost] at k'
        have e1 : stepCost L p.s e.s = 4 + 4 * (17 / 10) * Real.logb 2 (2 * L * e.s) := by
          unfold stepCost; rw [if_neg hps]
        have e2 : stepCost L e.s e.s = 4 := by
          unfold stepCost; simp
        linarith

/-- The leafs are the nodes of the last stage. -/
theorem mem_leafs {L T : ℕ} {g : Graph} (hL : 0 < L) (h : GInv L T g) (hT : 1 ≤ T) (k : Key) :
    k ∈ leafs g ↔ ∃ e c, k = (T, e) ∧ g.cost? (T, e) = some c := by
  unfold leafs
  rw [List.mem_filter, mem_nodes_iff, decide_eq_true_eq]
  obtain ⟨t, e⟩ := k
  constructor
  · rintro ⟨⟨c, hc⟩, _, h2⟩
    have ht := (h.sound t e c hc).1
    by_cases hlt : t < T
    · exact absurd h2 (no_dead_end hL h hlt hc)
    · have : t = T := by omega
      subst this
      exact ⟨e, c, rfl, hc⟩
  · rintro ⟨e', c, hk, hc⟩
    rw [hk]
    obtain ⟨T', rfl⟩ : ∃ T', T = T' + 1 := ⟨T - 1, by omega⟩
    refine ⟨⟨c, hc⟩, ?_, ?_⟩
    · rw [inDegree_eq]
      obtain ⟨_, _, _, h1, _⟩ := h.edge T' e' c hc
      rw [h1]
      simp
    · unfold Graph.outDegree
      rw [List.length_eq_zero_iff, List.filter_eq_nil_iff]
      rintro ⟨k1, k2⟩ hm hk1
      have hk0 : k1 = (T' + 1, e') := by simpa using hk1
      have hin : (k1, k2) ∈ inE g k2 := List.mem_filter.mpr ⟨hm, by simp⟩
      obtain ⟨t2, e2⟩ := k2
      cases hc2 : g.cost? (t2, e2) with
      | none =>
        rw [h.absent _ hc2] at hin
        cases hin
      | some c2 =>
        have ht2 := (h.sound t2 e2 c2 hc2).1
        cases t2 with
        | zero =>
          rw [h.root] at hin
          cases hin
        | succ t2 =>
          obtain ⟨p, _, _, h1, _⟩ := h.edge t2 e2 c2 hc2
          rw [h1, List.mem_singleton] at hin
          injection hin with hin _
          rw [hk0] at hin
          injection hin with hin _
          omega

theorem leafs_root {L : ℕ} {g : Graph} (h : GInv L 0 g) : leafs g = [] := by
  unfold leafs
  rw [List.filter_eq_nil_iff]
  rintro ⟨t, e⟩ hk
  obtain ⟨c, hc⟩ := (mem_nodes_iff g _).mp hk
  have ht := (h.sound t e c hc).1
  have : t = 0 := by omega
  subst this
  simp [inDegree_eq, h.root e]

/-! ## The cheapest leafs -/

/-- The state of the loop over the leafs `l`. -/
def BestInv (g : Graph) (l : List Key) (st : Option ℝ × List Key) : Prop :=
  match st.1 with
  | none => l = [] ∧ st.2 = []
  | some b => st.2 ≠ [] ∧ (∀ k ∈ st.2, k ∈ l ∧ g.cost? k = some b) ∧ (∀ k ∈ l, ∃ c, g.cost? k = some c ∧ b ≤ c) ∧
      ∀ k ∈ l, g.cost? k = some b → k ∈ st.2

theorem best_fold (g : Graph) : ∀ (l l0 : List Key) (st : Option ℝ × List Key), BestInv g l0 st →
    (∀ k ∈ l, ∃ c, g.cost? k = some c) → ∃ st', l.foldlM (bestStep g) st = some st' ∧ BestInv g (l0 ++ l) st' := by
  intro l
  induction l with
  | nil => intro l0 st h _; exact ⟨st, rfl, by simpa using h⟩
  | cons k l ih =>
    intro l0 st h hc
    obtain ⟨c, hk⟩ := hc k (by simp)
    obtain ⟨st1, h1, h2⟩ : ∃ st1, bestStep g st k = some st1 ∧ BestInv g (l0 ++ [k]) st1 := by
      obtain ⟨best, ks⟩ := st
      unfold bestStep
      rw [hk]
      cases best with
      | none =>
        obtain ⟨rfl, h2⟩ : l0 = [] ∧ ks = [] := h
        subst h2
        refine ⟨_, rfl, ?_⟩
        show _ ∧ _
        refine ⟨by simp, ?_, ?_, ?_⟩
        · intro k' hk'
          simp at hk'
          subst hk'
          exact ⟨by simp, hk⟩
        · intro k' hk'
          simp at hk'
          subst hk'
          exact ⟨c, hk, le_refl _⟩
        · intro k' hk' _
          simpa using hk'
      | some b =>
        obtain ⟨a1, a2, a3, a4⟩ : _ ∧ _ ∧ _ ∧ _ := h
        simp only at a1 a2 a3 a4 ⊢
        by_cases hle : c ≤ b
        · rw [if_pos hle]
          refine ⟨_, rfl, ?_⟩
          show _ ∧ _
          by_cases hlt : c < b
          · rw [if_pos hlt]
            refine ⟨by simp, ?_, ?_, ?_⟩
            · intro k' hk'
              simp at hk'
              subst hk'
              exact ⟨by simp, hk⟩
            · intro k' hk'
              rcases List.mem_append.mp hk' with hk' | hk'
              · obtain ⟨c', x, y⟩ := a3 k' hk'
                exact ⟨c', x, by linarith⟩
              · rw [List.mem_singleton] at hk'
                subst hk'
                exact ⟨c, hk, le_refl _⟩
            · intro k' hk' hck
              rcases List.mem_append.mp hk' with hk' | hk'
              · obtain ⟨c', x, y⟩ := a3 k' hk'
                rw [hck] at x
                injection x with x
                linarith
              · simpa using hk'
          · rw [if_neg hlt]
            have hcb : c = b := le_antisymm hle (not_lt.mp hlt)
            subst hcb
            refine ⟨by simp, ?_, ?_, ?_⟩
            · intro k' hk'
              rcases List.mem_append.mp hk' with hk' | hk'
              · exact ⟨List.mem_append_left _ (a2 k' hk').1, (a2 k' hk').2⟩
              · rw [List.mem_singleton] at hk'
                subst hk'
                exact ⟨by simp, hk⟩
            · intro k' hk'
              rcases List.mem_append.mp hk' with hk' | hk'
              · exact a3 k' hk'
              · rw [List.mem_singleton] at hk'
                subst hk'
                exact ⟨c, hk, le_refl _⟩
            · intro k' hk' hck
              rcases List.mem_append.mp hk' with hk' | hk'
              · exact List.mem_append_left _ (a4 k' hk' hck)
              · exact List.mem_append_right _ hk'
        · rw [if_neg hle]
          refine ⟨_, rfl, ?_⟩
          show _ ∧ _
          refine ⟨a1, fun k' hk' => ⟨List.mem_append_left _ (a2 k' hk').1, (a2 k' hk').2⟩, ?_, ?_⟩
          · intro k' hk'
            rcases List.mem_append.mp hk' with hk' | hk'
            · exact a3 k' hk'
            · rw [List.mem_singleton] at hk'
              subst hk'
              exact ⟨c, hk, le_of_lt (not_le.mp hle)⟩
          · intro k' hk' hck
            rcases List.mem_append.mp hk' with hk' | hk'
            · exact a4 k' hk' hck
            · rw [List.mem_singleton] at hk'
              subst hk'
              rw [hk] at hck
              injection hck with hck
              exact absurd (le_of_eq hck) hle
    obtain ⟨st', h3, h4⟩ := ih _ _ h2 fun k' hk' => hc k' (by simp [hk'])
    refine ⟨st', ?_, by simpa using h4⟩
    rw [List.foldlM_cons, h1]
    exact h3

/-- Nonempty, and exactly the leafs of least cost. -/
theorem bestLeafs_spec {L T : ℕ} {g : Graph} (hL : 0 < L) (h : GInv L T g) (hT : 1 ≤ T) :
    ∃ best b, bestLeafs g = some best ∧ best ≠ [] ∧ (∀ k ∈ best, ∃ e, k = (T, e) ∧ g.cost? (T, e) = some b) ∧
      (∀ e c, g.cost? (T, e) = some c → b ≤ c) ∧ ∀ e, g.cost? (T, e) = some b → (T, e) ∈ best := by
  obtain ⟨st, h1, h2⟩ := best_fold g (leafs g) [] (none, []) ⟨rfl, rfl⟩ fun k hk => by
    obtain ⟨e, c, rfl, hc⟩ := (mem_leafs hL h hT k).mp hk
    exact ⟨c, hc⟩
  obtain ⟨best, ks⟩ := st
  unfold bestLeafs
  rw [h1]
  cases best with
  | none =>
    exfalso
    obtain ⟨h3, _⟩ : [] ++ leafs g = [] ∧ ks = [] := h2
    rw [List.nil_append] at h3
    have hv : Viable (List.replicate T 1 ++ [1]) := by
      have : ∀ n, Viable (List.replicate n 1 ++ [1]) := by
        intro n
        induction n with
        | zero => exact viable_single
        | succ n ih =>
          rw [List.replicate_succ', viable_snoc]
          exact ⟨ih, ⟨0, rfl⟩, le_refl _, by omega⟩
      exact this T
    obtain ⟨c, hc, _⟩ := h.complete T (le_refl _) _ 1 1 hv (le_refl _) (le_refl _) (by simp)
    have := (mem_leafs hL h hT (T, elAt T 1 1)).mpr ⟨_, c, rfl, hc⟩
    rw [h3] at this
    cases this
  | some b =>
    obtain ⟨a1, a2, a3, a4⟩ : _ ∧ _ ∧ _ ∧ _ := h2
    rw [List.nil_append] at a2 a3 a4
    refine ⟨ks, b, rfl, a1, ?_, ?_, ?_⟩
    · intro k hk
      obtain ⟨x, y⟩ := a2 k hk
      obtain ⟨e, c, rfl, _⟩ := (mem_leafs hL h hT k).mp x
      exact ⟨e, rfl, y⟩
    · intro e c hc
      obtain ⟨c', x, y⟩ := a3 _ ((mem_leafs hL h hT (T, e)).mpr ⟨e, c, rfl, hc⟩)
      rw [hc] at x
      injection x with x
      rw [x]; exact y
    · intro e hc
      exact a4 _ ((mem_leafs hL h hT (T, e)).mpr ⟨e, b, rfl, hc⟩) hc

/-! ## Backtraces -/

/-- The partition sizes a backtrace goes through, block by block. -/
def blocks (bs : List ℕ) : List ℕ := bs.flatMap fun b => List.replicate b b

theorem trace_spec {L T : ℕ} {g : Graph} (h : GInv L T g) : ∀ (t fuel : ℕ) (e : El) (c : ℝ), t < fuel →
    g.cost? (t, e) = some c → ∃ tr pre, traceBackward g fuel (t, e) = some tr ∧ Viable (pre ++ [e.s]) ∧ pre.sum + e.q = t + 1 ∧
      partitioningCost L (pre ++ [e.s]) = c ∧ tr.reverse.map (fun k => k.2.s) = blocks pre ++ List.replicate e.q e.s := by
  intro t
  induction t with
  | zero =>
    intro fuel e c hf hc
    obtain ⟨fuel, rfl⟩ : ∃ f, fuel = f + 1 := ⟨fuel - 1, by omega⟩
    obtain ⟨_, ie, pre, hv, hsum, hcost⟩ := h.sound 0 e c hc
    refine ⟨[(0, e)], pre, ?_, hv, hsum, hcost, ?_⟩
    · unfold traceBackward
      rw [if_neg]
      rw [inDegree_eq, h.root]
      simp
    · have h1 := ie.2.1
      have : pre = [] := by
        cases pre with
        | nil => rfl
        | cons a as =>
          have : 0 < a := viable_pos hv (b := a) (by simp)
          simp only [List.sum_cons] at hsum
          omega
      subst this
      have : e.q = 1 := by simp at hsum; omega
      rw [this]
      simp [blocks]
  | succ t ih =>
    intro fuel e c hf hc
    obtain ⟨fuel, rfl⟩ : ∃ f, fuel = f + 1 := ⟨fuel - 1, by omega⟩
    obtain ⟨_, ie, _⟩ := h.sound (t + 1) e c hc
    obtain ⟨p, cp, d, y1, y2, y3, y4, y5⟩ := h.edge t e c hc
    obtain ⟨_, ip, _⟩ := h.sound t p cp y2
    obtain ⟨tr, pre, t1, t2, t3, t4, t5⟩ := ih fuel p cp (by omega) y2
    have htr : traceBackward g (fuel + 1) (t + 1, e) = some ((t + 1, e) :: tr) := by
      unfold traceBackward
      have hpred : g.predecessors (t + 1, e) = [(t, p)] := by
        unfold Graph.predecessors
        unfold inE at y1
        rw [y1]
        rfl
      rw [if_pos (by rw [inDegree_eq, y1]; simp), hpred]
      simp only [t1, Option.map_some]
    have hmap : ((t + 1, e) :: tr).reverse.map (fun k => k.2.s) = blocks pre ++ List.replicate p.q p.s ++ [e.s] := by
      rw [List.reverse_cons, List.map_append, t5]
      rfl
    rcases trans_cases ip ie y3 with ⟨x1, x2⟩ | ⟨x1, x2, x3, x4⟩
    · refine ⟨_, pre, htr, x1 ▸ t2, by omega, ?_, ?_⟩
      · have : d = 0 := by
          unfold tc transitionCost at y4
          rw [if_pos ⟨x1, x2.symm⟩] at y4
          injection y4 with y4
          exact y4.symm
        rw [← x1, t4, y5, this, zero_add]
      · rw [hmap, x1, x2, List.replicate_succ', List.append_assoc]
    · have hq1 := ip.2.1
      refine ⟨_, pre ++ [p.s], htr, ?_, ?_, ?_, ?_⟩
      · rw [viable_snoc]
        exact ⟨t2, ie.1, x3, by omega⟩
      · rw [List.sum_append, List.sum_singleton]
        omega
      · rw [cost_snoc, t4, y5, add_comm]
        congr 1
        have hp := inSeq_elAt ip
        have he := inSeq_elAt ie
        rw [x1] at hp
        rw [x2] at he
        have := (trans_new (t := t) (a := p.s) (s := e.s) (by omega) x3 x4).2 L
        rw [← hp, ← he, y4] at this
        injection this with this
        exact this.symm
      · rw [hmap, x1, x2]
        simp [blocks]

/-! ## The tables -/

theorem bump_mem (d : List (ℕ × ℕ)) (key k v : ℕ) :
    (k, v) ∈ bump d key ↔ (k ≠ key ∧ (k, v) ∈ d) ∨ (k = key ∧ ((∃ w, (k, w) ∈ d ∧ v = w + 1) ∨ ((∀ w, (k, w) ∉ d) ∧ v = 1))) := by
  unfold bump
  by_cases h : d.any (fun e => decide (e.1 = key)) = true
  · rw [if_pos h, List.mem_map]
    obtain ⟨⟨a, w⟩, hm, ha⟩ := List.any_eq_true.mp h
    have ha : a = key := by simpa using ha
    subst ha
    constructor
    · rintro ⟨⟨x, y⟩, hxy, he⟩
      by_cases hx : x = a
      · subst hx
        simp only [if_true, Prod.mk.injEq] at he
        obtain ⟨rfl, rfl⟩ := he
        exact Or.inr ⟨rfl, Or.inl ⟨y, hxy, rfl⟩⟩
      · simp only [hx, if_false, Prod.mk.injEq] at he
        obtain ⟨rfl, rfl⟩ := he
        exact Or.inl ⟨hx, hxy⟩
    · rintro (⟨h1, h2⟩ | ⟨rfl, ⟨y, h1, rfl⟩ | ⟨h1, _⟩⟩)
      · exact ⟨(k, v), h2, by simp [h1]⟩
      · exact ⟨(k, y), h1, by simp⟩
      · exact absurd hm (h1 w)
  · rw [if_neg h, List.mem_append, List.mem_singleton]
    have hn : ∀ w, (key, w) ∉ d := by
      intro w hw
      exact h (List.any_eq_true.mpr ⟨(key, w), hw, by simp⟩)
    constructor
    · rintro (h1 | h1)
      · left
        refine ⟨?_, h1⟩
        rintro rfl
        exact hn _ h1
      · injection h1 with h1 h2
        subst h1 h2
        exact Or.inr ⟨rfl, Or.inr ⟨hn, rfl⟩⟩
    · rintro (⟨_, h2⟩ | ⟨rfl, ⟨y, h1, _⟩ | ⟨_, rfl⟩⟩)
      · exact Or.inl h2
      · exact absurd h1 (hn _)
      · exact Or.inr rfl

theorem bump_keys (d : List (ℕ × ℕ)) (key : ℕ) :
    (bump d key).map Prod.fst = if key ∈ d.map Prod.fst then d.map Prod.fst else d.map Prod.fst ++ [key] := by
  unfold bump
  have hiff : d.any (fun e => decide (e.1 = key)) = true ↔ key ∈ d.map Prod.fst := by
    rw [List.any_eq_true, List.mem_map]
    simp
  by_cases h : key ∈ d.map Prod.fst
  · rw [if_pos (hiff.mpr h), if_pos h, List.map_map]
    apply List.map_congr_left
    intro e _
    simp only [Function.comp]
    split <;> rfl
  · rw [if_neg (fun h' => h (hiff.mp h')), if_neg h]
    simp

/-- A sorted list of keys counted. -/
theorem bump_fold : ∀ (l : List ℕ), l.Pairwise (· ≤ ·) →
    ((l.foldl bump []).map Prod.fst).Pairwise (· < ·) ∧
      (∀ k v, (k, v) ∈ l.foldl bump [] ↔ k ∈ l ∧ v = l.count k) := by
  intro l
  induction l using List.reverseRecOn with
  | nil => intro _; simp
  | append_singleton xs x ih =>
    intro hs
    obtain ⟨s1, _, s3⟩ := List.pairwise_append.mp hs
    obtain ⟨i1, i2⟩ := ih s1
    rw [List.foldl_append]
    show ((bump (xs.foldl bump []) x).map Prod.fst).Pairwise (· < ·) ∧ ∀ k v, (k, v) ∈ bump (xs.foldl bump []) x ↔ _
    generalize xs.foldl bump [] = d at i1 i2
    have hkeys : ∀ k, k ∈ d.map Prod.fst ↔ k ∈ xs := by
      intro k
      rw [List.mem_map]
      constructor
      · rintro ⟨⟨a, b⟩, h1, rfl⟩
        exact ((i2 a b).mp h1).1
      · intro h
        exact ⟨(k, xs.count k), (i2 _ _).mpr ⟨h, rfl⟩, rfl⟩
    constructor
    · rw [bump_keys]
      split
      · exact i1
      · rename_i hx
        refine List.pairwise_append.mpr ⟨i1, List.pairwise_singleton _ _, fun a ha b hb => ?_⟩
        rw [List.mem_singleton] at hb
        subst hb
        have hax := (hkeys a).mp ha
        have := s3 a hax b (by simp)
        rcases Nat.lt_or_eq_of_le this with h | h
        · exact h
        · subst h
          exact absurd ha hx
    · intro k v
      rw [bump_mem d, i2]
      rw [List.mem_append, List.mem_singleton, List.count_append, List.count_singleton]
      constructor
      · rintro (⟨h1, h2, h3⟩ | ⟨rfl, ⟨w, h1, h2⟩ | ⟨h1, h2⟩⟩)
        · have : ¬ x = k := fun h => h1 h.symm
          exact ⟨Or.inl h2, by simp [h3, this]⟩
        · obtain ⟨_, h1⟩ := (i2 k w).mp h1
          exact ⟨Or.inr rfl, by simp [h2, h1]⟩
        · refine ⟨Or.inr rfl, ?_⟩
          have : k ∉ xs := fun h => h1 _ ((i2 _ _).mpr ⟨h, rfl⟩)
          rw [List.count_eq_zero_of_not_mem this, h2]
          simp
      · rintro ⟨h1, h2⟩
        by_cases hk : k = x
        · subst hk
          right
          refine ⟨rfl, ?_⟩
          by_cases hx : k ∈ xs
          · left
            exact ⟨xs.count k, (i2 _ _).mpr ⟨hx, rfl⟩, by simpa using h2⟩
          · right
            refine ⟨fun w hw => hx ((i2 _ _).mp hw).1, ?_⟩
            rw [List.count_eq_zero_of_not_mem hx] at h2
            simpa using h2
        · left
          have hk' : ¬ x = k := fun h => hk h.symm
          refine ⟨hk, h1.resolve_right hk, by simpa [hk'] using h2⟩

theorem mem_blocks (bs : List ℕ) (b : ℕ) : b ∈ blocks bs ↔ b ∈ bs ∧ b ≠ 0 := by
  unfold blocks
  rw [List.mem_flatMap]
  constructor
  · rintro ⟨a, h1, h2⟩
    rw [List.mem_replicate] at h2
    obtain ⟨h2, rfl⟩ := h2
    exact ⟨h1, h2⟩
  · rintro ⟨h1, h2⟩
    exact ⟨b, h1, by rw [List.mem_replicate]; exact ⟨h2, rfl⟩⟩

theorem count_blocks (bs : List ℕ) (b : ℕ) : (blocks bs).count b = b * bs.count b := by
  induction bs with
  | nil => simp [blocks]
  | cons a as ih =>
    have : blocks (a :: as) = List.replicate a a ++ blocks as := by simp [blocks]
    rw [this, List.count_append, ih, List.count_replicate, List.count_cons]
    by_cases h : a = b
    · subst h
      simp
      ring
    · simp [h]

theorem blocks_sorted (bs : List ℕ) (h : bs.Pairwise (· ≤ ·)) : (blocks bs).Pairwise (· ≤ ·) := by
  induction bs with
  | nil => simp [blocks]
  | cons a as ih =>
    have : blocks (a :: as) = List.replicate a a ++ blocks as := by simp [blocks]
    rw [this]
    obtain ⟨h1, h2⟩ := List.pairwise_cons.mp h
    refine List.pairwise_append.mpr ⟨?_, ih h2, fun x hx y hy => ?_⟩
    · rw [List.pairwise_replicate]; simp
    · rw [List.mem_replicate] at hx
      rw [hx.2]
      exact h1 y ((mem_blocks as y).mp hy).1

theorem ceilDiv_eq {b m q : ℕ} (h1 : 1 ≤ q) (h2 : q ≤ b) : ceilDiv (b * m + q) b = m + 1 := by
  unfold ceilDiv
  rw [show b * m + q + b - 1 = b * (m + 1) + (q - 1) by rw [Nat.mul_add, Nat.mul_one]; omega]
  rw [Nat.mul_add_div (by omega), Nat.div_eq_of_lt (by omega), Nat.add_zero]

theorem ceilDiv_mul {b m : ℕ} (h : 1 ≤ b) : ceilDiv (b * m) b = m := by
  unfold ceilDiv
  rw [show b * m + b - 1 = b * m + (b - 1) by omega, Nat.mul_add_div (by omega), Nat.div_eq_of_lt (by omega), Nat.add_zero]

theorem summarise_spec {L : ℕ} (hL : 0 < L) {tr : List Key} {pre : List ℕ} {s q : ℕ} (hv : Viable (pre ++ [s])) (h1 : 1 ≤ q) (h2 : q ≤ s)
    (htr : tr.map (fun k => k.2.s) = blocks pre ++ List.replicate q s) : Tabulates L (pre ++ [s]) (summarise L tr) := by
  have hfold : tr.foldl (fun d node => bump d (node.2.s * L)) [] =
      ((blocks pre ++ List.replicate q s).map (· * L)).foldl bump [] := by
    rw [← htr, List.map_map, List.foldl_map]
    rfl
  obtain ⟨a1, _, a3⟩ := List.pairwise_append.mp hv.ascending
  have hsort : (blocks pre ++ List.replicate q s).Pairwise (· ≤ ·) := by
    refine List.pairwise_append.mpr ⟨blocks_sorted pre a1, ?_, fun x hx y hy => ?_⟩
    · rw [List.pairwise_replicate]; simp
    · rw [List.mem_replicate] at hy
      rw [hy.2]
      exact a3 x ((mem_blocks pre x).mp hx).1 s (by simp)
  have hsort' : ((blocks pre ++ List.replicate q s).map (· * L)).Pairwise (· ≤ ·) := by
    rw [List.pairwise_map]
    exact hsort.imp fun h => Nat.mul_le_mul_right L h
  obtain ⟨f1, f2⟩ := bump_fold _ hsort'
  have hmem : ∀ b, b ∈ blocks pre ++ List.replicate q s ↔ b ∈ pre ++ [s] := by
    intro b
    rw [List.mem_append, List.mem_append, mem_blocks, List.mem_replicate, List.mem_singleton]
    constructor
    · rintro (⟨h, _⟩ | ⟨_, h⟩)
      · exact Or.inl h
      · exact Or.inr h
    · rintro (h | h)
      · exact Or.inl ⟨h, by have := viable_pos hv (b := b) (List.mem_append_left _ h); omega⟩
      · exact Or.inr ⟨by omega, h⟩
  have hcount : ∀ b, ((blocks pre ++ List.replicate q s).map (· * L)).count (b * L) = (blocks pre ++ List.replicate q s).count b := by
    intro b
    exact List.count_map_of_injective _ _ (fun x y h => Nat.eq_of_mul_eq_mul_right hL h) b
  have hceil : ∀ b ∈ pre ++ [s], ceilDiv ((blocks pre ++ List.replicate q s).count b) b = (pre ++ [s]).count b := by
    intro b hb
    have hb0 := viable_pos hv hb
    rw [List.count_append, count_blocks, List.count_replicate, List.count_append, List.count_singleton]
    by_cases hs : s = b
    · subst hs
      simp only [beq_self_eq_true, if_true]
      exact ceilDiv_eq h1 h2
    · have : (s == b) = false := by simpa using hs
      simp only [this]
      simpa using ceilDiv_mul (m := pre.count b) hb0
  unfold summarise
  rw [hfold]
  constructor
  · rw [List.map_map]
    exact f1
  · intro size count
    rw [List.mem_map]
    constructor
    · rintro ⟨⟨k, v⟩, hkv, he⟩
      obtain ⟨hk, hv'⟩ := (f2 k v).mp hkv
      obtain ⟨b, hb, rfl⟩ := List.mem_map.mp hk
      injection he with e1 e2
      simp only at e1 e2
      have hb' := (hmem b).mp hb
      refine ⟨b, hb', e1.symm, ?_⟩
      rw [← e2, hv', hcount, Nat.mul_div_cancel _ hL]
      exact hceil b hb'
    · rintro ⟨b, hb, rfl, rfl⟩
      refine ⟨(b * L, (blocks pre ++ List.replicate q s).count b), (f2 _ _).mpr ⟨List.mem_map.mpr ⟨b, (hmem b).mpr hb, rfl⟩, (hcount b).symm⟩, ?_⟩
      simp only
      rw [Nat.mul_div_cancel _ hL, hceil b hb]

/-! ## The whole -/

theorem mapM_spec {α β : Type} {f : α → Option β} {P : α → β → Prop} : ∀ (l : List α), (∀ a ∈ l, ∃ b, f a = some b ∧ P a b) →
    ∃ r, l.mapM f = some r ∧ List.Forall₂ P l r := by
  intro l
  induction l with
  | nil => intro _; exact ⟨[], rfl, List.Forall₂.nil⟩
  | cons a l ih =>
    intro h
    obtain ⟨b, h1, h2⟩ := h a (by simp)
    obtain ⟨r, h3, h4⟩ := ih fun x hx => h x (by simp [hx])
    refine ⟨b :: r, ?_, List.Forall₂.cons h2 h4⟩
    rw [List.mapM_cons, h1]
    simp [h3]

theorem findOptimum_spec {L N irSize : ℕ} (hL : 0 < L) (hN : irSize / L = N) (h2 : 2 ≤ N) :
    ∃ tables, findOptimum L irSize = some tables ∧ tables ≠ [] ∧
      ∀ table ∈ tables, ∃ bs, Viable bs ∧ CoversBlocks N bs ∧ Tabulates L bs table ∧
        ∀ bs', Viable bs' → CoversBlocks N bs' → partitioningCost L bs ≤ partitioningCost L bs' := by
  obtain ⟨seq, g, hg, hI⟩ := buildGraph_spec L N
  obtain ⟨best, b, hb, hne, hbest, hmin, _⟩ := bestLeafs_spec hL hI (by omega)
  have hstep : ∀ leaf ∈ best, ∃ table, ((traceBackward g (N + 1) leaf).map fun tr => summarise L tr.reverse) = some table ∧
      ∃ bs, Viable bs ∧ CoversBlocks N bs ∧ Tabulates L bs table ∧
        ∀ bs', Viable bs' → CoversBlocks N bs' → partitioningCost L bs ≤ partitioningCost L bs' := by
    intro leaf hl
    obtain ⟨e, rfl, hc⟩ := hbest leaf hl
    obtain ⟨tr, pre, t1, t2, t3, t4, t5⟩ := trace_spec hI (N - 1) (N + 1) e b (by omega) hc
    have ie := (hI.sound _ _ _ hc).2.1
    have q1 := ie.2.1
    have q2 := ie.2.2.1
    refine ⟨_, by rw [t1]; rfl, pre ++ [e.s], t2, ⟨?_, ?_⟩, summarise_spec hL t2 q1 q2 t5, ?_⟩
    · rw [List.dropLast_concat]; omega
    · rw [List.sum_append, List.sum_singleton]; omega
    · intro bs' hv' hcov
      obtain ⟨pre', s', rfl⟩ := (List.eq_nil_or_concat bs').resolve_left (viable_ne_nil hv')
      rw [List.concat_eq_append] at hv' hcov ⊢
      obtain ⟨x1, x2⟩ := hcov
      rw [List.dropLast_concat] at x1
      rw [List.sum_append, List.sum_singleton] at x2
      obtain ⟨c, c1, c2⟩ := hI.complete (N - 1) (le_refl _) pre' s' (N - pre'.sum) hv' (by omega) (by omega) (by omega)
      rw [t4]
      exact le_trans (hmin _ _ c1) c2
  obtain ⟨tables, ht, hf⟩ := mapM_spec best hstep
  refine ⟨tables, ?_, ?_, ?_⟩
  · unfold findOptimum
    rw [if_neg (by omega)]
    simp only [hN, hg, hb, Option.bind_eq_bind, Option.bind_some]
    exact ht
  · rintro rfl
    have := List.forall₂_nil_right_iff.mp hf
    exact hne this
  · intro table hm
    obtain ⟨n, hn, rfl⟩ := List.getElem_of_mem hm
    have := (List.forall₂_iff_get.mp hf).2 n (by rw [hf.length_eq]; exact hn) hn
    exact this

theorem findOptimum_short {L irSize : ℕ} (hL : 0 < L) (h : irSize / L < 2) : findOptimum L irSize = some [] := by
  obtain ⟨seq, g, hg, hI⟩ := buildGraph_spec L (irSize / L)
  have h0 : irSize / L - 1 = 0 := by omega
  rw [h0] at hI
  unfold findOptimum
  rw [if_neg (by omega)]
  simp only [hg, Option.bind_eq_bind, Option.bind_some, bestLeafs, leafs_root hI]
  rfl

end Zones.Proofs.Garcia
