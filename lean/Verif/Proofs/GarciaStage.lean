import Verif.Proofs.GarciaGraph

open Zones.Model.Garcia Zones.Spec

namespace Zones.Proofs.Garcia

/-! ## One stage of the dynamic program -/

/-- The state at transition `t` for position `q` of a partition of `s` blocks. -/
def elAt (t s q : ℕ) : El := ⟨t + 1 + s - q, s, q⟩

theorem inSeq_elAt {t : ℕ} {e : El} (h : InSeq t e) : e = elAt t e.s e.q := by
  obtain ⟨_, _, h3, _, h5⟩ := h
  cases e
  simp only [elAt, El.mk.injEq, and_true] at *
  omega

noncomputable abbrev tc (L : ℕ) (a b : El) : Option ℝ := transitionCost a b L (17 / 10)

theorem viable_cost (L : ℕ) {a b : El} (h : isTransitionViable a b = true) : ∃ c, tc L a b = some c := by
  unfold isTransitionViable at h
  simp only [Bool.and_eq_true, Bool.or_eq_true, decide_eq_true_eq] at h
  unfold tc transitionCost
  rcases h.1 with ⟨_, h2, h3⟩ | ⟨h1, h2⟩
  · split_ifs with x y z
    · exact ⟨_, rfl⟩
    · exact ⟨_, rfl⟩
    · exact ⟨_, rfl⟩
    · omega
  · rw [if_pos ⟨h1, h2.symm⟩]
    exact ⟨_, rfl⟩

/-- What is known while the edges of stage `t` to `t + 1` are added to the graph `g0`; `D`: the transitions dealt with. -/
structure J (L t : ℕ) (g0 : Graph) (D : El → El → Prop) (g : Graph) : Prop where
  old : ∀ t' ≤ t, ∀ e, g.cost? (t', e) = g0.cost? (t', e) ∧ inE g (t', e) = inE g0 (t', e)
  far : ∀ t' > t + 1, ∀ e, g.cost? (t', e) = none ∧ inE g (t', e) = []
  new : ∀ e, (g.cost? (t + 1, e) = none ∧ inE g (t + 1, e) = [] ∧ ∀ e1, ¬ D e1 e) ∨
    ∃ e1 c1 c, D e1 e ∧ g0.cost? (t, e1) = some c1 ∧ tc L e1 e = some c ∧ g.cost? (t + 1, e) = some (c + c1) ∧
      inE g (t + 1, e) = [((t, e1), (t + 1, e))] ∧
      ∀ e1' c1' c', D e1' e → g0.cost? (t, e1') = some c1' → tc L e1' e = some c' → c + c1 ≤ c' + c1'

theorem J.congr {L t : ℕ} {g0 g : Graph} {D D' : El → El → Prop} (h : J L t g0 D g) (hD : ∀ a b, D' a b ↔ D a b) :
    J L t g0 D' g := by
  have : D' = D := by funext a b; exact propext (hD a b)
  rw [this]; exact h

theorem J.relax {L t : ℕ} {g0 g : Graph} {D : El → El → Prop} (h : J L t g0 D g) {e1 e2 : El} {c1 c : ℝ}
    (h1 : g0.cost? (t, e1) = some c1) (h2 : tc L e1 e2 = some c) :
    J L t g0 (fun a b => D a b ∨ (a = e1 ∧ b = e2)) (g.relax (t, e1) (t + 1, e2) (c + c1)) := by
  refine ⟨fun t' ht e => ?_, fun t' ht e => ?_, fun e => ?_⟩
  · have hne : ((t', e) : Key) ≠ (t + 1, e2) := by
      intro h; injection h with h _; omega
    rw [cost_relax, if_neg hne, inE_relax_ne _ _ _ _ _ hne]
    exact h.old t' ht e
  · have hne : ((t', e) : Key) ≠ (t + 1, e2) := by
      intro h; injection h with h _; omega
    rw [cost_relax, if_neg hne, inE_relax_ne _ _ _ _ _ hne]
    exact h.far t' ht e
  · by_cases he : e = e2
    · subst he
      right
      rcases h.new e with ⟨a1, a2, a3⟩ | ⟨p, d1, d, b1, b2, b3, b4, b5, b6⟩
      · refine ⟨e1, c1, c, Or.inr ⟨rfl, rfl⟩, h1, h2, ?_, inE_relax_new _ _ _ _ a1 a2, ?_⟩
        · rw [cost_relax, if_pos rfl, a1]
        · rintro e1' c1' c' (hD | ⟨rfl, _⟩) x y
          · exact absurd hD (a3 _)
          · rw [h1] at x; rw [h2] at y
            injection x with x; injection y with y
            rw [x, y]
      · by_cases hx : c + c1 < d + d1
        · refine ⟨e1, c1, c, Or.inr ⟨rfl, rfl⟩, h1, h2, ?_, inE_relax_better _ _ _ _ _ b4 hx ?_, ?_⟩
          · rw [cost_relax, if_pos rfl, b4]
            simp only [hx, if_true]
          · rw [b5, List.mem_singleton]
            intro hk
            injection hk with hk _
            injection hk with _ hk
            subst hk
            rw [b2] at h1; rw [b3] at h2
            injection h1 with h1; injection h2 with h2
            rw [h1, h2] at hx
            exact absurd hx (lt_irrefl _)
          · rintro e1' c1' c' (hD | ⟨rfl, _⟩) x y
            · have := b6 _ _ _ hD x y
              linarith
            · rw [h1] at x; rw [h2] at y
              injection x with x; injection y with y
              rw [x, y]
        · rw [inE_relax_worse _ _ _ _ _ b4 hx]
          refine ⟨p, d1, d, Or.inl b1, b2, b3, b4, b5, ?_⟩
          rintro e1' c1' c' (hD | ⟨rfl, _⟩) x y
          · exact b6 _ _ _ hD x y
          · rw [h1] at x; rw [h2] at y
            injection x with x; injection y with y
            rw [← x, ← y]
            exact not_lt.mp hx
    · have hne : ((t + 1, e) : Key) ≠ (t + 1, e2) := by
        intro h; injection h with _ h; exact he h
      rw [cost_relax, if_neg hne, inE_relax_ne _ _ _ _ _ hne]
      rcases h.new e with ⟨a1, a2, a3⟩ | ⟨p, d1, d, b1, b2, b3, b4, b5, b6⟩
      · left
        refine ⟨a1, a2, fun e1' hD => ?_⟩
        rcases hD with hD | ⟨_, hD⟩
        · exact a3 _ hD
        · exact he hD
      · right
        refine ⟨p, d1, d, Or.inl b1, b2, b3, b4, b5, ?_⟩
        rintro e1' c1' c' (hD | ⟨_, hD⟩) x y
        · exact b6 _ _ _ hD x y
        · exact absurd hD he

theorem J.inner {L t : ℕ} {g0 : Graph} {e1 : El} {c1 : ℝ} (h1 : g0.cost? (t, e1) = some c1) :
    ∀ (l : List El) (D : El → El → Prop) (g : Graph), J L t g0 D g → (∀ e2 ∈ l, ∃ c, tc L e1 e2 = some c) →
      ∃ g', l.foldlM (fun g e2 => (tc L e1 e2).map fun c => g.relax (t, e1) (t + 1, e2) (c + c1)) g = some g' ∧
        J L t g0 (fun a b => D a b ∨ (a = e1 ∧ b ∈ l)) g' := by
  intro l
  induction l with
  | nil =>
    intro D g h _
    exact ⟨g, rfl, h.congr fun a b => by simp⟩
  | cons e2 l ih =>
    intro D g h hc
    obtain ⟨c, hc2⟩ := hc e2 (by simp)
    obtain ⟨g', hg, hJ⟩ := ih _ _ (h.relax h1 hc2) fun e he => hc e (by simp [he])
    refine ⟨g', ?_, hJ.congr fun a b => ?_⟩
    · rw [List.foldlM_cons, hc2]
      exact hg
    · rw [List.mem_cons]
      tauto

theorem J.outer {L t : ℕ} {g0 : Graph} {next : List El} :
    ∀ (l : List El) (D : El → El → Prop) (g : Graph), J L t g0 D g →
      ∃ g', l.foldlM (relaxFrom L (17 / 10) (t + 1) next) g = some g' ∧
        J L t g0 (fun a b => D a b ∨ (a ∈ l ∧ (∃ c, g0.cost? (t, a) = some c) ∧ b ∈ viableTransitions a next)) g' := by
  intro l
  induction l with
  | nil =>
    intro D g h
    exact ⟨g, rfl, h.congr fun a b => by simp⟩
  | cons e l ih =>
    intro D g h
    obtain ⟨g1, hg1, hJ1⟩ : ∃ g1, relaxFrom L (17 / 10) (t + 1) next g e = some g1 ∧
        J L t g0 (fun a b => D a b ∨ (a = e ∧ (∃ c, g0.cost? (t, a) = some c) ∧ b ∈ viableTransitions a next)) g1 := by
      unfold relaxFrom
      rw [Nat.add_sub_cancel, (h.old t (le_refl _) e).1]
      cases hc : g0.cost? (t, e) with
      | none =>
        refine ⟨g, rfl, h.congr fun a b => ?_⟩
        constructor
        · rintro (h | ⟨rfl, ⟨c, h⟩, _⟩)
          · exact h
          · rw [hc] at h; cases h
        · exact Or.inl
      | some c1 =>
        obtain ⟨g1, hg1, hJ⟩ := J.inner hc (viableTransitions e next) D g h fun e2 he => viable_cost L (List.mem_filter.mp he).2
        refine ⟨g1, hg1, hJ.congr fun a b => ?_⟩
        constructor
        · rintro (h | ⟨rfl, _, h⟩)
          · exact Or.inl h
          · exact Or.inr ⟨rfl, h⟩
        · rintro (h | ⟨rfl, h⟩)
          · exact Or.inl h
          · exact Or.inr ⟨rfl, ⟨_, hc⟩, h⟩
    obtain ⟨g', hg', hJ'⟩ := ih _ _ hJ1
    refine ⟨g', ?_, hJ'.congr fun a b => ?_⟩
    · rw [List.foldlM_cons, hg1]
      exact hg'
    · rw [List.mem_cons]
      tauto

/-- What is known of the graph with the stages up to `t`. -/
structure GInv (L t : ℕ) (g : Graph) : Prop where
  sound : ∀ t' e c, g.cost? (t', e) = some c → t' ≤ t ∧ InSeq t' e ∧
    ∃ pre, Viable (pre ++ [e.s]) ∧ pre.sum + e.q = t' + 1 ∧ partitioningCost L (pre ++ [e.s]) = c
  complete : ∀ t' ≤ t, ∀ pre s q, Viable (pre ++ [s]) → 1 ≤ q → q ≤ s → pre.sum + q = t' + 1 →
    ∃ c, g.cost? (t', elAt t' s q) = some c ∧ c ≤ partitioningCost L (pre ++ [s])
  root : ∀ e, inE g (0, e) = []
  absent : ∀ k, g.cost? k = none → inE g k = []
  edge : ∀ t' e c, g.cost? (t' + 1, e) = some c → ∃ e1 c1 d, inE g (t' + 1, e) = [((t', e1), (t' + 1, e))] ∧
    g.cost? (t', e1) = some c1 ∧ isTransitionViable e1 e = true ∧ tc L e1 e = some d ∧ c = d + c1

theorem ginv_init (L : ℕ) : GInv L 0 ⟨[((0, ⟨1, 1, 1⟩), 0)], []⟩ := by
  have hc : ∀ k : Key, (⟨[((0, ⟨1, 1, 1⟩), 0)], []⟩ : Graph).cost? k = if k = (0, ⟨1, 1, 1⟩) then some 0 else none := by
    intro k
    unfold Graph.cost?
    simp only [List.lookup_cons, List.lookup_nil]
    by_cases h : k = (0, ⟨1, 1, 1⟩)
    · subst h; simp
    · have : (k == ((0, ⟨1, 1, 1⟩) : Key)) = false := by simpa using h
      simp [this, h]
  refine ⟨?_, ?_, fun _ => rfl, fun _ _ => rfl, ?_⟩
  · intro t' e c h
    rw [hc] at h
    split at h
    · rename_i he
      injection he with h1 h2
      injection h with h
      subst h1 h2 h
      exact ⟨le_refl _, ⟨⟨0, rfl⟩, le_refl _, le_refl _, le_refl _, rfl⟩, [], viable_single, rfl, rfl⟩
    · cases h
  · intro t' ht pre s q hv h1 h2 h3
    have hs : pre = [] := by
      cases pre with
      | nil => rfl
      | cons a as =>
        have : 0 < a := viable_pos hv (b := a) (by simp)
        simp only [List.sum_cons] at h3
        omega
    subst hs
    have := hv.first
    simp at this
    subst this
    have : t' = 0 := by omega
    subst this
    have : q = 1 := by omega
    subst this
    exact ⟨0, by rw [hc]; rfl, by simp [partitioningCost]⟩
  · intro t' e c h
    rw [hc] at h
    split at h
    · rename_i he
      injection he with h1 _
      omega
    · cases h

theorem elAt_inSeq {t : ℕ} {pre : List ℕ} {s q : ℕ} (hv : Viable (pre ++ [s])) (h1 : 1 ≤ q) (h2 : q ≤ s) (h3 : pre.sum + q = t + 1) :
    InSeq t (elAt t s q) := by
  refine ⟨hv.powers s (by simp), h1, h2, ?_, ?_⟩
  · simp only [elAt]
    by_cases hp : pre = []
    · subst hp
      have := hv.first
      simp at this h3
      omega
    · have := hv.clearance pre s [] rfl hp
      omega
  · simp only [elAt]
    omega

theorem trans_cont {t s q : ℕ} (hq : 1 ≤ q) : isTransitionViable (elAt t s q) (elAt (t + 1) s (q + 1)) = true ∧
    ∀ L, tc L (elAt t s q) (elAt (t + 1) s (q + 1)) = some 0 := by
  constructor
  · unfold isTransitionViable
    have : ¬ q + 1 = 1 := by omega
    simp [elAt, this]
    omega
  · intro L
    unfold tc transitionCost
    rw [if_pos ⟨rfl, rfl⟩]

theorem trans_new {t a s : ℕ} (ha : 1 ≤ a) (has : a ≤ s) (hc : 2 * s ≤ t + 2) :
    isTransitionViable (elAt t a a) (elAt (t + 1) s 1) = true ∧
    ∀ L, tc L (elAt t a a) (elAt (t + 1) s 1) = some (stepCost L a s) := by
  constructor
  · unfold isTransitionViable
    simp [elAt, has]
    omega
  · intro L
    unfold tc transitionCost stepCost elAt
    simp only
    rw [if_neg (by omega)]
    by_cases h : a = s
    · simp [h]
    · have : a < s := by omega
      simp only [h, this, false_and, true_and, if_false, if_true]
      rw [add_comm]

/-- What a viable transition is. -/
theorem trans_cases {t : ℕ} {a b : El} (ha : InSeq t a) (hb : InSeq (t + 1) b) (h : isTransitionViable a b = true) :
    (a.s = b.s ∧ b.q = a.q + 1) ∨ (a.q = a.s ∧ b.q = 1 ∧ a.s ≤ b.s ∧ 2 * b.s ≤ t + 2) := by
  unfold isTransitionViable at h
  simp only [Bool.and_eq_true, Bool.or_eq_true, decide_eq_true_eq] at h
  rcases h with ⟨⟨h1, h2, h3⟩ | h1, h4⟩
  · right
    rw [if_pos h2] at h4
    have h5 := ha.2.2.2.2
    have := of_decide_eq_true h4
    refine ⟨h1.symm, h2, h3, ?_⟩
    omega
  · exact Or.inl h1

theorem ginv_step {L t : ℕ} {seq next : List El} {g0 : Graph} (hs : SeqInv t seq) (hn : SeqInv (t + 1) next) (h : GInv L t g0) :
    ∃ g, seq.foldlM (relaxFrom L (17 / 10) (t + 1) next) g0 = some g ∧ GInv L (t + 1) g := by
  have h0 : J L t g0 (fun _ _ => False) g0 := by
    have hnone : ∀ t' > t, ∀ e, g0.cost? (t', e) = none := by
      intro t' ht e
      cases hc : g0.cost? (t', e) with
      | none => rfl
      | some c =>
        have := (h.sound t' e c hc).1
        omega
    refine ⟨fun _ _ _ => ⟨rfl, rfl⟩, fun t' ht e => ?_, fun e => Or.inl ?_⟩
    · have := hnone t' (by omega) e
      exact ⟨this, h.absent _ this⟩
    · have := hnone (t + 1) (by omega) e
      exact ⟨this, h.absent _ this, fun _ => id⟩
  obtain ⟨g, hg, hJ⟩ := J.outer (next := next) seq _ _ h0
  refine ⟨g, hg, ?_⟩
  have hD : ∀ {a b}, (False ∨ (a ∈ seq ∧ (∃ c, g0.cost? (t, a) = some c) ∧ b ∈ viableTransitions a next)) →
      InSeq t a ∧ InSeq (t + 1) b ∧ isTransitionViable a b = true := by
    rintro a b (h | ⟨h1, _, h2⟩)
    · exact h.elim
    · have := List.mem_filter.mp h2
      exact ⟨(hs.mem a).mp h1, (hn.mem b).mp this.1, this.2⟩
  have hD' : ∀ {a b c}, InSeq t a → InSeq (t + 1) b → isTransitionViable a b = true → g0.cost? (t, a) = some c →
      (False ∨ (a ∈ seq ∧ (∃ c, g0.cost? (t, a) = some c) ∧ b ∈ viableTransitions a next)) := by
    intro a b c h1 h2 h3 h4
    exact Or.inr ⟨(hs.mem a).mpr h1, ⟨_, h4⟩, List.mem_filter.mpr ⟨(hn.mem b).mpr h2, h3⟩⟩
  refine ⟨?_, ?_, ?_, ?_, ?_⟩
  · intro t' e c hc
    by_cases h1 : t' ≤ t
    · rw [(hJ.old t' h1 e).1] at hc
      have := h.sound t' e c hc
      exact ⟨by omega, this.2⟩
    · by_cases h2 : t' = t + 1
      · subst h2
        refine ⟨le_refl _, ?_⟩
        rcases hJ.new e with ⟨a1, _, _⟩ | ⟨p, d1, d, b1, b2, b3, b4, _, _⟩
        · rw [a1] at hc; cases hc
        · obtain ⟨ip, ie, vp⟩ := hD b1
          refine ⟨ie, ?_⟩
          obtain ⟨_, _, pre, hv, hsum, hcost⟩ := h.sound t p d1 b2
          rw [b4] at hc
          injection hc with hc
          rcases trans_cases ip ie vp with ⟨x1, x2⟩ | ⟨x1, x2, x3, x4⟩
          · refine ⟨pre, x1 ▸ hv, by omega, ?_⟩
            have : d = 0 := by
              unfold tc transitionCost at b3
              rw [if_pos ⟨x1, x2.symm⟩] at b3
              injection b3 with b3
              exact b3.symm
            rw [← x1, hcost, ← hc, this, zero_add]
          · have hq1 := ip.2.1
            refine ⟨pre ++ [p.s], ?_, ?_, ?_⟩
            · rw [viable_snoc]
              exact ⟨hv, ie.1, x3, by omega⟩
            · rw [List.sum_append, List.sum_singleton]
              omega
            · rw [cost_snoc, hcost, ← hc, add_comm]
              congr 1
              have hp := inSeq_elAt ip
              have he := inSeq_elAt ie
              rw [x1] at hp
              rw [x2] at he
              have := (trans_new (t := t) (a := p.s) (s := e.s) (by omega) x3 x4).2 L
              rw [← hp, ← he, b3] at this
              injection this with this
              exact this.symm
      · rw [(hJ.far t' (by omega) e).1] at hc
        cases hc
  · intro t' ht pre s q hv h1 h2 h3
    by_cases ht' : t' ≤ t
    · rw [(hJ.old t' ht' _).1]
      exact h.complete t' ht' pre s q hv h1 h2 h3
    · have : t' = t + 1 := by omega
      subst this
      have ie := elAt_inSeq hv h1 h2 h3
      -- a predecessor
      obtain ⟨a, ca, d, ha1, ha2, ha3, ha4, ha5⟩ : ∃ a ca d, InSeq t a ∧ g0.cost? (t, a) = some ca ∧
          isTransitionViable a (elAt (t + 1) s q) = true ∧ tc L a (elAt (t + 1) s q) = some d ∧
          d + ca ≤ partitioningCost L (pre ++ [s]) := by
        by_cases hq : q = 1
        · subst hq
          rcases List.eq_nil_or_concat pre with rfl | ⟨pre', a, rfl⟩
          · simp at h3
          · rw [List.concat_eq_append] at hv h3 ⊢
            obtain ⟨v1, _, v3, v4⟩ := viable_snoc.mp hv
            rw [List.sum_append, List.sum_singleton] at h3
            have ha0 : 1 ≤ a := viable_pos v1 (by simp)
            obtain ⟨ca, c1, c2⟩ := h.complete t (le_refl _) pre' a a v1 ha0 (le_refl _) (by omega)
            have hn := trans_new (t := t) (a := a) (s := s) ha0 v3 (by omega)
            refine ⟨elAt t a a, ca, _, elAt_inSeq v1 ha0 (le_refl _) (by omega), c1, hn.1, hn.2 L, ?_⟩
            rw [cost_snoc]
            linarith
        · obtain ⟨q', rfl⟩ : ∃ q', q = q' + 1 := ⟨q - 1, by omega⟩
          obtain ⟨ca, c1, c2⟩ := h.complete t (le_refl _) pre s q' hv (by omega) (by omega) (by omega)
          have hn := trans_cont (t := t) (s := s) (q := q') (by omega)
          exact ⟨elAt t s q', ca, 0, elAt_inSeq hv (by omega) (by omega) (by omega), c1, hn.1, hn.2 L, by linarith⟩
      have hDa := hD' ha1 ie ha3 ha2
      rcases hJ.new (elAt (t + 1) s q) with ⟨_, _, a3⟩ | ⟨p, d1, d', b1, b2, b3, b4, _, b6⟩
      · exact absurd hDa (a3 _)
      · refine ⟨_, b4, ?_⟩
        have := b6 _ _ _ hDa ha2 ha4
        linarith
  · intro e
    rw [(hJ.old 0 (Nat.zero_le _) e).2]
    exact h.root e
  · rintro ⟨t', e⟩ hc
    by_cases h1 : t' ≤ t
    · rw [(hJ.old t' h1 e).1] at hc
      rw [(hJ.old t' h1 e).2]
      exact h.absent _ hc
    · by_cases h2 : t' = t + 1
      · subst h2
        rcases hJ.new e with ⟨_, a2, _⟩ | ⟨p, d1, d', b1, b2, b3, b4, _, b6⟩
        · exact a2
        · rw [hc] at b4; cases b4
      · exact (hJ.far t' (by omega) e).2
  · intro t' e c hc
    by_cases h1 : t' + 1 ≤ t
    · rw [(hJ.old (t' + 1) h1 e).1] at hc
      obtain ⟨e1, c1, d, x1, x2, x3⟩ := h.edge t' e c hc
      refine ⟨e1, c1, d, ?_, ?_, x3⟩
      · rw [(hJ.old (t' + 1) h1 e).2]
        exact x1
      · rw [(hJ.old t' (by omega) e1).1]
        exact x2
    · by_cases h2 : t' = t
      · subst h2
        rcases hJ.new e with ⟨a1, _, _⟩ | ⟨p, d1, d, b1, b2, b3, b4, b5, _⟩
        · rw [a1] at hc; cases hc
        · rw [b4] at hc
          injection hc with hc
          exact ⟨p, d1, d, b5, by rw [(hJ.old t' (le_refl _) p).1]; exact b2, (hD b1).2.2, b3, hc.symm⟩
      · rw [(hJ.far (t' + 1) (by omega) e).1] at hc
        cases hc

theorem build_spec (L : ℕ) : ∀ t, ∃ seq g,
    ((List.range t).map (· + 1)).foldlM (stage L (17 / 10)) ([⟨1, 1, 1⟩], ⟨[((0, ⟨1, 1, 1⟩), 0)], []⟩) = some (seq, g) ∧
      SeqInv t seq ∧ GInv L t g := by
  intro t
  induction t with
  | zero => exact ⟨_, _, rfl, seqInv_init, ginv_init L⟩
  | succ t ih =>
    obtain ⟨seq, g, h1, h2, h3⟩ := ih
    obtain ⟨next, hn, hn'⟩ := seqInv_next h2
    obtain ⟨g', hg, hg'⟩ := ginv_step h2 hn' h3
    refine ⟨next, g', ?_, hn', hg'⟩
    rw [List.range_succ, List.map_append, List.foldlM_append, h1]
    show (List.foldlM (stage L (17 / 10)) (seq, g) [t + 1]) = _
    rw [List.foldlM_cons]
    unfold stage
    simp only [hn, hg, Option.bind_eq_bind, Option.bind_some, List.foldlM_nil, pure]

theorem buildGraph_spec (L n : ℕ) : ∃ seq g, buildGraph L n (17 / 10) = some (seq, g) ∧ GInv L (n - 1) g := by
  obtain ⟨seq, g, h1, _, h3⟩ := build_spec L (n - 1)
  exact ⟨seq, g, h1, h3⟩

end Zones.Proofs.Garcia
