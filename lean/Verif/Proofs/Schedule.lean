import Verif.Proofs.FFTMore

/-! # The decomposition schedules: which point has received which level at which time -/

open Finset Zones.Spec Zones.Model

namespace Zones.Proofs

/-- phase (relative to the level's own start) in which level `l` treats point `i` -/
def tau (b p l i : ℕ) : ℕ := (i % 2^(b+p-l)) / 2^b

theorem tau_lt {b p l i : ℕ} (hl : l ≤ p) : tau b p l i < 2^(p-l) := by
  unfold tau
  rw [Nat.div_lt_iff_lt_mul (by positivity), ← pow_add]
  calc i % 2^(b+p-l) < 2^(b+p-l) := Nat.mod_lt _ (by positivity)
    _ = _ := by congr 1; omega

theorem tau_succ {b p l : ℕ} (hl : l < p) (i : ℕ) :
    tau b p l i = tau b p (l+1) i ∨ tau b p l i = tau b p (l+1) i + 2^(p-(l+1)) := by
  unfold tau
  have e : (2:ℕ)^(b+p-l) = 2^(b+p-(l+1)) * 2 := by rw [← pow_succ]; congr 1; omega
  have e2 : (2:ℕ)^(b+p-(l+1)) = 2^b * 2^(p-(l+1)) := by rw [← pow_add]; congr 1; omega
  rw [e, Nat.mod_mul]
  rcases Nat.mod_two_eq_zero_or_one (i / 2^(b+p-(l+1))) with h | h
  · left; rw [h, mul_zero, add_zero]
  · right; rw [h, mul_one, e2, Nat.add_mul_div_left _ _ (by positivity)]

theorem tau_anti {b p : ℕ} {l l' : ℕ} (hll : l ≤ l') (hl' : l' ≤ p) (i : ℕ) :
    tau b p l' i ≤ tau b p l i := by
  induction l', hll using Nat.le_induction with
  | base => exact le_rfl
  | succ k hk ih =>
    have := ih (by omega)
    have hp : 0 < 2^(p-(k+1)) := by positivity
    rcases tau_succ (b := b) (p := p) (l := k) (by omega) i with h | h <;> omega

theorem tau_low {b p l : ℕ} (i : ℕ) :
    tau b p l (low (2^(b+p-l)) i) = tau b p l i ∧
    tau b p l (low (2^(b+p-l)) i + 2^(b+p-l)) = tau b p l i := by
  unfold tau
  have := low_mod_h (h := 2^(b+p-l)) (by positivity) i
  rw [this.1, this.2]; exact ⟨rfl, rfl⟩

theorem closed_lt' {b p l : ℕ} (i : ℕ) (hi : i < 2^(b+p+1)) :
    low (2^(b+p-l)) i < 2^(b+p+1) ∧ low (2^(b+p-l)) i + 2^(b+p-l) < 2^(b+p+1) :=
  closed_lt (a := b+p-l) (n := b+p+1) (by omega) i hi

/-! ## inverse -/

/-- one level of one phase of the inverse schedule -/
theorem invLevel_eq {b p l ph sz : ℕ} (hl : l ≤ p) (hsz : 2^(b+p+1) ≤ sz) (d : ℕ → ℂ) :
    (let numSegments := 2 ^ l
     let numSteps := 2^p / numSegments
     if ph < numSteps then segmentedInverse sz (2^(b+p+1)) numSegments numSteps ph d else some d)
      = some (onSet (fun x => x < 2^(b+p+1) ∧ tau b p l x = ph) (ilev (2^(b+p-l))) d) := by
  simp only [Nat.pow_div hl (by norm_num : 0 < 2)]
  split
  · next h =>
    rw [segmentedInverse_eq (by omega) (by omega) h hsz]
    have e : b + p + 1 - 1 - l = b + p - l := by omega
    have e2 : b + p - l - (p - l) = b := by omega
    refine congrArg some (funext fun x => ?_)
    simp only [onSet, e, e2, tau]
    split_ifs with hh <;> simp [hh]
  · next h =>
    refine congrArg some (funext fun x => ?_)
    have := tau_lt (b := b) (i := x) hl
    rw [onSet, if_neg (by omega)]

/-- level `l'` of point `i` has been undone after phases `< ph` and the levels `≥ l` of phase `ph` -/
def InvDone (b p ph l l' i : ℕ) : Prop := tau b p l' i < ph ∨ (tau b p l' i = ph ∧ l ≤ l')

/-- state of the inverse schedule started from the `nd`-level decomposition of `z` -/
def InvSched (b p nd : ℕ) (z : ℕ → ℂ) (ph l : ℕ) (d : ℕ → ℂ) : Prop :=
  ∀ i < 2^(b+p+1), ∀ m ≤ nd, (∀ l' < nd, InvDone b p ph l l' i ↔ m ≤ l') → d i = Fl (b+p+1) m z i

theorem InvSched_level {b p nd ph l : ℕ} {z d : ℕ → ℂ} (hnd : nd ≤ p + 1) (hl : l < nd)
    (h : InvSched b p nd z ph (l+1) d) :
    InvSched b p nd z ph l
      (onSet (fun x => x < 2^(b+p+1) ∧ tau b p l x = ph) (ilev (2^(b+p-l))) d) := by
  intro i hi m hm hD
  unfold onSet
  by_cases ht : tau b p l i = ph
  · rw [if_pos ⟨hi, ht⟩]
    have hml : m = l := by
      have h1 := (hD l hl).mp (Or.inr ⟨ht, le_rfl⟩)
      rcases Nat.lt_or_ge m l with hlt | hge
      · have := (hD m (by omega)).mpr le_rfl
        have h3 := tau_anti (b := b) (p := p) hlt.le (by omega) i
        rcases this with h4 | h4 <;> omega
      · omega
    subst hml
    have key : ∀ y, y < 2^(b+p+1) → tau b p m y = ph → d y = Fl (b+p+1) (m+1) z y := by
      intro y hy hty
      apply h y hy (m+1) (by omega)
      intro l' hl'
      constructor
      · intro hd
        by_contra hc
        have h3 := tau_anti (b := b) (p := p) (show l' ≤ m by omega) (by omega) y
        rcases hd with h4 | h4 <;> omega
      · intro hc
        have h3 := tau_anti (b := b) (p := p) (show m ≤ l' by omega) (by omega) y
        rcases Nat.lt_or_ge (tau b p l' y) ph with h4 | h4
        · exact Or.inl h4
        · exact Or.inr ⟨by omega, hc⟩
    have hc := closed_lt' (b := b) (p := p) (l := m) i hi
    have ht2 := tau_low (b := b) (p := p) (l := m) i
    rw [ilev_congr d (Fl (b+p+1) (m+1) z) i (key _ hc.1 (by rw [ht2.1, ht]))
      (key _ hc.2 (by rw [ht2.2, ht]))]
    have := ilev_Fl_succ (n := b+p+1) (l := m) z
    rw [show b + p + 1 - 1 - m = b + p - m by omega] at this
    rw [this]
  · rw [if_neg (by tauto)]
    apply h i hi m hm
    intro l' hl'
    rw [← hD l' hl']
    unfold InvDone
    constructor
    · rintro (h4 | ⟨h4, h5⟩)
      · exact Or.inl h4
      · exact Or.inr ⟨h4, by omega⟩
    · rintro (h4 | ⟨h4, h5⟩)
      · exact Or.inl h4
      · refine Or.inr ⟨h4, ?_⟩
        rcases Nat.lt_or_ge l l' with h6 | h6
        · omega
        · exfalso; have : l' = l := by omega
          subst this; exact ht h4

theorem InvSched_phase {b p nd ph : ℕ} {z d : ℕ → ℂ} {sz : ℕ} (hnd : nd ≤ p + 1)
    (hsz : 2^(b+p+1) ≤ sz) (h : InvSched b p nd z ph nd d) :
    ∃ d', inverseSchedule sz nd (2^(b+p+1)) (2^p) d ph = some d' ∧
      InvSched b p nd z (ph+1) nd d' ∧ (∀ i ≥ 2^(b+p+1), d' i = d i) := by
  unfold inverseSchedule
  have main : ∀ l ≤ nd, ∀ d, InvSched b p nd z ph l d → ∃ d',
      (List.range l).reverse.foldlM (fun d level =>
        let numSegments := 2 ^ level
        let numSteps := 2^p / numSegments
        if ph < numSteps then segmentedInverse sz (2^(b+p+1)) numSegments numSteps ph d
        else some d) d = some d' ∧ InvSched b p nd z ph 0 d' ∧ (∀ i ≥ 2^(b+p+1), d' i = d i) := by
    intro l hl
    induction l with
    | zero => intro d hd; exact ⟨d, rfl, hd, fun _ _ => rfl⟩
    | succ l ih =>
      intro d hd
      rw [List.range_succ, List.reverse_append, List.reverse_singleton, List.singleton_append,
        List.foldlM_cons, invLevel_eq (by omega) hsz]
      obtain ⟨d', h1, h2, h3⟩ := ih (by omega) _ (InvSched_level hnd (by omega) hd)
      refine ⟨d', h1, h2, fun i hi => ?_⟩
      rw [h3 i hi, onSet, if_neg (by omega)]
  obtain ⟨d', h1, h2, h3⟩ := main nd le_rfl d h
  refine ⟨d', h1, ?_, h3⟩
  intro i hi m hm hD
  apply h2 i hi m hm
  intro l' hl'
  rw [← hD l' hl']
  unfold InvDone
  omega

theorem InvSched_init {b p nd : ℕ} {z d : ℕ → ℂ}
    (h : ∀ i < 2^(b+p+1), d i = Fl (b+p+1) nd z i) : InvSched b p nd z 0 nd d := by
  intro i hi m hm hD
  have : m = nd := by
    rcases Nat.lt_or_ge m nd with h1 | h1
    · have := (hD m h1).mpr le_rfl
      unfold InvDone at this; omega
    · omega
  rw [this]; exact h i hi

theorem InvSched_read {b p nd ph : ℕ} {z d : ℕ → ℂ} (hnd : nd ≤ p + 1)
    (h : InvSched b p nd z ph nd d) (i : ℕ) (hi : i < 2^(b+p+1)) (ht : (i % 2^(b+p)) / 2^b < ph) :
    d i = z i := by
  have := h i hi 0 (by omega) ?_
  · simpa [Fl] using this
  · intro l' hl'
    simp only [zero_le, iff_true]
    have h3 := tau_anti (b := b) (p := p) (Nat.zero_le l') (by omega) i
    left
    have : tau b p 0 i = (i % 2^(b+p)) / 2^b := by simp [tau]
    omega

/-! ## forward -/

/-- phase in which level `l` treats point `i` -/
def fwdT (b p l i : ℕ) : ℕ := 2^p - 2^(p-l) + tau b p l i

theorem fwdT_mono {b p : ℕ} {l l' : ℕ} (hll : l ≤ l') (hl' : l' ≤ p) (i : ℕ) :
    fwdT b p l i ≤ fwdT b p l' i := by
  induction l', hll using Nat.le_induction with
  | base => exact le_rfl
  | succ k hk ih =>
    have h0 := ih (by omega)
    unfold fwdT at *
    have e : (2:ℕ)^(p-k) = 2^(p-(k+1)) * 2 := by rw [← pow_succ]; congr 1; omega
    have e1 : (2:ℕ)^(p-k) ≤ 2^p := Nat.pow_le_pow_right (by norm_num) (by omega)
    rcases tau_succ (b := b) (p := p) (l := k) (by omega) i with h | h <;> omega

theorem fwdT_lt {b p l i : ℕ} (hl : l ≤ p) : fwdT b p l i < 2^p := by
  have := tau_lt (b := b) (i := i) hl
  have e1 : (2:ℕ)^(p-l) ≤ 2^p := Nat.pow_le_pow_right (by norm_num) (by omega)
  unfold fwdT; omega

theorem fwdT_zero {b p i : ℕ} : fwdT b p 0 i = (i % 2^(b+p)) / 2^b := by simp [fwdT, tau]

theorem fwdT_low {b p l : ℕ} (i : ℕ) :
    fwdT b p l (low (2^(b+p-l)) i) = fwdT b p l i ∧
    fwdT b p l (low (2^(b+p-l)) i + 2^(b+p-l)) = fwdT b p l i := by
  have := tau_low (b := b) (p := p) (l := l) i
  unfold fwdT; rw [this.1, this.2]; exact ⟨rfl, rfl⟩

theorem fwdLevel_eq {b p l ph sz : ℕ} (hl : l ≤ p) (hph : ph < 2^p) (hsz : 2^(b+p+1) ≤ sz)
    (d : ℕ → ℂ) :
    (let numSegments := 2 ^ l
     let numSteps := 2^p / numSegments
     if ph ≥ 2^p - numSteps then
       if numSteps = 0 then none
       else segmentedForward sz (2^(b+p+1)) numSegments numSteps (ph % numSteps) d
     else some d)
      = some (onSet (fun x => x < 2^(b+p+1) ∧ fwdT b p l x = ph) (lev (2^(b+p-l))) d) := by
  simp only [Nat.pow_div hl (by norm_num : 0 < 2)]
  have e1 : (2:ℕ)^(p-l) ≤ 2^p := Nat.pow_le_pow_right (by norm_num) (by omega)
  have hpos : 0 < (2:ℕ)^(p-l) := by positivity
  split
  · next h =>
    rw [if_neg (by omega), segmentedForward_eq (by omega) (by omega) (Nat.mod_lt _ hpos) hsz]
    have e : b + p + 1 - 1 - l = b + p - l := by omega
    have e2 : b + p - l - (p - l) = b := by omega
    have em : ph % 2^(p-l) = ph - (2^p - 2^(p-l)) := by
      have ed : (2:ℕ)^p - 2^(p-l) = 2^(p-l) * (2^l - 1) := by
        rw [Nat.mul_sub, ← pow_add, mul_one]; congr 2; omega
      conv_lhs => rw [← Nat.sub_add_cancel h]
      rw [ed, Nat.add_mul_mod_self_left, Nat.mod_eq_of_lt]
      rw [← ed]; omega
    refine congrArg some (funext fun x => ?_)
    have ht := tau_lt (b := b) (i := x) hl
    unfold onSet
    simp only [e, e2, em]
    have : (x % 2^(b+p-l) / 2^b = ph - (2^p - 2^(p-l))) ↔ fwdT b p l x = ph := by
      change tau b p l x = _ ↔ _
      unfold fwdT; omega
    simp only [this]
  · next h =>
    refine congrArg some (funext fun x => ?_)
    rw [onSet, if_neg]
    unfold fwdT; omega

/-- level `l'` of point `i` has been applied after phases `< ph` and the levels `< l` of phase `ph` -/
def FwdDone (b p ph l l' i : ℕ) : Prop := fwdT b p l' i < ph ∨ (fwdT b p l' i = ph ∧ l' < l)

/-- the part of the partition that has arrived by phase `ph` -/
def arrived (b ph : ℕ) (x : ℕ → ℂ) (i : ℕ) : ℂ := if i < (ph+1) * 2^b then x i else 0

/-- state of the forward schedule during phase `ph` when `l` levels of this phase have run -/
def FwdSched (b p nd : ℕ) (x : ℕ → ℂ) (ph l : ℕ) (d : ℕ → ℂ) : Prop :=
  ∀ i < 2^(b+p+1), ∀ m ≤ nd, (∀ l' < nd, FwdDone b p ph l l' i ↔ l' < m) →
    d i = if m = 0 then arrived b ph x i else Fl (b+p+1) m x i

theorem low_mod_lt {h : ℕ} (hh : 0 < h) {i : ℕ} (hi : i < 2 * h) : low h i < h ∧ h ≤ low h i + h := by
  unfold low
  rw [Nat.mod_eq_of_lt hi]
  split <;> omega

theorem FwdSched_level {b p nd ph l : ℕ} {x d : ℕ → ℂ} (hx : ∀ i ≥ 2^(b+p), x i = 0)
    (hnd : nd ≤ p + 1) (hl : l < nd)
    (h : FwdSched b p nd x ph l d) :
    FwdSched b p nd x ph (l+1)
      (onSet (fun x => x < 2^(b+p+1) ∧ fwdT b p l x = ph) (lev (2^(b+p-l))) d) := by
  intro i hi m hm hD
  unfold onSet
  by_cases ht : fwdT b p l i = ph
  · rw [if_pos ⟨hi, ht⟩]
    have hml : m = l + 1 := by
      have h1 := (hD l hl).mp (Or.inr ⟨ht, by omega⟩)
      rcases Nat.lt_or_ge (l+1) m with hlt | hge
      · have := (hD (l+1) (by omega)).mpr hlt
        have h3 := fwdT_mono (b := b) (p := p) (show l ≤ l+1 by omega) (by omega) i
        rcases this with h4 | h4 <;> omega
      · omega
    subst hml
    rw [if_neg (by omega)]
    have key : ∀ y, y < 2^(b+p+1) → fwdT b p l y = ph →
        d y = if l = 0 then arrived b ph x y else Fl (b+p+1) l x y := by
      intro y hy hty
      apply h y hy l (by omega)
      intro l' hl'
      constructor
      · intro hd
        by_contra hc
        have h3 := fwdT_mono (b := b) (p := p) (show l ≤ l' by omega) (by omega) y
        rcases hd with h4 | h4 <;> omega
      · intro hc
        have h3 := fwdT_mono (b := b) (p := p) (show l' ≤ l by omega) (by omega) y
        rcases Nat.lt_or_ge (fwdT b p l' y) ph with h4 | h4
        · exact Or.inl h4
        · exact Or.inr ⟨by omega, hc⟩
    have key2 : ∀ y, y < 2^(b+p+1) → fwdT b p l y = ph → d y = Fl (b+p+1) l x y := by
      intro y hy hty
      rw [key y hy hty]
      by_cases h0 : l = 0
      · subst h0
        simp only [if_true, Fl, arrived]
        split
        · rfl
        · next hn =>
          rw [fwdT_zero] at hty
          rcases Nat.lt_or_ge y (2^(b+p)) with h5 | h5
          · exfalso
            rw [Nat.mod_eq_of_lt h5] at hty
            apply hn
            rw [← hty]
            have := Nat.lt_div_mul_add (a := y) (b := 2^b) (by positivity)
            rw [Nat.add_mul]; omega
          · rw [hx _ h5]
      · rw [if_neg h0]
    have hc := closed_lt' (b := b) (p := p) (l := l) i hi
    have ht2 := fwdT_low (b := b) (p := p) (l := l) i
    rw [lev_congr d (Fl (b+p+1) l x) i (key2 _ hc.1 (by rw [ht2.1, ht]))
      (key2 _ hc.2 (by rw [ht2.2, ht]))]
    rw [Fl, show b + p + 1 - 1 - l = b + p - l by omega]
  · rw [if_neg (by tauto)]
    apply h i hi m hm
    intro l' hl'
    rw [← hD l' hl']
    unfold FwdDone
    constructor
    · rintro (h4 | ⟨h4, h5⟩)
      · exact Or.inl h4
      · exact Or.inr ⟨h4, by omega⟩
    · rintro (h4 | ⟨h4, h5⟩)
      · exact Or.inl h4
      · refine Or.inr ⟨h4, ?_⟩
        rcases Nat.lt_or_ge l' l with h6 | h6
        · omega
        · exfalso; have : l' = l := by omega
          subst this; exact ht h4

theorem FwdSched_phase {b p nd ph : ℕ} {x d : ℕ → ℂ} {sz : ℕ} (hx : ∀ i ≥ 2^(b+p), x i = 0)
    (hnd : nd ≤ p + 1) (hph : ph < 2^p)
    (hsz : 2^(b+p+1) ≤ sz) (h : FwdSched b p nd x ph 0 d) :
    ∃ d', forwardSchedule sz nd (2^(b+p+1)) (2^p) d ph = some d' ∧
      FwdSched b p nd x ph nd d' ∧ (∀ i ≥ 2^(b+p+1), d' i = d i) := by
  unfold forwardSchedule
  have main : ∀ l ≤ nd, ∃ d',
      (List.range l).foldlM (fun d level =>
        let numSegments := 2 ^ level
        let numSteps := 2^p / numSegments
        if ph ≥ 2^p - numSteps then
          if numSteps = 0 then none
          else segmentedForward sz (2^(b+p+1)) numSegments numSteps (ph % numSteps) d
        else some d) d = some d' ∧ FwdSched b p nd x ph l d' ∧ (∀ i ≥ 2^(b+p+1), d' i = d i) := by
    intro l hl
    induction l with
    | zero => exact ⟨d, rfl, h, fun _ _ => rfl⟩
    | succ l ih =>
      obtain ⟨d', h1, h2, h3⟩ := ih (by omega)
      rw [List.range_succ, List.foldlM_append, h1]
      simp only [Option.bind_eq_bind, Option.bind_some, List.foldlM_cons, List.foldlM_nil]
      refine ⟨_, ?_, FwdSched_level hx hnd (by omega) h2, fun i hi => ?_⟩
      · have := fwdLevel_eq (b := b) (l := l) (p := p) (by omega) hph hsz d'
        simp only at this
        rw [this]
        rfl
      · rw [onSet, if_neg (by omega), h3 i hi]
  exact main nd le_rfl

/-- the buffer at the start of phase 0, after the first block has been written into a cleared buffer -/
theorem FwdSched_init {b p nd : ℕ} {x d : ℕ → ℂ}
    (h : ∀ i < 2^(b+p+1), d i = arrived b 0 x i) : FwdSched b p nd x 0 0 d := by
  intro i hi m hm hD
  have : m = 0 := by
    by_contra hc
    have := (hD 0 (by omega)).mpr (by omega)
    unfold FwdDone at this; omega
  rw [if_pos this]; exact h i hi

/-- writing the next block -/
theorem FwdSched_next {b p nd ph : ℕ} {x d d' : ℕ → ℂ} (hph : ph + 1 < 2^p)
    (h : FwdSched b p nd x ph nd d)
    (hw : ∀ i < 2^(b+p+1), d' i = if (ph+1) * 2^b ≤ i ∧ i < (ph+2) * 2^b then x i else d i) :
    FwdSched b p nd x (ph+1) 0 d' := by
  intro i hi m hm hD
  rw [hw i hi]
  have hB : (ph+2) * 2^b = (ph+1)*2^b + 2^b := by ring
  have hp : 0 < 2^b := by positivity
  have hle : (ph+2) * 2^b ≤ 2^(b+p) := by
    rw [pow_add, mul_comm]; exact Nat.mul_le_mul_left _ hph
  by_cases hw : (ph+1) * 2^b ≤ i ∧ i < (ph+2) * 2^b
  · rw [if_pos hw]
    have hT : fwdT b p 0 i = ph + 1 := by
      rw [fwdT_zero, Nat.mod_eq_of_lt (by omega)]
      apply Nat.div_eq_of_lt_le hw.1
      rw [show (ph+1+1) = ph+2 by ring]; exact hw.2
    have hm0 : m = 0 := by
      by_contra hc
      have := (hD 0 (by omega)).mpr (by omega)
      unfold FwdDone at this; omega
    rw [if_pos hm0, arrived, if_pos (by rw [show ph+1+1 = ph+2 by ring]; exact hw.2)]
  · rw [if_neg hw]
    rw [h i hi m hm]
    · by_cases hm0 : m = 0
      · rw [if_pos hm0, if_pos hm0]
        unfold arrived
        rw [show ph+1+1 = ph+2 by ring]
        by_cases h1 : i < (ph+1) * 2^b
        · rw [if_pos h1, if_pos (by omega)]
        · rw [if_neg h1, if_neg (by omega)]
      · rw [if_neg hm0, if_neg hm0]
    · intro l' hl'
      rw [← hD l' hl']
      unfold FwdDone
      omega

theorem FwdSched_final {b p nd : ℕ} {x d : ℕ → ℂ} (hx : ∀ i ≥ 2^(b+p), x i = 0) (hnd : nd ≤ p + 1)
    (h : FwdSched b p nd x (2^p - 1) nd d) (i : ℕ) (hi : i < 2^(b+p+1)) :
    d i = Fl (b+p+1) nd x i := by
  rw [h i hi nd le_rfl]
  · split
    · next h0 =>
      subst h0
      unfold arrived
      rw [Nat.sub_add_cancel (Nat.one_le_two_pow), ← pow_add, add_comm p b]
      simp only [Fl]
      split
      · rfl
      · rw [hx _ (by omega)]
    · rfl
  · intro l' hl'
    simp only [hl', iff_true]
    have := fwdT_lt (b := b) (i := i) (show l' ≤ p by omega)
    unfold FwdDone; omega

end Zones.Proofs
