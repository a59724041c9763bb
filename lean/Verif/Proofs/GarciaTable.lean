import Verif.Proofs.GarciaBest

open Zones.Model.Garcia Zones.Spec

namespace Zones.Proofs.Garcia

/-! ## Sums over tables -/

theorem sum_indicator (a : ℕ) : ∀ (ks : List ℕ), ks.Nodup → a ∈ ks → (ks.map fun k => k * if a = k then 1 else 0).sum = a := by
  intro ks
  induction ks with
  | nil => intro _ h; cases h
  | cons k ks ih =>
    intro hn h
    obtain ⟨h1, h2⟩ := List.nodup_cons.mp hn
    rw [List.map_cons, List.sum_cons]
    rcases List.mem_cons.mp h with rfl | h'
    · have : (ks.map fun k => k * if a = k then 1 else 0).sum = 0 := by
        rw [List.sum_eq_zero_iff]
        intro x hx
        obtain ⟨k, hk, rfl⟩ := List.mem_map.mp hx
        have : ¬ a = k := by rintro rfl; exact h1 hk
        simp [this]
      rw [this]
      simp
    · have hne : ¬ a = k := by rintro rfl; exact h1 h'
      rw [ih h2 h']
      simp [hne]

theorem sum_count : ∀ (bs ks : List ℕ), ks.Nodup → (∀ b ∈ bs, b ∈ ks) → (ks.map fun k => k * bs.count k).sum = bs.sum := by
  intro bs
  induction bs with
  | nil => intro ks _ _; simp
  | cons a as ih =>
    intro ks hn h
    have : (ks.map fun k => k * (a :: as).count k) = ks.map fun k => k * as.count k + k * if a = k then 1 else 0 := by
      apply List.map_congr_left
      intro k _
      rw [List.count_cons]
      by_cases h : a = k
      · simp [h]; ring
      · simp [h]
    rw [this, List.sum_map_add, ih ks hn (fun b hb => h b (by simp [hb])), sum_indicator a ks hn (h a (by simp)), List.sum_cons]
    omega

theorem entry_size {L : ℕ} {bs : List ℕ} {table : List (ℕ × ℕ)} (ht : Tabulates L bs table) {e : ℕ × ℕ}
    (he : e ∈ table) : ∃ b ∈ bs, e.1 = b * L ∧ e.2 = bs.count b := (ht.2 e.1 e.2).mp he

/-- The samples in a part of a table. -/
theorem table_sum {L : ℕ} (hL : 0 < L) {bs : List ℕ} {part : List (ℕ × ℕ)} (hd : (part.map Prod.fst).Nodup)
    (h1 : ∀ e ∈ part, ∃ b ∈ bs, e.1 = b * L ∧ e.2 = bs.count b) (h2 : ∀ b ∈ bs, ∃ c, (b * L, c) ∈ part) :
    (part.map fun e => e.1 * e.2).sum = bs.sum * L := by
  have hk : ((part.map fun e => e.1 / L).map fun k => k * bs.count k).sum = bs.sum := by
    apply sum_count
    · have : (part.map fun e => e.1 / L) = (part.map Prod.fst).map (· / L) := by rw [List.map_map]; rfl
      rw [this]
      apply List.Nodup.map_on _ hd
      intro x hx y hy h
      obtain ⟨ex, hex, rfl⟩ := List.mem_map.mp hx
      obtain ⟨ey, hey, rfl⟩ := List.mem_map.mp hy
      obtain ⟨b, _, h3, _⟩ := h1 ex hex
      obtain ⟨b', _, h4, _⟩ := h1 ey hey
      rw [h3, h4, Nat.mul_div_cancel _ hL, Nat.mul_div_cancel _ hL] at h
      rw [h3, h4, h]
    · intro b hb
      obtain ⟨c, hc⟩ := h2 b hb
      exact List.mem_map.mpr ⟨_, hc, Nat.mul_div_cancel _ hL⟩
  rw [← hk, ← List.sum_map_mul_right, List.map_map]
  congr 1
  apply List.map_congr_left
  intro e he
  obtain ⟨b, _, h3, h4⟩ := h1 e he
  simp only [Function.comp]
  rw [h4, h3, Nat.mul_div_cancel _ hL]
  ring

theorem sorted_split (b : ℕ) : ∀ (bs : List ℕ), bs.Pairwise (· ≤ ·) → b ∈ bs →
    ∃ post, bs = bs.filter (· < b) ++ b :: post := by
  intro bs
  induction bs with
  | nil => intro _ h; cases h
  | cons a as ih =>
    intro hs h
    obtain ⟨h1, h2⟩ := List.pairwise_cons.mp hs
    by_cases hab : a < b
    · have hb : b ∈ as := by
        rcases List.mem_cons.mp h with h | h
        · omega
        · exact h
      obtain ⟨post, hp⟩ := ih h2 hb
      refine ⟨post, ?_⟩
      rw [List.filter_cons_of_pos (by simpa using hab), List.cons_append, ← hp]
    · have hba : a = b := by
        rcases List.mem_cons.mp h with h | h
        · exact h.symm
        · exact le_antisymm (h1 b h) (not_lt.mp hab)
      subst hba
      refine ⟨as, ?_⟩
      have : (a :: as).filter (· < a) = [] := by
        rw [List.filter_eq_nil_iff]
        intro x hx
        rcases List.mem_cons.mp hx with rfl | hx
        · simp
        · simpa using h1 x hx
      rw [this]
      rfl

theorem table_clearance {L : ℕ} (hL : 0 < L) {bs : List ℕ} {table : List (ℕ × ℕ)} (hv : Viable bs) (ht : Tabulates L bs table)
    {pre post : List (ℕ × ℕ)} {size count : ℕ} (he : table = pre ++ (size, count) :: post) :
    (pre = [] → size = L) ∧ (pre ≠ [] → 2 * size ≤ (pre.map fun e => e.1 * e.2).sum + L) := by
  have hmem : (size, count) ∈ table := by rw [he]; simp
  obtain ⟨b, hb, hsb, hcb⟩ := (ht.2 size count).mp hmem
  have hsort := ht.1
  rw [he, List.map_append, List.map_cons] at hsort
  obtain ⟨s1, s2, s3⟩ := List.pairwise_append.mp hsort
  obtain ⟨s4, _⟩ := List.pairwise_cons.mp s2
  have hpre : ∀ e ∈ pre, ∃ a ∈ bs.filter (· < b), e.1 = a * L ∧ e.2 = (bs.filter (· < b)).count a := by
    intro e hpe
    obtain ⟨a, ha, h1, h2⟩ := entry_size ht (e := e) (by rw [he]; simp [hpe])
    have hlt : e.1 < size := s3 e.1 (List.mem_map_of_mem hpe) size (by simp)
    rw [h1, hsb] at hlt
    have hab : a < b := lt_of_mul_lt_mul_right hlt (Nat.zero_le _)
    refine ⟨a, List.mem_filter.mpr ⟨ha, by simpa using hab⟩, h1, ?_⟩
    rw [List.count_filter (by simpa using hab)]
    exact h2
  have hcov : ∀ a ∈ bs.filter (· < b), ∃ c, (a * L, c) ∈ pre := by
    intro a ha
    obtain ⟨ha1, ha2⟩ := List.mem_filter.mp ha
    have ha2 : a < b := by simpa using ha2
    have hlt : a * L < b * L := Nat.mul_lt_mul_of_pos_right ha2 hL
    have hm := (ht.2 (a * L) (bs.count a)).mpr ⟨a, ha1, rfl, rfl⟩
    rw [he, List.mem_append, List.mem_cons] at hm
    rcases hm with hm | hm | hm
    · exact ⟨_, hm⟩
    · injection hm with hm _
      omega
    · have := s4 (a * L) (List.mem_map.mpr ⟨_, hm, rfl⟩)
      omega
  obtain ⟨tail, hsplit⟩ := sorted_split b bs hv.ascending hb
  constructor
  · rintro rfl
    have : bs.filter (· < b) = [] := by
      rw [List.eq_nil_iff_forall_not_mem]
      intro a ha
      obtain ⟨c, hc⟩ := hcov a ha
      cases hc
    rw [this, List.nil_append] at hsplit
    have := hv.first
    rw [hsplit] at this
    simp at this
    rw [hsb, this, one_mul]
  · intro hne
    have hfne : bs.filter (· < b) ≠ [] := by
      obtain ⟨e, hmem⟩ := List.exists_mem_of_ne_nil pre hne
      obtain ⟨a, ha, _⟩ := hpre e hmem
      exact List.ne_nil_of_mem ha
    have hcl := hv.clearance _ b tail hsplit hfne
    rw [table_sum hL (s1.imp fun h => Nat.ne_of_lt h) hpre hcov, hsb]
    calc 2 * (b * L) = 2 * b * L := by ring
      _ ≤ ((bs.filter (· < b)).sum + 1) * L := Nat.mul_le_mul_right _ hcl
      _ = _ := by ring

theorem table_total {L : ℕ} (hL : 0 < L) {bs : List ℕ} {table : List (ℕ × ℕ)} (ht : Tabulates L bs table) :
    (table.map fun e => e.1 * e.2).sum = bs.sum * L :=
  table_sum hL (ht.1.imp fun h => Nat.ne_of_lt h) (fun _ he => entry_size ht he)
    fun b hb => ⟨_, (ht.2 _ _).mpr ⟨b, hb, rfl, rfl⟩⟩

end Zones.Proofs.Garcia
