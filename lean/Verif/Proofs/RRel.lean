import Verif.Proofs.RNUPC

/-! # Two runs that agree on a channel: buffers -/

open Finset Zones.Spec Zones.Model

namespace Zones.Proofs.R

/-! ## Pairs of partial computations -/

/-- the results, when both are defined, are related -/
def OR {α β : Type} (R : α → β → Prop) (a : Option α) (b : Option β) : Prop :=
  ∀ x, a = some x → ∀ y, b = some y → R x y

namespace OR
variable {α β γ δ : Type} {R R' : α → β → Prop} {S : γ → δ → Prop} {a : Option α} {b : Option β}

theorem some {x : α} {y : β} (h : R x y) : OR R (some x) (some y) := by
  rintro _ ⟨⟩ _ ⟨⟩; exact h

theorem none_left : OR R none b := by rintro _ ⟨⟩
theorem none_right : OR R a none := by rintro _ _ _ ⟨⟩

theorem mono (h : OR R a b) (hR : ∀ x y, R x y → R' x y) : OR R' a b := fun x hx y hy => hR _ _ (h x hx y hy)

theorem bind {f : α → Option γ} {g : β → Option δ} (h : OR R a b) (hf : ∀ x y, R x y → OR S (f x) (g y)) :
    OR S (a.bind f) (b.bind g) := by
  intro z hz w hw
  obtain ⟨x, hx, hx'⟩ := Option.bind_eq_some_iff.mp hz
  obtain ⟨y, hy, hy'⟩ := Option.bind_eq_some_iff.mp hw
  exact hf x y (h x hx y hy) z hx' w hy'

theorem map {f : α → γ} {g : β → δ} (h : OR R a b) (hf : ∀ x y, R x y → S (f x) (g y)) :
    OR S (a.map f) (b.map g) := by
  intro z hz w hw
  obtain ⟨x, hx, rfl⟩ := Option.map_eq_some_iff.mp hz
  obtain ⟨y, hy, rfl⟩ := Option.map_eq_some_iff.mp hw
  exact hf x y (h x hx y hy)

theorem guard {p q : Prop} [Decidable p] [Decidable q] (h : p → q → OR R a b) :
    OR R (if p then a else none) (if q then b else none) := by
  by_cases hp : p
  · by_cases hq : q
    · rw [if_pos hp, if_pos hq]; exact h hp hq
    · rw [if_neg hq]; exact none_right
  · rw [if_neg hp]; exact none_left

theorem guardn {p q : Prop} [Decidable p] [Decidable q] (h : ¬ p → ¬ q → OR R a b) :
    OR R (if p then none else a) (if q then none else b) := by
  by_cases hp : p
  · rw [if_pos hp]; exact none_left
  · by_cases hq : q
    · rw [if_pos hq]; exact none_right
    · rw [if_neg hp, if_neg hq]; exact h hp hq

theorem cond {p q : Prop} [Decidable p] [Decidable q] {a' : Option α} {b' : Option β} (hpq : p ↔ q)
    (h : p → OR R a b) (h' : ¬ p → OR R a' b') :
    OR R (if p then a else a') (if q then b else b') := by
  by_cases hp : p
  · rw [if_pos hp, if_pos (hpq.mp hp)]; exact h hp
  · rw [if_neg hp, if_neg (fun hq => hp (hpq.mpr hq))]; exact h' hp

end OR

theorem OR.foldlM {α β : Type} {R : α → β → Prop} {f : α → ℕ → Option α} {g : β → ℕ → Option β}
    (l : List ℕ) (hf : ∀ i ∈ l, ∀ x y, R x y → OR R (f x i) (g y i)) :
    ∀ {x : α} {y : β}, R x y → OR R (l.foldlM f x) (l.foldlM g y) := by
  induction l with
  | nil => intro x y h; exact OR.some h
  | cons i l ih =>
    intro x y h
    rw [List.foldlM_cons, List.foldlM_cons]
    exact OR.bind (hf i (by simp) x y h) fun x' y' h' => ih (fun j hj => hf j (by simp [hj])) h'

/-- a loop over channels of which only iteration `c` changes what `K` observes -/
theorem foldlM_one {σ : Type} {K : σ → σ → Prop} (hr : ∀ s, K s s) (ht : ∀ a b c, K a b → K b c → K a c)
    {step : σ → ℕ → Option σ} {c : ℕ} (hk : ∀ s j s', j ≠ c → step s j = some s' → K s s') (m : ℕ) {s s' : σ}
    (h : (List.range m).foldlM step s = some s') :
    if c < m then ∃ s1 s2, K s s1 ∧ step s1 c = some s2 ∧ K s2 s' else K s s' := by
  induction m generalizing s' with
  | zero => cases h; rw [if_neg (by omega)]; exact hr _
  | succ m ih =>
    rw [List.range_succ, List.foldlM_append] at h
    obtain ⟨s1, e1, e2⟩ := Option.bind_eq_some_iff.mp h
    simp only [List.foldlM_cons, List.foldlM_nil] at e2
    obtain ⟨s2, e3, e4⟩ := Option.bind_eq_some_iff.mp e2
    cases e4
    replace ih := ih e1
    by_cases hc : c < m
    · rw [if_pos hc] at ih
      rw [if_pos (by omega)]
      obtain ⟨a, b, k1, k2, k3⟩ := ih
      exact ⟨a, b, k1, k2, ht _ _ _ k3 (hk _ _ _ (by omega) e3)⟩
    · rw [if_neg hc] at ih
      by_cases hcm : c = m
      · subst hcm
        rw [if_pos (by omega)]
        exact ⟨s1, s', ih, e3, hr _⟩
      · rw [if_neg (by omega)]
        exact ht _ _ _ ih (hk _ _ _ (by omega) e3)

/-! ## Audio buffers -/

/-- channel `c` of `b` and channel `c'` of `b'` hold the same samples -/
structure RowEq (c c' : ℕ) (b b' : Buf) : Prop where
  n : b.n = b'.n
  lt : 0 < b.n → c < b.ch ∧ c' < b'.ch
  data : ∀ i < b.n, b.data c i = b'.data c' i

namespace RowEq
variable {c c' c'' : ℕ} {b b' b'' s s' : Buf}

theorem symm (h : RowEq c c' b b') : RowEq c' c b' b :=
  ⟨h.n.symm, fun hn => (h.lt (by rw [h.n]; exact hn)).symm, fun i hi => (h.data i (by rw [h.n]; exact hi)).symm⟩

theorem trans (h : RowEq c c' b b') (h' : RowEq c' c'' b' b'') : RowEq c c'' b b'' :=
  ⟨h.n.trans h'.n, fun hn => ⟨(h.lt hn).1, (h'.lt (by rw [← h.n]; exact hn)).2⟩,
    fun i hi => (h.data i hi).trans (h'.data i (by rw [← h.n]; exact hi))⟩

theorem lt1 (h : RowEq c c' b b') {i : ℕ} (hi : i < b.n) : c < b.ch := (h.lt (by omega)).1
theorem lt2 (h : RowEq c c' b b') {i : ℕ} (hi : i < b.n) : c' < b'.ch := (h.lt (by omega)).2

theorem sub (h : RowEq c c' b b') (off len : ℕ) : OR (fun x y => RowEq c c' x y ∧ x.n = len ∧ off < b.n) (b.sub off len) (b'.sub off len) := by
  unfold Buf.sub
  refine OR.guard fun h1 _ => OR.some ⟨⟨rfl, fun _ => h.lt (by omega), fun i hi => ?_⟩, rfl, h1.1⟩
  exact h.data _ (by have : i < len := hi; omega)

theorem put (h : RowEq c c' b b') (hs : RowEq c c' s s') (off : ℕ) : RowEq c c' (b.put off s) (b'.put off s') := by
  refine ⟨h.n, h.lt, fun i hi => ?_⟩
  have hi' : i < b.n := hi
  unfold Buf.put
  simp only
  by_cases hc : off ≤ i ∧ i < off + s.n
  · rw [if_pos ⟨h.lt1 hi', hc⟩, if_pos ⟨h.lt2 hi', by rw [← hs.n]; exact hc⟩]
    exact hs.data _ (by omega)
  · rw [if_neg (by tauto), if_neg (by rw [← hs.n]; tauto)]
    exact h.data i hi'

theorem clear (h : RowEq c c' b b') : RowEq c c' b.clear b'.clear := by
  refine ⟨h.n, h.lt, fun i hi => ?_⟩
  have hi' : i < b.n := hi
  unfold Buf.clear
  simp only
  rw [if_pos ⟨h.lt1 hi', hi'⟩, if_pos ⟨h.lt2 hi', by rw [← h.n]; exact hi'⟩]

theorem cleared (hn : b.n = b'.n) (hl : 0 < b.n → c < b.ch ∧ c' < b'.ch) : RowEq c c' b.clear b'.clear := by
  refine ⟨hn, hl, fun i hi => ?_⟩
  have hi' : i < b.n := hi
  unfold Buf.clear
  simp only
  rw [if_pos ⟨(hl (by omega)).1, hi'⟩, if_pos ⟨(hl (by omega)).2, by rw [← hn]; exact hi'⟩]

theorem copyFrom (h : RowEq c c' b b') (hs : RowEq c c' s s') : RowEq c c' (b.copyFrom s) (b'.copyFrom s') := by
  refine ⟨h.n, h.lt, fun i hi => ?_⟩
  have hi' : i < b.n := hi
  unfold Buf.copyFrom
  simp only
  by_cases hc : i < s.n
  · rw [if_pos ⟨lt_min (h.lt1 hi') (hs.lt1 hc), lt_min hi' hc⟩,
      if_pos ⟨lt_min (h.lt2 hi') (hs.lt2 hc), lt_min (by rw [← h.n]; exact hi') (by rw [← hs.n]; exact hc)⟩]
    exact hs.data i hc
  · rw [if_neg (by rw [lt_min_iff, lt_min_iff]; tauto), if_neg (by rw [lt_min_iff, lt_min_iff, ← hs.n]; tauto)]
    exact h.data i hi'

theorem addR [Arith] (h : RowEq c c' b b') (hs : RowEq c c' s s') : OR (fun x y => RowEq c c' x y ∧ x.n = b.n) (b.addR s) (b'.addR s') := by
  unfold Buf.addR
  refine OR.guard fun _ _ => OR.some ⟨⟨h.n, h.lt, fun i hi => ?_⟩, rfl⟩
  have hi' : i < b.n := hi
  simp only
  by_cases hc : i < s.n
  · rw [if_pos ⟨h.lt1 hi', lt_min hi' hc⟩,
      if_pos ⟨h.lt2 hi', lt_min (by rw [← h.n]; exact hi') (by rw [← hs.n]; exact hc)⟩, hs.data i hc, h.data i hi']
  · rw [if_neg (by rw [lt_min_iff]; tauto), if_neg (by rw [lt_min_iff, ← hs.n]; tauto)]
    exact h.data i hi'

end RowEq

/-! ## Views -/

/-- the views show the same part of two rings of the same length -/
structure VRel (v v' : View) (r r' : Buf) : Prop where
  off : v.off = v'.off
  len : v.len = v'.len
  le : v.off + v.len ≤ r.n
  ch : 0 < v.len → v.ch = r.ch ∧ v'.ch = r'.ch

namespace VRel
variable {c c' : ℕ} {v v' : View} {r r' s s' : Buf}

theorem empty : VRel View.empty View.empty r r' := ⟨rfl, rfl, by simp, by simp⟩

theorem read (h : VRel v v' r r') (hr : RowEq c c' r r') : RowEq c c' (v.read r) (v'.read r') := by
  refine ⟨h.len, fun hn => ?_, fun i hi => ?_⟩
  · have hn' : 0 < v.len := hn
    obtain ⟨e1, e2⟩ := h.ch hn'
    have := hr.lt (by have := h.le; omega)
    exact ⟨by show c < v.ch; omega, by show c' < v'.ch; omega⟩
  · have hi' : i < v.len := hi
    unfold View.read
    simp only
    rw [← h.off]
    exact hr.data _ (by have := h.le; omega)

theorem congr {q q' : Buf} (h : VRel v v' r r') (e1 : q.n = r.n) (e2 : q.ch = r.ch) (e3 : q'.ch = r'.ch) : VRel v v' q q' :=
  ⟨h.off, h.len, by rw [e1]; exact h.le, by rw [e2, e3]; exact h.ch⟩

theorem copyFrom (h : VRel v v' r r') (hr : RowEq c c' r r') (hs : RowEq c c' s s') :
    RowEq c c' (v.copyFrom r s) (v'.copyFrom r' s') := by
  refine ⟨hr.n, hr.lt, fun i hi => ?_⟩
  have hi' : i < r.n := hi
  unfold View.copyFrom
  simp only
  rw [← h.off, ← h.len, ← hs.n]
  by_cases hc : v.off ≤ i ∧ i < v.off + min v.len s.n
  · obtain ⟨e1, e2⟩ := h.ch (by omega)
    rw [if_pos ⟨lt_min (by rw [e1]; exact hr.lt1 hi') (hs.lt1 (i := 0) (by omega)), hc⟩,
      if_pos ⟨lt_min (by rw [e2]; exact hr.lt2 hi') (hs.lt2 (i := 0) (by omega)), hc⟩]
    exact hs.data _ (by omega)
  · rw [if_neg (by tauto), if_neg (by tauto)]
    exact hr.data i hi'

theorem addR [Arith] (h : VRel v v' r r') (hr : RowEq c c' r r') (hs : RowEq c c' s s') :
    OR (fun x y => RowEq c c' x y ∧ x.n = r.n ∧ x.ch = r.ch ∧ y.ch = r'.ch) (v.addR r s) (v'.addR r' s') := by
  unfold View.addR
  refine OR.guard fun _ _ => OR.some ⟨⟨hr.n, hr.lt, fun i hi => ?_⟩, rfl, rfl, rfl⟩
  have hi' : i < r.n := hi
  simp only
  rw [← h.off, ← h.len, ← hs.n]
  by_cases hc : v.off ≤ i ∧ i < v.off + min v.len s.n
  · obtain ⟨e1, e2⟩ := h.ch (by omega)
    rw [if_pos ⟨by rw [e1]; exact hr.lt1 hi', hc⟩, if_pos ⟨by rw [e2]; exact hr.lt2 hi', hc⟩, hr.data i hi',
      hs.data _ (by omega)]
  · rw [if_neg (by tauto), if_neg (by tauto)]
    exact hr.data i hi'

theorem clear (h : VRel v v' r r') (hr : RowEq c c' r r') : RowEq c c' (v.clear r) (v'.clear r') := by
  refine ⟨hr.n, hr.lt, fun i hi => ?_⟩
  have hi' : i < r.n := hi
  unfold View.clear
  simp only
  rw [← h.off, ← h.len]
  by_cases hc : v.off ≤ i ∧ i < v.off + v.len
  · obtain ⟨e1, e2⟩ := h.ch (by omega)
    rw [if_pos ⟨by rw [e1]; exact hr.lt1 hi', hc⟩, if_pos ⟨by rw [e2]; exact hr.lt2 hi', hc⟩]
  · rw [if_neg (by tauto), if_neg (by tauto)]
    exact hr.data i hi'

theorem sub (h : VRel v v' r r') (off len : ℕ) : OR (fun x y => VRel x y r r') (v.sub off len) (v'.sub off len) := by
  unfold View.sub
  refine OR.guard fun h1 _ => OR.some ⟨by show v.off + off = _; rw [h.off], rfl, ?_, fun hl => h.ch (by omega)⟩
  have := h.le
  show v.off + off + len ≤ r.n
  omega

end VRel

/-- the views show the same parts of two rings of the same length -/
structure SRel (s s' : SplitBlock) (r r' : Buf) : Prop where
  first : VRel s.first s'.first r r'
  wrapped : VRel s.wrapped s'.wrapped r r'

namespace SRel
variable {c c' : ℕ} {s s' : SplitBlock} {r r' q q' : Buf}

theorem congr {p p' : Buf} (h : SRel s s' r r') (e1 : p.n = r.n) (e2 : p.ch = r.ch) (e3 : p'.ch = r'.ch) : SRel s s' p p' :=
  ⟨h.first.congr e1 e2 e3, h.wrapped.congr e1 e2 e3⟩

theorem copyFrom (h : SRel s s' r r') (hr : RowEq c c' r r') (hq : RowEq c c' q q') :
    OR (fun x y => RowEq c c' x y ∧ x.n = r.n ∧ x.ch = r.ch ∧ y.ch = r'.ch) (s.copyFrom r q) (s'.copyFrom r' q') := by
  unfold SplitBlock.copyFrom
  simp only [Option.bind_eq_bind, ← hq.n, ← h.first.len]
  refine OR.bind (R := fun x y => RowEq c c' x y ∧ x.n = r.n ∧ x.ch = r.ch ∧ y.ch = r'.ch) ?_ ?_
  · refine OR.cond Iff.rfl (fun _ => ?_) (fun _ => OR.some ⟨hr, rfl, rfl, rfl⟩)
    exact (hq.sub _ _).map fun x y hxy => ⟨h.first.copyFrom hr hxy.1, rfl, rfl, rfl⟩
  · rintro x y ⟨h1, h2, h3, h4⟩
    refine OR.cond Iff.rfl (fun _ => ?_) (fun _ => OR.some ⟨h1, h2, h3, h4⟩)
    exact (hq.sub _ _).map fun x' y' hxy => ⟨(h.wrapped.congr h2 h3 h4).copyFrom h1 hxy.1, h2, h3, h4⟩

theorem addFromR [Arith] (h : SRel s s' r r') (hr : RowEq c c' r r') (hq : RowEq c c' q q') :
    OR (fun x y => RowEq c c' x y ∧ x.n = r.n ∧ x.ch = r.ch ∧ y.ch = r'.ch) (s.addFromR r q) (s'.addFromR r' q') := by
  unfold SplitBlock.addFromR
  simp only [Option.bind_eq_bind, ← hq.n, ← h.first.len]
  refine OR.bind (R := fun x y => RowEq c c' x y ∧ x.n = r.n ∧ x.ch = r.ch ∧ y.ch = r'.ch) ?_ ?_
  · refine OR.cond Iff.rfl (fun _ => ?_) (fun _ => OR.some ⟨hr, rfl, rfl, rfl⟩)
    exact (hq.sub _ _).bind fun x y hxy => h.first.addR hr hxy.1
  · rintro x y ⟨h1, h2, h3, h4⟩
    refine OR.cond Iff.rfl (fun _ => ?_) (fun _ => OR.some ⟨h1, h2, h3, h4⟩)
    refine (hq.sub _ _).bind fun x' y' hxy => ((h.wrapped.congr h2 h3 h4).addR h1 hxy.1).mono ?_
    rintro a b ⟨k1, k2, k3, k4⟩
    exact ⟨k1, k2.trans h2, k3.trans h3, k4.trans h4⟩

theorem copyTo (h : SRel s s' r r') (hr : RowEq c c' r r') (hq : RowEq c c' q q') :
    OR (fun x y => RowEq c c' x y ∧ x.n = q.n) (s.copyTo r q) (s'.copyTo r' q') := by
  unfold SplitBlock.copyTo
  have h1 : RowEq c c' (q.copyFrom (s.first.read r)) (q'.copyFrom (s'.first.read r')) := hq.copyFrom (h.first.read hr)
  simp only
  rw [← h1.n, ← h.first.len, ← h.wrapped.len]
  refine OR.cond Iff.rfl (fun _ => ?_) (fun _ => OR.some ⟨h1, rfl⟩)
  exact (h1.sub _ _).map fun x y hxy => ⟨h1.put (hxy.1.copyFrom (h.wrapped.read hr)) _, rfl⟩

theorem addToR [Arith] (h : SRel s s' r r') (hr : RowEq c c' r r') (hq : RowEq c c' q q') :
    OR (fun x y => RowEq c c' x y ∧ x.n = q.n) (s.addToR r q) (s'.addToR r' q') := by
  unfold SplitBlock.addToR
  simp only [Option.bind_eq_bind]
  refine OR.bind (hq.addR (h.first.read hr)) ?_
  rintro x y ⟨h1, h2⟩
  simp only [← h1.n, ← h.first.len, ← h.wrapped.len]
  refine OR.cond Iff.rfl (fun _ => ?_) (fun _ => OR.some ⟨h1, h2⟩)
  refine (h1.sub _ _).bind fun x' y' hxy => (hxy.1.addR (h.wrapped.read hr)).map ?_
  rintro a b ⟨k1, k2⟩
  exact ⟨h1.put k1 _, h2⟩

theorem clear (h : SRel s s' r r') (hr : RowEq c c' r r') : RowEq c c' (s.clear r) (s'.clear r') := by
  unfold SplitBlock.clear
  simp only [← h.first.len, ← h.wrapped.len]
  by_cases h1 : s.first.len > 0
  · simp only [h1, if_true]
    by_cases h2 : s.wrapped.len > 0
    · simp only [h2, if_true]
      exact (VRel.congr (q := s.first.clear r) (q' := s'.first.clear r') h.wrapped rfl rfl rfl).clear (h.first.clear hr)
    · simp only [h2, if_false]
      exact h.first.clear hr
  · simp only [h1, if_false]
    by_cases h2 : s.wrapped.len > 0
    · simp only [h2, if_true]
      exact h.wrapped.clear hr
    · simp only [h2, if_false]
      exact hr

theorem getSubBlock (h : SRel s s' r r') (k : ℕ) : OR (fun x y => SRel x y r r') (s.getSubBlock k) (s'.getSubBlock k) := by
  unfold SplitBlock.getSubBlock
  refine OR.guard fun _ _ => ?_
  simp only [Option.bind_eq_bind, ← h.first.len]
  refine OR.bind (R := fun x y => VRel x y r r') (OR.cond Iff.rfl (fun _ => h.first.sub _ _) (fun _ => OR.some VRel.empty)) ?_
  intro x y hxy
  refine OR.bind (R := fun x y => VRel x y r r') (OR.cond Iff.rfl (fun _ => h.wrapped.sub _ _) (fun _ => OR.some VRel.empty)) ?_
  intro x' y' hxy'
  exact OR.some ⟨hxy, hxy'⟩

end SRel

/-! ## Rings -/

/-- rings with the same head whose channels `c` and `c'` agree -/
structure GRel (c c' : ℕ) (r r' : Ring) : Prop where
  head : r.head = r'.head
  buf : RowEq c c' r.buf r'.buf

theorem GRel.getNext {c c' : ℕ} {r r' : Ring} (h : GRel c c' r r') (delay : ℕ) (adv : Bool) :
    OR (fun x y => SRel x.1 y.1 r.buf r'.buf ∧ GRel c c' x.2 y.2 ∧ x.2.buf = r.buf ∧ y.2.buf = r'.buf)
      (r.getNext delay adv) (r'.getNext delay adv) := by
  unfold Ring.getNext
  simp only [← h.buf.n, ← h.head]
  refine OR.guardn fun _ _ => ?_
  have hv : VRel r.block r'.block r.buf r'.buf := ⟨rfl, h.buf.n, by simp [Ring.block], fun _ => ⟨rfl, rfl⟩⟩
  simp only [Option.bind_eq_bind]
  refine OR.bind (R := fun x y => VRel x y r.buf r'.buf) (OR.cond Iff.rfl (fun _ => hv.sub _ _) (fun _ => OR.some VRel.empty)) ?_
  intro x y hxy
  refine OR.bind (R := fun x y => VRel x y r.buf r'.buf) (OR.cond Iff.rfl (fun _ => hv.sub _ _) (fun _ => OR.some VRel.empty)) ?_
  intro x' y' hxy'
  refine OR.some ⟨⟨hxy, hxy'⟩, ?_⟩
  cases adv
  · exact ⟨h, rfl, rfl⟩
  · exact ⟨⟨rfl, h.buf⟩, rfl, rfl⟩

/-! ## Complex buffers -/

/-- channel `c` of `b` and channel `c'` of `b'` hold the same numbers -/
structure RowC (c c' : ℕ) (b b' : CBuf) : Prop where
  np : b.np = b'.np
  lt1 : c < b.ch
  lt2 : c' < b'.ch
  get : ∀ k < b.np, b.get c k = b'.get c' k

namespace RowC
variable {c c' c'' : ℕ} {b b' b'' x x' y y' : CBuf}

theorem symm (h : RowC c c' b b') : RowC c' c b' b :=
  ⟨h.np.symm, h.lt2, h.lt1, fun k hk => (h.get k (by rw [h.np]; exact hk)).symm⟩

theorem trans (h : RowC c c' b b') (h' : RowC c' c'' b' b'') : RowC c c'' b b'' :=
  ⟨h.np.trans h'.np, h.lt1, h'.lt2, fun k hk => (h.get k hk).trans (h'.get k (by rw [← h.np]; exact hk))⟩

theorem cleared (hn : b.np = b'.np) (h1 : c < b.ch) (h2 : c' < b'.ch) : RowC c c' b.clear b'.clear :=
  ⟨hn, h1, h2, fun k hk => by rw [get_clear h1 hk, get_clear h2 (by rw [← hn]; exact hk)]⟩

theorem clear (h : RowC c c' b b') : RowC c c' b.clear b'.clear := cleared h.np h.lt1 h.lt2

theorem floats (h : RowC c c' b b') : RowEq c c' b.floats b'.floats := by
  refine ⟨by show 2 * b.np = 2 * b'.np; rw [h.np], fun _ => ⟨h.lt1, h.lt2⟩, fun i hi => ?_⟩
  have hi' : i < 2 * b.np := hi
  unfold CBuf.floats
  simp only
  rw [h.get (i / 2) (by omega)]

theorem ofFloats (h : RowC c c' b b') {f f' : Buf} (hf : RowEq c c' f f') (hn : f.n = 2 * b.np) :
    RowC c c' (b.ofFloats f) (b'.ofFloats f') := by
  refine ⟨h.np, h.lt1, h.lt2, fun k hk => ?_⟩
  have hk' : k < b.np := hk
  rw [get_ofFloats h.lt1 hk', get_ofFloats h.lt2 (by rw [← h.np]; exact hk'), hf.data _ (by omega), hf.data _ (by omega)]

variable [Arith]

theorem mulFromR (hb : RowC c c' b b') (hx : RowC c c' x x') (hy : RowC c c' y y') :
    OR (fun p q => RowC c c' p q ∧ p.np = b.np) (b.mulFromR x y) (b'.mulFromR x' y') := by
  unfold CBuf.mulFromR
  refine OR.guard fun h1 h2 => OR.some ⟨⟨hb.np, hb.lt1, hb.lt2, fun k hk => ?_⟩, rfl⟩
  have hk' : k < b.np := hk
  have gx := hx.get k (by omega)
  have gy := hy.get k (by omega)
  unfold CBuf.get at gx gy ⊢
  simp only
  rw [if_pos (cidx_lt hb.lt1 hk'), if_pos (cidx_lt hb.lt2 (by rw [← hb.np]; exact hk')), h1.2.1, h2.2.1, gx,
    h1.2.2, gy, h2.2.2]

theorem addFromR (hb : RowC c c' b b') (hx : RowC c c' x x') :
    OR (fun p q => RowC c c' p q ∧ p.np = b.np) (b.addFromR x) (b'.addFromR x') := by
  unfold CBuf.addFromR
  refine OR.guard fun h1 h2 => OR.some ⟨⟨hb.np, hb.lt1, hb.lt2, fun k hk => ?_⟩, rfl⟩
  have hk' : k < b.np := hk
  have gb := hb.get k hk'
  have gx := hx.get k (by omega)
  unfold CBuf.get at gb gx ⊢
  simp only
  rw [if_pos (cidx_lt hb.lt1 hk'), if_pos (cidx_lt hb.lt2 (by rw [← hb.np]; exact hk')), gb, h1.2, gx, h2.2]

theorem mulAccFromR (hb : RowC c c' b b') (hx : RowC c c' x x') (hy : RowC c c' y y') :
    OR (fun p q => RowC c c' p q ∧ p.np = b.np) (b.mulAccFromR x y) (b'.mulAccFromR x' y') := by
  unfold CBuf.mulAccFromR
  refine OR.guard fun h1 h2 => OR.some ⟨⟨hb.np, hb.lt1, hb.lt2, fun k hk => ?_⟩, rfl⟩
  have hk' : k < b.np := hk
  have gb := hb.get k hk'
  have gx := hx.get k (by omega)
  have gy := hy.get k (by omega)
  unfold CBuf.get at gb gx gy ⊢
  simp only
  rw [if_pos (cidx_lt hb.lt1 hk'), if_pos (cidx_lt hb.lt2 (by rw [← hb.np]; exact hk')), gb, h1.2.1, gx, h2.2.1,
    h1.2.2, gy, h2.2.2]

end RowC

/-! ## Frequency delay lines -/

/-- delay lines with the same head whose channels `c` and `c'` agree -/
structure DRel (c c' np : ℕ) (f f' : FDL) : Prop where
  nb : f.numBlocks = f'.numBlocks
  head : f.head = f'.head
  line : ∀ i < f.numBlocks, RowC c c' (f.line i) (f'.line i) ∧ (f.line i).np = np

namespace DRel
variable {c c' np : ℕ} {f f' : FDL}

theorem getNext (h : DRel c c' np f f') : OR (DRel c c' np) f.getNext f'.getNext := by
  unfold FDL.getNext
  simp only [Option.bind_eq_bind, ← h.nb, ← h.head]
  refine OR.bind (R := fun x y => x = y) (fun x hx y hy => by rw [hx] at hy; exact Option.some.inj hy) ?_
  rintro x _ rfl
  exact OR.some ⟨rfl, rfl, h.line⟩

theorem getOffset (h : DRel c c' np f f') (i : ℕ) :
    OR (fun x y => RowC c c' x y ∧ x.np = np) (f.getOffset i) (f'.getOffset i) := by
  unfold FDL.getOffset
  refine OR.guardn fun h1 _ => OR.some ?_
  have : f'.idx i = f.idx i := by unfold FDL.idx; rw [h.nb, h.head]
  rw [this]
  exact h.line _ (Nat.mod_lt _ (by omega))

theorem setOffset (h : DRel c c' np f f') (i : ℕ) {b b' : CBuf} (hb : RowC c c' b b') (hn : b.np = np) :
    DRel c c' np (f.setOffset i b) (f'.setOffset i b') := by
  have : f'.idx i = f.idx i := by unfold FDL.idx; rw [h.nb, h.head]
  refine ⟨h.nb, h.head, fun j hj => ?_⟩
  unfold FDL.setOffset
  simp only [this]
  by_cases hji : j = f.idx i
  · subst hji
    rw [Function.update_self, Function.update_self]; exact ⟨hb, hn⟩
  · rw [Function.update_of_ne hji, Function.update_of_ne hji]; exact h.line j hj

theorem clear (h : DRel c c' np f f') : DRel c c' np f.clear f'.clear := by
  refine ⟨h.nb, h.head, fun j hj => ?_⟩
  have hj' : j < f.numBlocks := hj
  unfold FDL.clear
  simp only
  rw [if_pos hj', if_pos (by rw [← h.nb]; exact hj')]
  exact ⟨(h.line j hj').1.clear, (h.line j hj').2⟩

end DRel

end Zones.Proofs.R
