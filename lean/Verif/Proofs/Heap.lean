import Verif.Spec.Heap
import Verif.Proofs.Buffers

/-! # Proofs about buffers with pointers (for C100) -/

namespace Zones.Proofs.Heaps
open Zones.Model Zones.Spec

/-- The object `o` owns allocation `a`, its pointers point into it, and it holds `v`. -/
structure Rep (h : Heap) (o : CObj) (v : CBuf) (a : ℕ) : Prop where
  data : o.data = some a
  np : o.np = v.np
  ch : o.ch = v.ch
  size : o.size = v.size
  ptrs : o.ptrs = (List.range v.ch).map fun c => ⟨a, c * v.np⟩
  cell : ∃ d, h.cell a = some (v.size, d) ∧ ∀ i < v.size, d i = v.data i

theorem put_cell (h : Heap) (a b : ℕ) (c : ℕ × (ℕ → ℂ)) : (h.put a c).cell b = if b = a then some c else h.cell b := by
  simp only [Heap.put, Function.update_apply]

theorem put_put (h : Heap) (a : ℕ) (c c' : ℕ × (ℕ → ℂ)) : (h.put a c).put a c' = h.put a c' := by
  simp [Heap.put]

theorem chan_bound {c ch np : ℕ} (hc : c < ch) : c * np + np ≤ np * ch := by
  calc c * np + np = np * (c + 1) := by ring
    _ ≤ np * ch := Nat.mul_le_mul_left _ hc

theorem Rep.seen {h : Heap} {o : CObj} {v : CBuf} {a : ℕ} (r : Rep h o v a) : SeenAs h o v := by
  obtain ⟨d, hd, hv⟩ := r.cell
  refine ⟨⟨r.np, r.ch⟩, fun c hc => ⟨⟨a, c * v.np⟩, ?_, fun i hi => ?_⟩, fun i hi => ?_⟩
  · rw [r.ptrs]; simp [hc]
  · have hb := chan_bound (np := v.np) hc
    have hlt : c * v.np + i < v.size := by show c * v.np + i < v.np * v.ch; omega
    simp only [Heap.load, hd, Option.bind_some, if_pos hlt, CBuf.get]
    rw [hv _ hlt]
  · simp only [CObj.element, r.data, Option.bind_some, Heap.load, hd, Nat.zero_add, if_pos hi]
    rw [hv _ hi]

/-- Writing one channel. -/
theorem write_rep {h : Heap} {o : CObj} {v : CBuf} {a : ℕ} (r : Rep h o v a) {c : ℕ} (hc : c < v.ch) (d : ℕ → ℂ) :
    ∃ d', o.write h c d = some (h.put a (v.size, d')) ∧ Rep (h.put a (v.size, d')) o (v.setChannel c d) a := by
  obtain ⟨d0, hd, hv⟩ := r.cell
  have hb := chan_bound (np := v.np) hc
  refine ⟨fun i => if c * v.np ≤ i ∧ i < c * v.np + v.np then d (i - c * v.np) else d0 i, ?_, ?_⟩
  · have hp : o.ptrs[c]? = some ⟨a, c * v.np⟩ := by rw [r.ptrs]; simp [hc]
    have hoc : c < o.ch := by rw [r.ch]; exact hc
    simp only [CObj.write, if_pos hoc, hp, Option.bind_some, Heap.storeAt, hd, r.np]
    exact if_pos hb
  · refine ⟨r.data, r.np, r.ch, r.size, r.ptrs, _, by rw [put_cell, if_pos rfl]; rfl, fun i hi => ?_⟩
    simp only [CBuf.setChannel]
    rw [hv i hi]

/-- Writing the first `n` channels. -/
theorem write_many {h : Heap} {o : CObj} {v : CBuf} {a : ℕ} (r : Rep h o v a) (d : ℕ → ℕ → ℂ) :
    ∀ n ≤ v.ch, ∃ h' v', (List.range n).foldlM (fun h c => o.write h c (d c)) h = some h' ∧ Rep h' o v' a ∧ v'.np = v.np ∧ v'.ch = v.ch ∧
      (∃ d', h' = h.put a (v.size, d')) ∧
      ∀ i < v.size, v'.data i = if i < n * v.np then d (i / v.np) (i % v.np) else v.data i := by
  intro n
  induction n with
  | zero =>
    intro _
    obtain ⟨d0, hd, hv⟩ := r.cell
    refine ⟨h, v, rfl, r, rfl, rfl, ⟨d0, ?_⟩, fun i _ => by simp⟩
    simp only [Heap.put, ← hd, Function.update_eq_self]
  | succ n ih =>
    intro hn
    obtain ⟨h', v', e, r', hnp, hch, ⟨d', hd'⟩, hv⟩ := ih (by omega)
    obtain ⟨d2, e2, r2⟩ := write_rep r' (c := n) (by omega) (d n)
    refine ⟨_, _, ?_, r2, hnp, hch, ⟨d2, ?_⟩, fun i hi => ?_⟩
    · rw [List.range_succ, List.foldlM_append, e]
      simp only [List.foldlM_cons, List.foldlM_nil]
      show (o.write h' n (d n)).bind _ = _
      rw [e2]; rfl
    · rw [hd', put_put]; simp only [CBuf.size, hnp, hch]
    · simp only [CBuf.setChannel, hnp]
      have h1 : (n + 1) * v.np = n * v.np + v.np := by ring
      by_cases hin : n * v.np ≤ i ∧ i < n * v.np + v.np
      · rw [if_pos hin, if_pos (by omega)]
        have hpos : 0 < v.np := by omega
        have hq : i / v.np = n := by
          apply Nat.div_eq_of_lt_le
          · exact hin.1
          · rw [h1]; exact hin.2
        have hm : i % v.np = i - n * v.np := by
          have := Nat.div_add_mod i v.np
          rw [hq, Nat.mul_comm] at this; omega
        rw [hq, hm]
      · rw [if_neg hin, hv i hi]
        by_cases hlt : i < n * v.np
        · rw [if_pos hlt, if_pos (by omega)]
        · rw [if_neg hlt, if_neg (by omega)]

theorem write_all {h : Heap} {o : CObj} {v : CBuf} {a : ℕ} (r : Rep h o v a) (d : ℕ → ℕ → ℂ) :
    ∃ d', (List.range o.ch).foldlM (fun h c => o.write h c (d c)) h = some (h.put a (v.size, d')) ∧
      ∀ w : CBuf, w.np = v.np → w.ch = v.ch → (∀ i < v.size, w.data i = d (i / v.np) (i % v.np)) → Rep (h.put a (v.size, d')) o w a := by
  obtain ⟨h', v', e, r', hnp, hch, ⟨d', hd'⟩, hv⟩ := write_many r d v.ch le_rfl
  refine ⟨d', by rw [r.ch, e, hd'], fun w hw1 hw2 hw => ?_⟩
  rw [← hd']
  obtain ⟨d2, hc2, hv2⟩ := r'.cell
  have hs : w.size = v'.size := by simp only [CBuf.size, hw1, hw2, hnp, hch]
  have hs' : v'.size = v.size := by simp only [CBuf.size, hnp, hch]
  refine ⟨r.data, r.np.trans hw1.symm, r.ch.trans hw2.symm, ?_, by rw [r.ptrs, hw1, hw2], d2, by rw [hs]; exact hc2, fun i hi => ?_⟩
  · rw [r.size, hs, hs']
  · rw [hs] at hi
    have hi' : i < v.size := by rw [← hs']; exact hi
    rw [hv2 i hi, hv i hi', if_pos (by rw [Nat.mul_comm]; exact hi'), hw i hi']

theorem clear_rep {h : Heap} {o : CObj} {v : CBuf} {a : ℕ} (r : Rep h o v a) :
    ∃ d', o.clear h = some (h.put a (v.size, d')) ∧ Rep (h.put a (v.size, d')) o v.clear a := by
  obtain ⟨d', e, hr⟩ := write_all r fun _ _ => 0
  refine ⟨d', e, hr _ rfl rfl fun i hi => ?_⟩
  show (if i < v.size then _ else _) = _
  rw [if_pos hi]
  have hpos : 0 < v.np := by
    rcases Nat.eq_zero_or_pos v.np with h0 | h0
    · simp [CBuf.size, h0] at hi
    · exact h0
  have hq : i / v.np < v.ch := by rw [Nat.div_lt_iff_lt_mul hpos, Nat.mul_comm]; exact hi
  have hm := Nat.mod_lt i hpos
  simp only [CBuf.floats, Buf.clear]
  have g1 : i / v.np < v.ch ∧ 2 * (i % v.np) < 2 * v.np := ⟨hq, by omega⟩
  have g2 : i / v.np < v.ch ∧ 2 * (i % v.np) + 1 < 2 * v.np := ⟨hq, by omega⟩
  simp only [g1, g2, and_self, if_true]
  rfl

theorem combine_rep {h : Heap} {o ox oy : CObj} {v x y : CBuf} {a ax ay : ℕ} (f : ℂ → ℂ → ℂ → ℂ) (r : Rep h o v a) (rx : Rep h ox x ax) (ry : Rep h oy y ay)
    (hx : x.size = v.size) (hy : y.size = v.size) {w : CBuf} (w1 : w.np = v.np) (w2 : w.ch = v.ch)
    (hw : ∀ i < v.size, w.data i = f (v.data i) (x.data i) (y.data i)) :
    ∃ d', CObj.combine f h o ox oy = some (h.put a (v.size, d')) ∧ Rep (h.put a (v.size, d')) o w a := by
  obtain ⟨d, hd, hv⟩ := r.cell
  obtain ⟨dx, hdx, hvx⟩ := rx.cell
  obtain ⟨dy, hdy, hvy⟩ := ry.cell
  have hs : w.size = v.size := by simp only [CBuf.size, w1, w2]
  refine ⟨fun i => if i < v.size then f (d i) (dx i) (dy i) else d i, ?_, ?_⟩
  · simp only [CObj.combine, r.data, rx.data, ry.data, Option.bind_eq_bind, Option.bind_some, hd, hdx, hdy, r.size, hx, hy, le_refl, and_self, if_true]
  · refine ⟨r.data, r.np.trans w1.symm, r.ch.trans w2.symm, by rw [r.size, hs], by rw [r.ptrs, w1, w2], _, by rw [put_cell, if_pos rfl, hs], fun i hi => ?_⟩
    rw [hs] at hi
    show (if i < v.size then _ else _) = _
    rw [if_pos hi, hw i hi, hv i hi, hvx i (by rw [hx]; exact hi), hvy i (by rw [hy]; exact hi)]

/-- The invariant: each buffer owns its own allocation, and nothing else is allocated. -/
structure Inv (s : Buffers) (vs : Values) : Prop where
  len : ∀ k, (s.vecs k).items.length = (vs k).length
  rep : ∀ t o v, s.at? t = some o → vs.at? t = some v → ∃ a, Rep s.heap o v a
  inj : ∀ t t' o o' a, s.at? t = some o → s.at? t' = some o' → o.data = some a → o'.data = some a → t = t'
  owned : ∀ a, s.heap.cell a ≠ none → ∃ t o, s.at? t = some o ∧ o.data = some a
  fresh : ∀ a, s.heap.next ≤ a → s.heap.cell a = none

theorem inv_empty : Inv {} (fun _ => []) :=
  ⟨fun _ => rfl, fun t o v h => by simp [Buffers.at?] at h, fun t t' o o' a h => by simp [Buffers.at?] at h, fun a h => absurd rfl h, fun _ _ => rfl⟩

theorem Inv.obj {s : Buffers} {vs : Values} (i : Inv s vs) {t : Place} {v : CBuf} (h : vs.at? t = some v) : ∃ o a, s.at? t = some o ∧ Rep s.heap o v a := by
  have hlt : t.pos < (s.vecs t.vec).items.length := by
    rw [i.len]; exact (List.getElem?_eq_some_iff.1 h).1
  have ho : s.at? t = some ((s.vecs t.vec).items[t.pos]) := List.getElem?_eq_getElem hlt
  obtain ⟨a, r⟩ := i.rep t _ v ho h
  exact ⟨_, a, ho, r⟩

theorem Inv.val {s : Buffers} {vs : Values} (i : Inv s vs) {t : Place} {o : CObj} (h : s.at? t = some o) : ∃ v a, vs.at? t = some v ∧ Rep s.heap o v a := by
  have hlt : t.pos < (vs t.vec).length := by
    rw [← i.len]; exact (List.getElem?_eq_some_iff.1 h).1
  have ho : vs.at? t = some ((vs t.vec)[t.pos]) := List.getElem?_eq_getElem hlt
  obtain ⟨a, r⟩ := i.rep t _ _ h ho
  exact ⟨_, a, ho, r⟩

theorem Inv.none_iff {s : Buffers} {vs : Values} (i : Inv s vs) (t : Place) : vs.at? t = none ↔ s.at? t = none := by
  simp only [Values.at?, Buffers.at?, List.getElem?_eq_none_iff, i.len]

theorem values_put_at (vs : Values) (t t' : Place) (v w : CBuf) (h : vs.at? t = some v) :
    (vs.put t w).at? t' = if t' = t then some w else vs.at? t' := by
  have hlt : t.pos < (vs t.vec).length := (List.getElem?_eq_some_iff.1 h).1
  obtain ⟨k, p⟩ := t
  obtain ⟨k', p'⟩ := t'
  simp only [Values.at?, Values.put, Place.mk.injEq]
  by_cases hk : k' = k
  · subst hk
    rw [Function.update_self, List.getElem?_set]
    by_cases hp : p = p'
    · subst hp; simp only [and_self, if_true]; rw [if_pos hlt]
    · rw [if_neg hp, if_neg (fun e => hp e.2.symm)]
  · rw [Function.update_of_ne hk, if_neg (fun e => hk e.1)]

/-- A change of one buffer's contents. -/
theorem Inv.change {s : Buffers} {vs : Values} (i : Inv s vs) {t : Place} {o : CObj} {v w : CBuf} {a : ℕ} {c : ℕ × (ℕ → ℂ)} (ho : s.at? t = some o) (hv : vs.at? t = some v)
    (r : Rep s.heap o v a) (r' : Rep (s.heap.put a c) o w a) : Inv { s with heap := s.heap.put a c } (vs.put t w) := by
  have hat : ∀ t', ({ s with heap := s.heap.put a c } : Buffers).at? t' = s.at? t' := fun _ => rfl
  refine ⟨fun k => ?_, fun t' o' v' h1 h2 => ?_, fun t t' o o' a => i.inj t t' o o' a, fun b hb => ?_, fun b hb => ?_⟩
  · show (s.vecs k).items.length = _
    rw [i.len, Values.put, Function.update_apply]
    split_ifs with hk
    · subst hk; simp
    · rfl
  · rw [hat] at h1
    rw [values_put_at vs t t' v w hv] at h2
    by_cases ht : t' = t
    · rw [if_pos ht] at h2
      subst ht
      rw [ho] at h1
      cases h1; cases h2
      exact ⟨a, r'⟩
    · rw [if_neg ht] at h2
      obtain ⟨a', q⟩ := i.rep t' o' v' h1 h2
      have hne : a' ≠ a := by
        rintro rfl
        exact ht (i.inj _ _ _ _ _ h1 ho q.data r.data)
      refine ⟨a', q.data, q.np, q.ch, q.size, q.ptrs, ?_⟩
      show ∃ d, (s.heap.put a c).cell a' = _ ∧ _
      rw [put_cell, if_neg hne]
      exact q.cell
  · rw [show ({ s with heap := s.heap.put a c } : Buffers).heap = s.heap.put a c from rfl, put_cell] at hb
    by_cases hba : b = a
    · exact ⟨t, o, ho, by rw [hba]; exact r.data⟩
    · rw [if_neg hba] at hb
      exact i.owned b hb
  · show (s.heap.put a c).cell b = none
    have hb' : s.heap.next ≤ b := hb
    rw [put_cell]
    by_cases hba : b = a
    · obtain ⟨d, hd, _⟩ := r.cell
      rw [← hba, i.fresh b hb'] at hd
      cases hd
    · rw [if_neg hba]; exact i.fresh b hb'

theorem relocate_same : ∀ (l : List CObj) (h : Heap), Vec.relocate h l = some (l, h) := by
  intro l
  induction l with
  | nil => intro h; rfl
  | cons b l ih => intro h; simp [Vec.relocate, CObj.move, CObj.destroy, Heap.free, ih]

theorem emplace_same (grow : ℕ → ℕ) (h : Heap) (v : Vec) (b : CObj) : ∃ cap, Vec.emplaceBack grow h v b = some (⟨cap, v.items ++ [b]⟩, h) := by
  simp only [Vec.emplaceBack, relocate_same]
  split_ifs <;> exact ⟨_, rfl⟩

theorem build_rep (grow : ℕ → ℕ) (h : Heap) (v : Vec) (np ch : ℕ) (d : ℕ → ℕ → ℂ) :
    ∃ cap o d', Vec.build grow h v np ch d = some (⟨cap, v.items ++ [o]⟩, ⟨Function.update h.cell h.next (some (np * ch, d')), h.next + 1⟩) ∧
      Rep ⟨Function.update h.cell h.next (some (np * ch, d')), h.next + 1⟩ o (filled np ch d) h.next := by
  have r0 : Rep (CObj.construct h np ch).2 (CObj.construct h np ch).1 (CBuf.mk0 np ch) h.next :=
    ⟨rfl, rfl, rfl, rfl, rfl, fun _ => 0, by simp [CObj.construct, Heap.alloc, CBuf.mk0, CBuf.size], fun _ _ => rfl⟩
  obtain ⟨d1, e1, r1⟩ := clear_rep r0
  obtain ⟨d2, e2, r2⟩ := write_all r1 d
  have r3 := r2 (filled np ch d) rfl rfl (fun i _ => rfl)
  obtain ⟨cap, e3⟩ := emplace_same grow
    (((CObj.construct h np ch).2.put h.next ((CBuf.mk0 np ch).size, d1)).put h.next ((CBuf.mk0 np ch).clear.size, d2)) v (CObj.construct h np ch).1
  have hh : ((CObj.construct h np ch).2.put h.next ((CBuf.mk0 np ch).size, d1)).put h.next ((CBuf.mk0 np ch).clear.size, d2)
      = ⟨Function.update h.cell h.next (some (np * ch, d2)), h.next + 1⟩ := by
    rw [put_put]
    simp only [Heap.put, CObj.construct, Heap.alloc, Function.update_idem]
    rfl
  refine ⟨cap, (CObj.construct h np ch).1, d2, ?_, by rw [← hh]; exact r3⟩
  rw [← hh]
  show (CObj.clear (CObj.construct h np ch).2 (CObj.construct h np ch).1).bind _ = _
  rw [e1]
  show ((List.range (CObj.construct h np ch).1.ch).foldlM _ _ : Option Heap).bind _ = _
  rw [e2]
  exact e3

theorem values_push_at (vs : Values) (k : ℕ) (w : CBuf) (t : Place) :
    Values.at? (Function.update vs k (vs k ++ [w])) t = if t = ⟨k, (vs k).length⟩ then some w else vs.at? t := by
  obtain ⟨k', p⟩ := t
  simp only [Values.at?, Place.mk.injEq]
  by_cases hk : k' = k
  · subst hk
    rw [Function.update_self]
    rcases lt_trichotomy p (vs k').length with hp | hp | hp
    · rw [List.getElem?_append_left hp, if_neg (by omega)]
    · subst hp; simp
    · rw [if_neg (by omega), List.getElem?_eq_none (by simp; omega), List.getElem?_eq_none (by omega)]
  · rw [Function.update_of_ne hk, if_neg (fun e => hk e.1)]

theorem objs_push_at (s : Buffers) (h : Heap) (cap k : ℕ) (w : CObj) (t : Place) :
    (⟨h, Function.update s.vecs k ⟨cap, (s.vecs k).items ++ [w]⟩⟩ : Buffers).at? t = if t = ⟨k, (s.vecs k).items.length⟩ then some w else s.at? t := by
  obtain ⟨k', p⟩ := t
  simp only [Buffers.at?, Place.mk.injEq]
  by_cases hk : k' = k
  · subst hk
    rw [Function.update_self]
    rcases lt_trichotomy p (s.vecs k').items.length with hp | hp | hp
    · rw [List.getElem?_append_left hp, if_neg (by omega)]
    · subst hp; simp
    · rw [if_neg (by omega), List.getElem?_eq_none (by simp; omega), List.getElem?_eq_none (by omega)]
  · rw [Function.update_of_ne hk, if_neg (fun e => hk e.1)]

theorem Inv.build {s : Buffers} {vs : Values} (i : Inv s vs) (grow : ℕ → ℕ) (k np ch : ℕ) (d : ℕ → ℕ → ℂ) :
    ∃ s', s.step grow (.build k np ch d) = some s' ∧ Inv s' (Function.update vs k (vs k ++ [filled np ch d])) := by
  obtain ⟨cap, o, d', e, r⟩ := build_rep grow s.heap (s.vecs k) np ch d
  refine ⟨_, by rw [Buffers.step, e]; rfl, ?_, ?_, ?_, ?_, ?_⟩
  · intro k'
    simp only [Function.update_apply]
    split_ifs with hk
    · subst hk; simp [i.len]
    · exact i.len k'
  · intro t o' v' h1 h2
    rw [objs_push_at] at h1
    rw [values_push_at, ← i.len] at h2
    by_cases ht : t = ⟨k, (s.vecs k).items.length⟩
    · rw [if_pos ht] at h1 h2
      cases h1; cases h2
      exact ⟨_, r⟩
    · rw [if_neg ht] at h1 h2
      obtain ⟨a, q⟩ := i.rep t o' v' h1 h2
      refine ⟨a, q.data, q.np, q.ch, q.size, q.ptrs, ?_⟩
      have hne : a ≠ s.heap.next := by
        rintro rfl
        obtain ⟨d0, hd0, _⟩ := q.cell
        rw [i.fresh _ le_rfl] at hd0; cases hd0
      show ∃ d0, Function.update s.heap.cell s.heap.next _ a = _ ∧ _
      rw [Function.update_of_ne hne]
      exact q.cell
  · intro t t' o1 o2 a h1 h2 e1 e2
    have old : ∀ t o1, s.at? t = some o1 → o1.data = some a → a ≠ s.heap.next := by
      rintro t o1 h1 e1 rfl
      obtain ⟨v, a', _, q⟩ := i.val h1
      rw [q.data] at e1; cases e1
      obtain ⟨d0, hd0, _⟩ := q.cell
      rw [i.fresh _ le_rfl] at hd0; cases hd0
    have hnew : o.data = some s.heap.next := r.data
    rw [objs_push_at] at h1 h2
    by_cases ht : t = ⟨k, (s.vecs k).items.length⟩ <;> by_cases ht' : t' = ⟨k, (s.vecs k).items.length⟩
    · rw [ht, ht']
    · rw [if_pos ht] at h1; rw [if_neg ht'] at h2
      cases h1
      rw [hnew] at e1; cases e1
      exact absurd rfl (old _ _ h2 e2)
    · rw [if_neg ht] at h1; rw [if_pos ht'] at h2
      cases h2
      rw [hnew] at e2; cases e2
      exact absurd rfl (old _ _ h1 e1)
    · rw [if_neg ht] at h1; rw [if_neg ht'] at h2
      exact i.inj _ _ _ _ _ h1 h2 e1 e2
  · intro a ha
    by_cases hn : a = s.heap.next
    · exact ⟨⟨k, (s.vecs k).items.length⟩, o, by rw [objs_push_at, if_pos rfl], by rw [hn]; exact r.data⟩
    · have ha' : s.heap.cell a ≠ none := by
        intro e; apply ha
        show Function.update s.heap.cell s.heap.next _ a = none
        rw [Function.update_of_ne hn]; exact e
      obtain ⟨t, o', h1, h2⟩ := i.owned a ha'
      refine ⟨t, o', ?_, h2⟩
      rw [objs_push_at, if_neg]; exact h1
      rintro rfl
      simp [Buffers.at?] at h1
  · intro a ha
    have ha' : s.heap.next + 1 ≤ a := ha
    show Function.update s.heap.cell s.heap.next _ a = none
    rw [Function.update_of_ne (by omega)]
    exact i.fresh a (by omega)

/-- Destroying buffers that own different allocations. -/
theorem destroy_all : ∀ (l : List CObj) (h : Heap), (∀ o ∈ l, ∃ a, o.data = some a ∧ h.cell a ≠ none) →
    l.Pairwise (fun o o' => o.data ≠ o'.data) →
    ∃ h', l.foldlM (fun h b => b.destroy h) h = some h' ∧ h'.next = h.next ∧
      (∀ a, (∃ o ∈ l, o.data = some a) → h'.cell a = none) ∧ ∀ a, (¬ ∃ o ∈ l, o.data = some a) → h'.cell a = h.cell a := by
  intro l
  induction l with
  | nil => intro h _ _; exact ⟨h, rfl, rfl, fun a ⟨o, ho, _⟩ => by simp at ho, fun _ _ => rfl⟩
  | cons b l ih =>
    intro h hl hp
    obtain ⟨a, ea, ha⟩ := hl b (by simp)
    obtain ⟨c, hc⟩ := Option.ne_none_iff_exists'.1 ha
    rw [List.pairwise_cons] at hp
    have e : b.destroy h = some { h with cell := Function.update h.cell a none } := by
      simp only [CObj.destroy, ea, Heap.free, hc, Option.map_some]
    have hne : ∀ o ∈ l, o.data ≠ some a := fun o ho => by rw [← ea]; exact (hp.1 o ho).symm
    obtain ⟨h', e', hn, h1, h2⟩ := ih { h with cell := Function.update h.cell a none } (fun o ho => by
      obtain ⟨a', e1, e2⟩ := hl o (by simp [ho])
      refine ⟨a', e1, ?_⟩
      show Function.update h.cell a none a' ≠ none
      rw [Function.update_of_ne]
      · exact e2
      · rintro rfl; exact hne o ho e1) hp.2
    refine ⟨h', ?_, hn, ?_, ?_⟩
    · rw [List.foldlM_cons, e]; exact e'
    · rintro x ⟨o, ho, eo⟩
      by_cases hx : ∃ o ∈ l, o.data = some x
      · exact h1 x hx
      · rw [h2 x hx]
        rcases List.mem_cons.1 ho with rfl | ho
        · rw [ea] at eo; cases eo
          exact Function.update_self ..
        · exact absurd ⟨o, ho, eo⟩ hx
    · intro x hx
      rw [h2 x (fun ⟨o, ho, eo⟩ => hx ⟨o, by simp [ho], eo⟩)]
      exact Function.update_of_ne (by rintro rfl; exact hx ⟨b, by simp, ea⟩) ..

theorem drop_at (s : Buffers) (h : Heap) (k : ℕ) (t : Place) :
    (⟨h, Function.update s.vecs k {}⟩ : Buffers).at? t = if t.vec = k then none else s.at? t := by
  simp only [Buffers.at?, Function.update_apply]
  split_ifs <;> simp

theorem Inv.drop {s : Buffers} {vs : Values} (i : Inv s vs) (grow : ℕ → ℕ) (k : ℕ) :
    ∃ s', s.step grow (.drop k) = some s' ∧ Inv s' (Function.update vs k []) := by
  obtain ⟨h', e, hn, h1, h2⟩ := destroy_all (s.vecs k).items s.heap (fun o ho => by
      obtain ⟨p, hp⟩ := List.getElem?_of_mem ho
      obtain ⟨v, a, _, q⟩ := i.val (t := ⟨k, p⟩) hp
      obtain ⟨d, hd, _⟩ := q.cell
      exact ⟨a, q.data, by rw [hd]; simp⟩) (by
      rw [List.pairwise_iff_getElem]
      intro p q hp hq hpq e
      have h1 : s.at? ⟨k, p⟩ = some (s.vecs k).items[p] := List.getElem?_eq_getElem hp
      have h2 : s.at? ⟨k, q⟩ = some (s.vecs k).items[q] := List.getElem?_eq_getElem hq
      obtain ⟨v, a, _, r⟩ := i.val h1
      have := i.inj _ _ _ _ _ h1 h2 r.data (by rw [← e]; exact r.data)
      simp only [Place.mk.injEq] at this
      omega)
  have mem : ∀ (t : Place) o, s.at? t = some o → t.vec = k → o ∈ (s.vecs k).items := by
    rintro ⟨k', p⟩ o ho rfl
    exact List.mem_of_getElem? ho
  refine ⟨_, by rw [Buffers.step, Vec.destroy, e]; rfl, ?_, ?_, ?_, ?_, ?_⟩
  · intro k'
    simp only [Function.update_apply]
    split_ifs
    · rfl
    · exact i.len k'
  · intro t o v ho hv
    rw [drop_at] at ho
    split_ifs at ho with hk
    have hv' : vs.at? t = some v := by
      rw [← hv]; simp only [Values.at?, Function.update_of_ne hk]
    obtain ⟨a, q⟩ := i.rep t o v ho hv'
    refine ⟨a, q.data, q.np, q.ch, q.size, q.ptrs, ?_⟩
    show ∃ d, h'.cell a = _ ∧ _
    rw [h2 a]
    · exact q.cell
    · rintro ⟨o', ho', e'⟩
      obtain ⟨p, hp⟩ := List.getElem?_of_mem ho'
      have := i.inj t ⟨k, p⟩ _ _ _ ho hp q.data e'
      exact hk (by rw [this])
  · intro t t' o o' a ho ho' ea ea'
    rw [drop_at] at ho ho'
    split_ifs at ho ho'
    exact i.inj _ _ _ _ _ ho ho' ea ea'
  · intro a ha
    have hx : ¬ ∃ o ∈ (s.vecs k).items, o.data = some a := fun hx => ha (h1 a hx)
    rw [show (⟨h', Function.update s.vecs k {}⟩ : Buffers).heap.cell a = h'.cell a from rfl, h2 a hx] at ha
    obtain ⟨t, o, ho, ea⟩ := i.owned a ha
    refine ⟨t, o, ?_, ea⟩
    rw [drop_at, if_neg]
    · exact ho
    · intro hk; exact hx ⟨o, mem t o ho hk, ea⟩
  · intro a ha
    have ha' : s.heap.next ≤ a := by rw [← hn]; exact ha
    show h'.cell a = none
    by_cases hx : ∃ o ∈ (s.vecs k).items, o.data = some a
    · exact h1 a hx
    · rw [h2 a hx]; exact i.fresh a ha'

/-- One operation: it is defined for the pointers exactly if it is for the values, and keeps the invariant. -/
theorem Inv.step {s : Buffers} {vs : Values} (i : Inv s vs) (grow : ℕ → ℕ) (op : BufOp) :
    (vs.step op = none ∧ s.step grow op = none) ∨ ∃ s' vs', vs.step op = some vs' ∧ s.step grow op = some s' ∧ Inv s' vs' := by
  cases op with
  | build k np ch d =>
    obtain ⟨s', e, i'⟩ := i.build grow k np ch d
    exact .inr ⟨s', _, rfl, e, i'⟩
  | drop k =>
    obtain ⟨s', e, i'⟩ := i.drop grow k
    exact .inr ⟨s', _, rfl, e, i'⟩
  | write t c d =>
    cases hv : vs.at? t with
    | none =>
      have ho := (i.none_iff t).1 hv
      exact .inl ⟨by simp [Values.step, hv], by simp [Buffers.step, ho]⟩
    | some v =>
      obtain ⟨o, a, ho, r⟩ := i.obj hv
      by_cases hc : c < v.ch
      · obtain ⟨d', e, r'⟩ := write_rep r hc d
        exact .inr ⟨_, _, by simp only [Values.step, hv, Option.bind_some, if_pos hc], by simp [Buffers.step, ho, e], i.change ho hv r r'⟩
      · exact .inl ⟨by simp [Values.step, hv, hc], by simp [Buffers.step, ho, CObj.write, r.ch, hc]⟩
  | clear t =>
    cases hv : vs.at? t with
    | none =>
      have ho := (i.none_iff t).1 hv
      exact .inl ⟨by simp [Values.step, hv], by simp [Buffers.step, ho]⟩
    | some v =>
      obtain ⟨o, a, ho, r⟩ := i.obj hv
      obtain ⟨d', e, r'⟩ := clear_rep r
      exact .inr ⟨_, _, by simp only [Values.step, hv, Option.map_some], by simp [Buffers.step, ho, e], i.change ho hv r r'⟩
  | mul t x y =>
    cases hv : vs.at? t with
    | none =>
      have ho := (i.none_iff t).1 hv
      exact .inl ⟨by simp [Values.step, hv], by simp [Buffers.step, ho]⟩
    | some v =>
    cases hx : vs.at? x with
    | none =>
      have ho := (i.none_iff x).1 hx
      exact .inl ⟨by simp [Values.step, hx], by simp [Buffers.step, ho]⟩
    | some u =>
    cases hy : vs.at? y with
    | none =>
      have ho := (i.none_iff y).1 hy
      exact .inl ⟨by simp [Values.step, hy], by simp [Buffers.step, ho]⟩
    | some w =>
      obtain ⟨o, a, ho, r⟩ := i.obj hv
      obtain ⟨ox, ax, hox, rx⟩ := i.obj hx
      obtain ⟨oy, ay, hoy, ry⟩ := i.obj hy
      by_cases hs : (v.ch = u.ch ∧ u.ch = w.ch) ∧ (v.np = u.np ∧ u.np = w.np)
      · have h1 : u.size = v.size := by simp only [CBuf.size, hs.1.1, hs.2.1]
        have h2 : w.size = v.size := by simp only [CBuf.size, hs.1.1, hs.2.1, hs.1.2, hs.2.2]
        obtain ⟨d', e, r'⟩ := combine_rep (fun _ u v => u * v) r rx ry h1 h2
          (w := { v with data := fun i => if i < v.size then u.data i * w.data i else v.data i }) rfl rfl (fun i hi => if_pos hi)
        refine .inr ⟨_, _, ?_, ?_, i.change ho hv r r'⟩
        · simp only [Values.step, hv, hx, hy, CBuf.mulFrom, if_pos hs, Option.map_some, Option.bind_eq_bind, Option.bind_some]
        · simp only [Buffers.step, ho, hox, hoy, CObj.mulFrom, r.ch, rx.ch, ry.ch, r.np, rx.np, ry.np, if_pos hs, e, Option.bind_eq_bind, Option.bind_some]
      · refine .inl ⟨?_, ?_⟩
        · simp only [Values.step, hv, hx, hy, CBuf.mulFrom, if_neg hs, Option.map_none, Option.bind_eq_bind, Option.bind_some]
        · simp only [Buffers.step, ho, hox, hoy, CObj.mulFrom, r.ch, rx.ch, ry.ch, r.np, rx.np, ry.np, if_neg hs, Option.bind_eq_bind, Option.bind_some, Option.bind_none]
  | mac t x y =>
    cases hv : vs.at? t with
    | none =>
      have ho := (i.none_iff t).1 hv
      exact .inl ⟨by simp [Values.step, hv], by simp [Buffers.step, ho]⟩
    | some v =>
    cases hx : vs.at? x with
    | none =>
      have ho := (i.none_iff x).1 hx
      exact .inl ⟨by simp [Values.step, hx], by simp [Buffers.step, ho]⟩
    | some u =>
    cases hy : vs.at? y with
    | none =>
      have ho := (i.none_iff y).1 hy
      exact .inl ⟨by simp [Values.step, hy], by simp [Buffers.step, ho]⟩
    | some w =>
      obtain ⟨o, a, ho, r⟩ := i.obj hv
      obtain ⟨ox, ax, hox, rx⟩ := i.obj hx
      obtain ⟨oy, ay, hoy, ry⟩ := i.obj hy
      by_cases hs : (v.ch = u.ch ∧ u.ch = w.ch) ∧ (v.np = u.np ∧ u.np = w.np)
      · have h1 : u.size = v.size := by simp only [CBuf.size, hs.1.1, hs.2.1]
        have h2 : w.size = v.size := by simp only [CBuf.size, hs.1.1, hs.2.1, hs.1.2, hs.2.2]
        obtain ⟨d', e, r'⟩ := combine_rep (fun w u v => w + u * v) r rx ry h1 h2
          (w := { v with data := fun i => if i < v.size then v.data i + u.data i * w.data i else v.data i }) rfl rfl (fun i hi => if_pos hi)
        refine .inr ⟨_, _, ?_, ?_, i.change ho hv r r'⟩
        · simp only [Values.step, hv, hx, hy, CBuf.mulAccFrom, if_pos hs, Option.map_some, Option.bind_eq_bind, Option.bind_some]
        · simp only [Buffers.step, ho, hox, hoy, CObj.mulAccFrom, r.ch, rx.ch, ry.ch, r.np, rx.np, ry.np, if_pos hs, e, Option.bind_eq_bind, Option.bind_some]
      · refine .inl ⟨?_, ?_⟩
        · simp only [Values.step, hv, hx, hy, CBuf.mulAccFrom, if_neg hs, Option.map_none, Option.bind_eq_bind, Option.bind_some]
        · simp only [Buffers.step, ho, hox, hoy, CObj.mulAccFrom, r.ch, rx.ch, ry.ch, r.np, rx.np, ry.np, if_neg hs, Option.bind_eq_bind, Option.bind_some, Option.bind_none]
  | add t x =>
    cases hv : vs.at? t with
    | none =>
      have ho := (i.none_iff t).1 hv
      exact .inl ⟨by simp [Values.step, hv], by simp [Buffers.step, ho]⟩
    | some v =>
    cases hx : vs.at? x with
    | none =>
      have ho := (i.none_iff x).1 hx
      exact .inl ⟨by simp [Values.step, hx], by simp [Buffers.step, ho]⟩
    | some u =>
      obtain ⟨o, a, ho, r⟩ := i.obj hv
      obtain ⟨ox, ax, hox, rx⟩ := i.obj hx
      by_cases hs : v.ch = u.ch ∧ v.np = u.np
      · have h1 : u.size = v.size := by simp only [CBuf.size, hs.1, hs.2]
        obtain ⟨d', e, r'⟩ := combine_rep (fun w u _ => w + u) r rx rx h1 h1
          (w := { v with data := fun i => if i < v.size then v.data i + u.data i else v.data i }) rfl rfl (fun i hi => if_pos hi)
        refine .inr ⟨_, _, ?_, ?_, i.change ho hv r r'⟩
        · simp only [Values.step, hv, hx, CBuf.addFrom, if_pos hs, Option.map_some, Option.bind_eq_bind, Option.bind_some]
        · simp only [Buffers.step, ho, hox, CObj.addFrom, r.ch, rx.ch, r.np, rx.np, if_pos hs, e, Option.bind_eq_bind, Option.bind_some]
      · refine .inl ⟨?_, ?_⟩
        · simp only [Values.step, hv, hx, CBuf.addFrom, if_neg hs, Option.map_none, Option.bind_eq_bind, Option.bind_some]
        · simp only [Buffers.step, ho, hox, CObj.addFrom, r.ch, rx.ch, r.np, rx.np, if_neg hs, Option.bind_eq_bind, Option.bind_some, Option.bind_none]

theorem Inv.run (grow : ℕ → ℕ) : ∀ (ops : List BufOp) (s : Buffers) (vs : Values), Inv s vs →
    (vs.run ops = none ∧ s.run grow ops = none) ∨ ∃ s' vs', vs.run ops = some vs' ∧ s.run grow ops = some s' ∧ Inv s' vs' := by
  intro ops
  induction ops with
  | nil => intro s vs i; exact .inr ⟨s, vs, rfl, rfl, i⟩
  | cons op ops ih =>
    intro s vs i
    rcases i.step grow op with ⟨e1, e2⟩ | ⟨s', vs', e1, e2, i'⟩
    · exact .inl ⟨by simp only [Values.run, e1, Option.bind_none], by simp only [Buffers.run, e2, Option.bind_none]⟩
    · simp only [Values.run, e1, Buffers.run, e2, Option.bind_some]
      exact ih s' vs' i'

end Zones.Proofs.Heaps
