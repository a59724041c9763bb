import Verif.Proofs.Heap

/-!
# C100: spectrum buffers own their memory

The buffers of the code are objects with raw pointers into their own vectors, moved about by growing `std::vector`s and never given a copy or move
constructor of their own (ComplexBuffer.h:6-33). Whatever is done with them, in any order and under any growth policy, they behave as values: what one reads
is what was last written to that buffer, no access goes outside an allocation or into a freed one, nothing is freed twice and nothing is leaked.
-/

namespace Zones.Props
open Zones.Model Zones.Spec Zones.Proofs.Heaps

/-- **C100** (values). Any operations on buffers, started with none: if they make sense for values, every one of them is defined for the objects and pointers (no
access outside an allocation or to freed memory, no double free), and in the end every buffer, seen through its channel pointers and through its vector,
holds its value. -/
theorem C100_values (grow : ℕ → ℕ) (ops : List BufOp) (vs : Values) (hv : Values.run (fun _ => []) ops = some vs) :
    ∃ s, Buffers.run grow {} ops = some s ∧ (∀ k, (s.vecs k).items.length = (vs k).length) ∧
      ∀ t v, vs.at? t = some v → ∃ o, s.at? t = some o ∧ SeenAs s.heap o v := by
  rcases Inv.run grow ops {} (fun _ => []) inv_empty with ⟨e, _⟩ | ⟨s, vs', e, es, i⟩
  · rw [hv] at e; cases e
  · rw [hv] at e; cases e
    refine ⟨s, es, i.len, fun t v h => ?_⟩
    obtain ⟨o, a, ho, r⟩ := i.obj h
    exact ⟨o, ho, r.seen⟩

/-- **C100** (nothing else is defined): an operation with a place, a channel or a shape that is wrong is undefined for the objects too, so the value-level
requirements of `C100_values` are exact. -/
theorem C100_exact (grow : ℕ → ℕ) (ops : List BufOp) : (Buffers.run grow {} ops).isSome ↔ (Values.run (fun _ => []) ops).isSome := by
  rcases Inv.run grow ops {} (fun _ => []) inv_empty with ⟨e, e'⟩ | ⟨s, vs', e, e', _⟩ <;> simp [e, e']

/-- **C100** (ownership). In every state that is reached, the allocations that have not been freed are exactly those of the buffers that exist, one each. -/
theorem C100_owns (grow : ℕ → ℕ) (ops : List BufOp) (s : Buffers) (hs : Buffers.run grow {} ops = some s) :
    Heap.live s.heap = {a | ∃ t o, s.at? t = some o ∧ o.data = some a} ∧
    (∀ t o, s.at? t = some o → ∃ a, o.data = some a) ∧
    ∀ t t' o o', s.at? t = some o → s.at? t' = some o' → o.data = o'.data → t = t' := by
  rcases Inv.run grow ops {} (fun _ => []) inv_empty with ⟨_, e⟩ | ⟨s', vs', _, e, i⟩
  · rw [hs] at e; cases e
  · rw [hs] at e; cases e
    refine ⟨Set.ext fun a => ⟨i.owned a, ?_⟩, fun t o h => ?_, fun t t' o o' h h' e => ?_⟩
    · rintro ⟨t, o, h, ea⟩
      obtain ⟨v, a', _, r⟩ := i.val h
      rw [r.data] at ea; cases ea
      obtain ⟨d, hd, _⟩ := r.cell
      show s.heap.cell a ≠ none
      rw [hd]; simp
    · obtain ⟨v, a, _, r⟩ := i.val h
      exact ⟨a, r.data⟩
    · obtain ⟨v, a, _, r⟩ := i.val h
      exact i.inj _ _ _ _ a h h' r.data (by rw [← e]; exact r.data)

/-- **C100** (no leak). When all vectors are gone, so is all their memory. -/
theorem C100_no_leak (grow : ℕ → ℕ) (ops : List BufOp) (s : Buffers) (hs : Buffers.run grow {} ops = some s) (he : ∀ k, (s.vecs k).items = []) :
    Heap.live s.heap = ∅ := by
  rw [(C100_owns grow ops s hs).1, Set.eq_empty_iff_forall_notMem]
  rintro a ⟨t, o, h, _⟩
  simp [Buffers.at?, he] at h

theorem replicate_build (k np ch : ℕ) : ∀ (n : ℕ) (vs : Values),
    Values.run vs (List.replicate n (.build k np ch fun _ _ => 0)) = some (Function.update vs k (vs k ++ List.replicate n (filled np ch fun _ _ => 0))) := by
  intro n
  induction n with
  | zero => intro vs; simp [Values.run]
  | succ n ih =>
    intro vs
    rw [List.replicate_succ, Values.run, Values.step, Option.bind_some, ih]
    simp [List.replicate_succ]

/-- **C100** (the delay line). The loop of FrequencyDelayLine's constructor, under any growth policy: `n` buffers, each in memory of its own, which hold what the
model's delay line (`FDL.mk0`, used by all other properties) says. -/
theorem C100_delay_line (grow : ℕ → ℕ) (k n np ch : ℕ) :
    ∃ s, Buffers.run grow {} (List.replicate n (.build k np ch fun _ _ => 0)) = some s ∧ (s.vecs k).items.length = n ∧
      ∀ i < n, ∃ o, s.at? ⟨k, i⟩ = some o ∧ SeenAs s.heap o ((FDL.mk0 ch n np).line i) := by
  obtain ⟨s, e, hl, h⟩ := C100_values grow _ _ (replicate_build k np ch n fun _ => [])
  refine ⟨s, e, by rw [hl]; simp, fun i hi => ?_⟩
  obtain ⟨o, ho, so⟩ := h ⟨k, i⟩ (filled np ch fun _ _ => 0) (by simp [Values.at?, hi])
  refine ⟨o, ho, ?_⟩
  have hz : ∀ j < np * ch, ((FDL.mk0 ch n np).line i).data j = 0 := by
    intro j hj
    show (if j < np * ch then _ else _) = _
    rw [if_pos hj]
    simp [CBuf.floats, Buf.clear, CBuf.mk0, CBuf.get, Complex.ext_iff]
  refine ⟨so.shape, fun c hc => ?_, fun j hj => ?_⟩
  · obtain ⟨p, hp, hload⟩ := so.pointers c hc
    refine ⟨p, hp, fun j hj => ?_⟩
    rw [hload j hj]
    have hlt : c * np + j < np * ch := by
      have := chan_bound (np := np) hc
      have h1 : c * np + np ≤ np * ch := this
      have h2 : j < np := hj
      omega
    show some 0 = some (((FDL.mk0 ch n np).line i).data (c * np + j))
    rw [hz _ hlt]
  · rw [so.vector j hj]
    show some 0 = some (((FDL.mk0 ch n np).line i).data j)
    rw [hz j hj]

/-- **C100** (why nothing may be copied). The implicit copy constructor leaves the copy's pointers in the original's memory: what is written through the copy changes the
original and not the copy, and once the original is destroyed, writing through the copy is undefined. No operation of the code copies a buffer; if one did, all of
the above would be false. -/
theorem C100_copies_alias (h : Heap) (np ch c : ℕ) (hc : c < ch) (hnp : 0 < np) (d : ℕ → ℂ) :
    ∃ o h1 o' h2 h3 h4, CObj.construct h np ch = (o, h1) ∧ CObj.copy h1 o = some (o', h2) ∧ o'.write h2 c d = some h3 ∧
      o.element h3 (c * np) = some (d 0) ∧ o'.element h3 (c * np) = some 0 ∧
      o.destroy h3 = some h4 ∧ o'.write h4 c d = none := by
  have hlt : c * np < np * ch := by have := chan_bound (np := np) hc; omega
  have hle : c * np + np ≤ np * ch := chan_bound hc
  have n1 : h.next + 1 ≠ h.next := by omega
  have n2 : h.next ≠ h.next + 1 := by omega
  let ptrs : List Ptr := (List.range ch).map fun c => ⟨h.next, c * np⟩
  let f : ℕ → ℂ := fun i => if c * np ≤ i ∧ i < c * np + np then d (i - c * np) else 0
  let c1 := Function.update h.cell h.next (some (np * ch, fun _ => (0 : ℂ)))
  let c2 := Function.update c1 (h.next + 1) (some (np * ch, fun _ => (0 : ℂ)))
  let c3 := Function.update c2 h.next (some (np * ch, f))
  let c4 := Function.update c3 h.next none
  have e1 : c1 h.next = some (np * ch, fun _ => (0 : ℂ)) := Function.update_self ..
  have e2 : c2 h.next = some (np * ch, fun _ => (0 : ℂ)) := (Function.update_of_ne n2 ..).trans e1
  have e2' : c2 (h.next + 1) = some (np * ch, fun _ => (0 : ℂ)) := Function.update_self ..
  have e3 : c3 h.next = some (np * ch, f) := Function.update_self ..
  have e3' : c3 (h.next + 1) = some (np * ch, fun _ => (0 : ℂ)) := (Function.update_of_ne n1 ..).trans e2'
  have e4 : c4 h.next = none := Function.update_self ..
  have hp : ptrs[c]? = some ⟨h.next, c * np⟩ := by simp [ptrs, hc]
  refine ⟨⟨ch, np, some h.next, np * ch, ptrs⟩, ⟨c1, h.next + 1⟩, ⟨ch, np, some (h.next + 1), np * ch, ptrs⟩, ⟨c2, h.next + 1 + 1⟩, ⟨c3, h.next + 1 + 1⟩, ⟨c4, h.next + 1 + 1⟩,
    rfl, ?_, ?_, ?_, ?_, ?_, ?_⟩
  · simp only [CObj.copy, Heap.alloc, e1, Option.map_some]
    rfl
  · simp only [CObj.write, if_pos hc, hp, Option.bind_some, Heap.storeAt, e2, if_pos hle]
    rfl
  · simp only [CObj.element, Option.bind_some, Heap.load, e3, Nat.zero_add, if_pos hlt, f]
    rw [if_pos ⟨le_rfl, by omega⟩, Nat.sub_self]
  · simp only [CObj.element, Option.bind_some, Heap.load, e3', Nat.zero_add, if_pos hlt]
  · simp only [CObj.destroy, Heap.free, e3, Option.map_some]
    rfl
  · simp only [CObj.write, if_pos hc, hp, Option.bind_some, Heap.storeAt, e4, Option.bind_none]

/-- `C100_values` and `C100_owns` on a program: a vector of three buffers, an accumulator in another vector, a product of two of the buffers added to it, a
channel overwritten, and the first vector destroyed. The accumulator keeps the product. -/
example (grow : ℕ → ℕ) : ∃ s, Buffers.run grow {} [.build 0 2 1 (fun _ _ => 3), .build 1 2 1 (fun _ _ => 1), .build 0 2 1 (fun _ _ => 5), .mac ⟨1, 0⟩ ⟨0, 0⟩ ⟨0, 1⟩,
      .build 0 2 1 (fun _ _ => 7), .write ⟨0, 0⟩ 0 (fun _ => 11), .drop 0] = some s ∧
    ∃ o a, s.at? ⟨1, 0⟩ = some o ∧ o.element s.heap 1 = some 16 ∧ o.data = some a ∧ a ∈ Heap.live s.heap := by
  have hr : ∃ vs : Values, Values.run (fun _ => []) [.build 0 2 1 (fun _ _ => 3), .build 1 2 1 (fun _ _ => 1), .build 0 2 1 (fun _ _ => 5), .mac ⟨1, 0⟩ ⟨0, 0⟩ ⟨0, 1⟩,
      .build 0 2 1 (fun _ _ => 7), .write ⟨0, 0⟩ 0 (fun _ => 11), .drop 0] = some vs ∧ ∃ v, vs.at? ⟨1, 0⟩ = some v ∧ v.np = 2 ∧ v.ch = 1 ∧ v.data 1 = 16 := by
    refine ⟨_, by simp [Values.run, Values.step, Values.at?, Values.put, filled, CBuf.mulAccFrom]; rfl, _, by simp [Values.at?]; rfl, rfl, rfl, ?_⟩
    simp [CBuf.size]
    norm_num
  obtain ⟨vs, e, v, hv, h1, h2, h3⟩ := hr
  obtain ⟨s, es, _, h⟩ := C100_values grow _ _ e
  obtain ⟨o, ho, so⟩ := h ⟨1, 0⟩ v hv
  obtain ⟨hl, hd, _⟩ := C100_owns grow _ s es
  obtain ⟨a, ha⟩ := hd _ _ ho
  refine ⟨s, es, o, a, ho, ?_, ha, ?_⟩
  · rw [so.vector 1 (by rw [CBuf.size, h1, h2]; norm_num), h3]
  · rw [hl]; exact ⟨_, o, ho, ha⟩

end Zones.Props
