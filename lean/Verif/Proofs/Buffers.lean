import Verif.Model.Buffers

/-! # Closed forms of the buffer operations -/

open Zones.Model

namespace Zones.Proofs

set_option allowUnsafeReducibility true
attribute [local reducible] Buf.sub Buf.put Buf.copyFrom Buf.add Buf.clear View.read View.sub
  View.copyFrom View.add View.clear Ring.block CBuf.get CBuf.floats CBuf.ofFloats SplitBlock.total

theorem some_bind' {α β : Type} (a : α) (f : α → Option β) : (some a >>= f) = f a := rfl

/-- slot `j` places after position `nx` in a ring of `n` slots -/
def slot (n nx j : ℕ) : ℕ := if nx + j < n then nx + j else nx + j - n

theorem slot_eq_mod {n nx j : ℕ} (hnx : nx < n) (hj : j < n) : (nx + j) % n = slot n nx j := by
  unfold slot
  split
  · next h => exact Nat.mod_eq_of_lt h
  · next h =>
    rw [Nat.mod_eq_sub_mod (by omega), Nat.mod_eq_of_lt (by omega)]

theorem slot_lt {n nx j : ℕ} (hnx : nx < n) (hj : j < n) : slot n nx j < n := by
  unfold slot; split <;> omega

theorem slot_inj {n nx i j : ℕ} (hnx : nx < n) (hi : i < n) (hj : j < n)
    (h : slot n nx i = slot n nx j) : i = j := by
  unfold slot at h; split at h <;> split at h <;> omega

theorem slot_surj {n nx i : ℕ} (hnx : nx < n) (hi : i < n) : ∃ j < n, slot n nx j = i := by
  rcases Nat.lt_or_ge i nx with h | h
  · exact ⟨i + n - nx, by omega, by unfold slot; split <;> omega⟩
  · exact ⟨i - nx, by omega, by unfold slot; split <;> omega⟩

/-- the split block of the `k` samples from position `nx` on -/
abbrev splitSub (n nx ch k : ℕ) : SplitBlock :=
  ⟨⟨nx, min k (n - nx), ch⟩, if n - nx < k then ⟨0, k - (n - nx), ch⟩ else View.empty⟩

theorem getNext_eq {r : Ring} (hn : 0 < r.buf.n) (delay : ℕ) (adv : Bool) :
    r.getNext delay adv = some (splitSub r.buf.n ((r.head + delay) % r.buf.n) r.buf.ch r.buf.n,
      if adv then { r with head := (r.head + delay) % r.buf.n } else r) := by
  have hlt : (r.head + delay) % r.buf.n < r.buf.n := Nat.mod_lt _ hn
  unfold Ring.getNext
  simp only [Ring.block, View.sub, zero_add]
  generalize (r.head + delay) % r.buf.n = nx at *
  have h1 : ¬ r.buf.n = 0 := by omega
  have h2 : 0 < r.buf.n - nx := by omega
  have h3 : nx < r.buf.n ∧ nx + (r.buf.n - nx) ≤ r.buf.n := by omega
  have h4 : r.buf.n - (r.buf.n - nx) = nx := by omega
  have h5 : min r.buf.n (r.buf.n - nx) = r.buf.n - nx := by omega
  simp only [h1, h2, h3, h4, h5, if_true, if_false, gt_iff_lt, some_bind']
  by_cases h : nx = 0
  · subst h; simp
  · have h6 : 0 < nx := by omega
    have h7 : 0 < r.buf.n ∧ nx ≤ r.buf.n := by omega
    have h8 : r.buf.n - nx < r.buf.n := by omega
    simp only [h6, h7, h8, and_self, if_true, some_bind', Option.pure_def, splitSub, h5, h4]

theorem getNextAdvance_eq {r : Ring} (hn : 0 < r.buf.n) (adv : ℕ) :
    ∃ sb, r.getNextAdvance adv = some (sb, { r with head := (r.head + adv) % r.buf.n }) ∧
      sb.first = (splitSub r.buf.n ((r.head + adv) % r.buf.n) r.buf.ch r.buf.n).first ∧
      sb.wrapped.off = 0 ∧ sb.wrapped.len = (r.head + adv) % r.buf.n := by
  have hlt : (r.head + adv) % r.buf.n < r.buf.n := Nat.mod_lt _ hn
  unfold Ring.getNextAdvance
  simp only [Ring.block, View.sub, zero_add]
  generalize (r.head + adv) % r.buf.n = nx at *
  rw [if_neg (by omega), if_pos (by omega), if_pos (by omega)]
  refine ⟨_, rfl, ?_, rfl, ?_⟩
  · simp only [splitSub]; rw [min_eq_right (by omega)]
  · simp only; omega

theorem getSubBlock_eq {n nx ch k : ℕ} (hnx : nx < n) (hk : 0 < k) (hkn : k ≤ n) :
    (splitSub n nx ch n).getSubBlock k = some (splitSub n nx ch k) := by
  unfold SplitBlock.getSubBlock SplitBlock.total splitSub
  simp only
  by_cases h0 : nx = 0
  · subst h0
    have e1 : ¬ n < n := by omega
    have e2 : min k n = k := by omega
    have e4 : ¬ n < k := by omega
    have e5 : 0 < n := hnx
    simp [e2, e4, e5, View.sub, hk, hkn]
  · have e1 : min n (n - nx) = n - nx := by omega
    have e3 : n - (n - nx) = nx := by omega
    have e4 : n - nx < n := by omega
    have e5 : k ≤ n - nx + nx := by omega
    have e2 : 0 < min k (n - nx) := by omega
    have e6 : 0 < n - nx ∧ min k (n - nx) ≤ n - nx := by omega
    simp only [e1, e3, e4, e5, e2, e6, if_true, View.sub, gt_iff_lt, zero_add, and_self, some_bind',
      add_zero]
    by_cases h1 : n - nx < k
    · have h2 : 0 < k - min k (n - nx) := by omega
      have h3 : k - min k (n - nx) = k - (n - nx) := by omega
      have h4 : 0 < nx ∧ k - (n - nx) ≤ nx := by omega
      have h5 : 0 < k - (n - nx) := by omega
      simp only [h3, h4, h5, h1, if_true, and_self, some_bind', Option.pure_def]
    · have h2 : ¬ 0 < k - min k (n - nx) := by omega
      simp only [h2, h1, if_false, some_bind', Option.pure_def]

/-- writing through a split block -/
theorem split_copyFrom {n nx ch k : ℕ} (hnx : nx < n) (hk : 0 < k) (hkn : k ≤ n) {r block : Buf}
    (hrn : r.n = n) (hrc : r.ch = ch) (hb : block.n ≤ k) :
    ∃ r', (splitSub n nx ch k).copyFrom r block = some r' ∧ r'.n = n ∧ r'.ch = ch ∧
      ∀ c, ∀ j < n, r'.data c (slot n nx j) =
        if c < min ch block.ch ∧ j < block.n then block.data c j else r.data c (slot n nx j) := by
  unfold SplitBlock.copyFrom
  simp only [splitSub]
  have e1 : min block.n (min k (n - nx)) = min block.n (n - nx) := by omega
  rw [e1]
  rcases Nat.eq_zero_or_pos block.n with h0 | h0
  · rw [if_neg (by omega)]
    simp only [Option.pure_def, Option.bind_eq_bind, Option.bind_some]
    rw [if_neg (by omega)]
    refine ⟨r, rfl, hrn, hrc, fun c j hj => ?_⟩
    rw [if_neg (by omega)]
  · rw [if_pos (by omega)]
    simp only [Buf.sub]
    rw [if_pos (by omega)]
    by_cases h1 : block.n ≤ n - nx
    · have e2 : min block.n (n - nx) = block.n := by omega
      have e5 : ¬ (block.n - block.n > 0) := by omega
      simp only [e2, e5, if_false, some_bind', Option.pure_def, Option.bind_eq_bind, Option.bind_some,
        Option.map_some]
      refine ⟨_, rfl, hrn, hrc, fun c j hj => ?_⟩
      simp only [View.copyFrom, zero_add]
      have e3 : min (min k (n - nx)) block.n = block.n := by omega
      rw [e3]
      by_cases hc : c < min ch block.ch
      · by_cases hjb : j < block.n
        · have : slot n nx j = nx + j := by unfold slot; rw [if_pos (by omega)]
          rw [this, if_pos (by omega), if_pos ⟨hc, hjb⟩]
          congr 1; omega
        · rw [if_neg, if_neg (by omega)]
          unfold slot; split <;> omega
      · rw [if_neg (by tauto), if_neg (by tauto)]
    · have e2 : min block.n (n - nx) = n - nx := by omega
      have e5 : block.n - (n - nx) > 0 := by omega
      have e6 : n - nx < block.n ∧ n - nx + (block.n - (n - nx)) ≤ block.n := by omega
      have e7 : n - nx < k := by omega
      simp only [e2, e5, e6, e7, and_self, if_true, some_bind', Option.pure_def, Option.bind_eq_bind,
        Option.bind_some, Option.map_some]
      refine ⟨_, rfl, hrn, hrc, fun c j hj => ?_⟩
      simp only [View.copyFrom, zero_add, zero_le, true_and]
      have e3 : min (min k (n - nx)) (n - nx) = n - nx := by omega
      have e4 : min (k - (n - nx)) (block.n - (n - nx)) = block.n - (n - nx) := by omega
      rw [e3, e4]
      by_cases hc : c < min ch block.ch
      · simp only [hc, true_and]
        by_cases hj1 : nx + j < n
        · have : slot n nx j = nx + j := by unfold slot; rw [if_pos hj1]
          rw [this, if_neg (by omega), if_pos (by omega), if_pos (by omega)]
          congr 1; omega
        · have : slot n nx j = nx + j - n := by unfold slot; rw [if_neg hj1]
          rw [this]
          by_cases hjb : j < block.n
          · rw [if_pos (by omega), if_pos hjb]
            congr 1; omega
          · rw [if_neg (by omega), if_neg (by omega), if_neg hjb]
      · simp only [hc, false_and, if_false]

/-- adding through a split block -/
theorem split_addFrom {n nx ch k : ℕ} (hnx : nx < n) (hk : 0 < k) (hkn : k ≤ n) {r block : Buf}
    (hrn : r.n = n) (hrc : r.ch = ch) (hbc : block.ch = ch) (hb : block.n ≤ k) :
    ∃ r', (splitSub n nx ch k).addFrom r block = some r' ∧ r'.n = n ∧ r'.ch = ch ∧
      ∀ c, ∀ j < n, r'.data c (slot n nx j) =
        if c < ch ∧ j < block.n then r.data c (slot n nx j) + block.data c j
        else r.data c (slot n nx j) := by
  unfold SplitBlock.addFrom
  simp only [splitSub]
  have e1 : min block.n (min k (n - nx)) = min block.n (n - nx) := by omega
  rw [e1]
  rcases Nat.eq_zero_or_pos block.n with h0 | h0
  · rw [if_neg (by omega)]
    simp only [Option.pure_def, Option.bind_eq_bind, Option.bind_some]
    rw [if_neg (by omega)]
    refine ⟨r, rfl, hrn, hrc, fun c j hj => ?_⟩
    rw [if_neg (by omega)]
  · rw [if_pos (by omega)]
    simp only [Buf.sub]
    rw [if_pos (by omega)]
    by_cases h1 : block.n ≤ n - nx
    · have e2 : min block.n (n - nx) = block.n := by omega
      have e5 : ¬ (block.n - block.n > 0) := by omega
      simp only [e2, e5, if_false, some_bind', Option.pure_def, Option.bind_eq_bind, Option.bind_some, View.add,
        hbc, if_true]
      refine ⟨_, rfl, hrn, hrc, fun c j hj => ?_⟩
      simp only [zero_add]
      have e3 : min (min k (n - nx)) block.n = block.n := by omega
      rw [e3]
      by_cases hc : c < ch
      · by_cases hjb : j < block.n
        · have : slot n nx j = nx + j := by unfold slot; rw [if_pos (by omega)]
          rw [this, if_pos (by omega), if_pos ⟨hc, hjb⟩]
          congr 2; omega
        · rw [if_neg, if_neg (by omega)]
          unfold slot; split <;> omega
      · rw [if_neg (by tauto), if_neg (by tauto)]
    · have e2 : min block.n (n - nx) = n - nx := by omega
      have e5 : block.n - (n - nx) > 0 := by omega
      have e6 : n - nx < block.n ∧ n - nx + (block.n - (n - nx)) ≤ block.n := by omega
      have e7 : n - nx < k := by omega
      simp only [e2, e5, e6, e7, and_self, if_true, some_bind', Option.pure_def, Option.bind_eq_bind,
        Option.bind_some, View.add, hbc]
      refine ⟨_, rfl, hrn, hrc, fun c j hj => ?_⟩
      simp only [zero_add, zero_le, true_and]
      have e3 : min (min k (n - nx)) (n - nx) = n - nx := by omega
      have e4 : min (k - (n - nx)) (block.n - (n - nx)) = block.n - (n - nx) := by omega
      rw [e3, e4]
      by_cases hc : c < ch
      · simp only [hc, true_and]
        by_cases hj1 : nx + j < n
        · have : slot n nx j = nx + j := by unfold slot; rw [if_pos hj1]
          rw [this, if_neg (by omega), if_pos (by omega), if_pos (by omega)]
          congr 2; omega
        · have : slot n nx j = nx + j - n := by unfold slot; rw [if_neg hj1]
          rw [this]
          by_cases hjb : j < block.n
          · rw [if_pos (by omega), if_neg (by omega), if_pos hjb]
            congr 2; omega
          · rw [if_neg (by omega), if_neg (by omega), if_neg hjb]
      · simp only [hc, false_and, if_false]

/-- reading a whole ring into a block at least as large -/
theorem split_copyTo {n nx ch : ℕ} (hnx : nx < n) {r block : Buf}
    (hb : n ≤ block.n) :
    ∃ b', (splitSub n nx ch n).copyTo r block = some b' ∧ b'.n = block.n ∧ b'.ch = block.ch ∧
      ∀ c j, b'.data c j =
        if c < min block.ch ch ∧ j < n then r.data c (slot n nx j) else block.data c j := by
  unfold SplitBlock.copyTo
  simp only [splitSub]
  have e1 : min n (n - nx) = n - nx := by omega
  rw [e1]
  by_cases h0 : nx = 0
  · subst h0
    rw [if_neg (by omega : ¬ n - 0 < n)]
    rw [if_neg (by simp [View.empty])]
    refine ⟨_, rfl, rfl, rfl, fun c j => ?_⟩
    simp only [Buf.copyFrom, View.read, Nat.sub_zero, zero_add]
    have e2 : min block.n n = n := by omega
    rw [e2]
    split
    · next h => simp only [slot, zero_add, h.2, if_true]
    · rfl
  · rw [if_pos (by omega : n - nx < n)]
    have f1 : block.n > n - nx ∧ n - (n - nx) > 0 := by omega
    have f2 : n - nx < block.n ∧ n - nx + (block.n - (n - nx)) ≤ block.n := by omega
    simp only [Buf.sub, Buf.copyFrom, f1, f2, and_self, if_true, Option.map_some]
    refine ⟨_, rfl, rfl, rfl, fun c j => ?_⟩
    simp only [Buf.copyFrom, View.read, Buf.put, zero_add]
    have e2 : min block.n (n - nx) = n - nx := by omega
    have e3 : min (block.n - (n - nx)) (n - (n - nx)) = nx := by omega
    rw [e2, e3]
    by_cases hc : c < min block.ch ch
    · have hc' : c < block.ch := by omega
      simp only [hc, hc', true_and]
      by_cases hj : j < n
      · rw [if_pos hj]
        by_cases hj1 : nx + j < n
        · have : slot n nx j = nx + j := by unfold slot; rw [if_pos hj1]
          rw [this, if_neg (by omega), if_pos (by omega)]
        · have : slot n nx j = nx + j - n := by unfold slot; rw [if_neg hj1]
          rw [this, if_pos (by omega), if_pos (by omega)]
          congr 1; omega
      · rw [if_neg hj]
        rw [if_neg (by omega : ¬ j - (n - nx) < nx), if_neg (by omega : ¬ j < n - nx),
          if_neg (by omega : ¬ n - nx + (j - (n - nx)) < n - nx)]
        split
        · congr 1; omega
        · rfl
    · simp only [hc, false_and, if_false]
      split
      · congr 1; omega
      · rfl

/-- adding a sub block of the ring to a block of the same length -/
theorem split_addTo {n nx ch k : ℕ} (hnx : nx < n) (hk : 0 < k) (hkn : k ≤ n) {r block : Buf}
    (hb : block.n = k) (hbc : block.ch = ch) :
    ∃ b', (splitSub n nx ch k).addTo r block = some b' ∧ b'.n = k ∧ b'.ch = ch ∧
      ∀ c, ∀ j < k, b'.data c j =
        if c < ch then block.data c j + r.data c (slot n nx j) else block.data c j := by
  unfold SplitBlock.addTo
  simp only [splitSub, Buf.add, View.read, hbc, if_true, some_bind', hb]
  by_cases h1 : n - nx < k
  · have e3 : min k (n - nx) = n - nx := by omega
    have f1 : k > n - nx ∧ k - (n - nx) > 0 := by omega
    have f2 : n - nx < k ∧ n - nx + (k - (n - nx)) ≤ k := by omega
    simp only [e3, f1, f2, h1, and_self, if_true, Option.bind_some, Option.map_some, Buf.sub]
    refine ⟨_, rfl, rfl, rfl, fun c j hj => ?_⟩
    simp only [Buf.put, zero_add]
    rw [min_self]
    by_cases hc : c < ch
    · simp only [hc, true_and, if_true]
      by_cases hj1 : nx + j < n
      · have : slot n nx j = nx + j := by unfold slot; rw [if_pos hj1]
        rw [this, if_neg (by omega), if_pos (by omega)]
      · have : slot n nx j = nx + j - n := by unfold slot; rw [if_neg hj1]
        rw [this, if_pos (by omega), if_pos (by omega), if_neg (by omega)]
        congr 2 <;> omega
    · simp only [hc, false_and, if_false]
  · rw [if_neg h1]
    rw [if_neg (by simp [View.empty])]
    refine ⟨_, rfl, rfl, rfl, fun c j hj => ?_⟩
    simp only
    have e1 : min k (min k (n - nx)) = k := by omega
    have : slot n nx j = nx + j := by unfold slot; rw [if_pos (by omega)]
    rw [e1, this]
    by_cases hc : c < ch
    · rw [if_pos ⟨hc, hj⟩, if_pos hc]
    · rw [if_neg (by tauto), if_neg hc]

/-- clearing a sub block of the ring -/
theorem split_clear {n nx ch k : ℕ} (hnx : nx < n) (hk : 0 < k) (hkn : k ≤ n) {r : Buf}
    (hrn : r.n = n) (hrc : r.ch = ch) :
    ((splitSub n nx ch k).clear r).n = n ∧ ((splitSub n nx ch k).clear r).ch = ch ∧
      ∀ c, ∀ j < n, ((splitSub n nx ch k).clear r).data c (slot n nx j) =
        if c < ch ∧ j < k then 0 else r.data c (slot n nx j) := by
  unfold SplitBlock.clear
  have f0 : min k (n - nx) > 0 := by omega
  by_cases h1 : n - nx < k
  · have f1 : k - (n - nx) > 0 := by omega
    simp only [h1, f0, f1, if_true]
    refine ⟨hrn, hrc, fun c j hj => ?_⟩
    simp only [View.clear, zero_add, zero_le, true_and]
    have e3 : min k (n - nx) = n - nx := by omega
    rw [e3]
    by_cases hc : c < ch
    · simp only [hc, true_and]
      by_cases hj1 : nx + j < n
      · have : slot n nx j = nx + j := by unfold slot; rw [if_pos hj1]
        rw [this, if_neg (by omega), if_pos (by omega), if_pos (by omega)]
      · have : slot n nx j = nx + j - n := by unfold slot; rw [if_neg hj1]
        rw [this]
        by_cases hjb : j < k
        · rw [if_pos (by omega), if_pos hjb]
        · rw [if_neg (by omega), if_neg (by omega), if_neg hjb]
    · simp only [hc, false_and, if_false]
  · have f1 : ¬ (0 > 0) := by omega
    simp only [h1, f0, f1, if_true, if_false]
    refine ⟨hrn, hrc, fun c j hj => ?_⟩
    have e3 : min k (n - nx) = k := by omega
    rw [e3]
    by_cases hc : c < ch
    · simp only [hc, true_and]
      by_cases hjb : j < k
      · have : slot n nx j = nx + j := by unfold slot; rw [if_pos (by omega)]
        rw [this, if_pos (by omega), if_pos hjb]
      · rw [if_neg, if_neg hjb]
        unfold slot; split <;> omega
    · simp only [hc, false_and, if_false]

/-! ## ComplexBuffer -/

theorem cidx_lt {np ch c p : ℕ} (hc : c < ch) (hp : p < np) : c * np + p < np * ch := by
  have : (c+1) * np ≤ ch * np := Nat.mul_le_mul_right _ hc
  rw [Nat.add_mul] at this
  rw [mul_comm np ch]; omega

theorem cidx_div {np c p : ℕ} (hp : p < np) : (c * np + p) / np = c := by
  apply Nat.div_eq_of_lt_le
  · omega
  · rw [Nat.add_mul]; omega

theorem cidx_mod {np c p : ℕ} (hp : p < np) : (c * np + p) % np = p := by
  rw [add_comm, Nat.add_mul_mod_self_right, Nat.mod_eq_of_lt hp]

theorem get_ofFloats {b : CBuf} {f : Buf} {c p : ℕ} (hc : c < b.ch) (hp : p < b.np) :
    (b.ofFloats f).get c p = ⟨f.data c (2*p), f.data c (2*p+1)⟩ := by
  simp only [CBuf.get, CBuf.ofFloats, CBuf.size]
  rw [if_pos (cidx_lt hc hp), cidx_div hp, cidx_mod hp]

theorem floats_data_even {b : CBuf} {c p : ℕ} : b.floats.data c (2*p) = (b.get c p).re := by
  simp [CBuf.floats]

theorem floats_data_odd {b : CBuf} {c p : ℕ} : b.floats.data c (2*p+1) = (b.get c p).im := by
  have : (2*p+1) % 2 = 1 := by omega
  have h2 : (2*p+1)/2 = p := by omega
  simp [CBuf.floats, this, h2]

theorem get_clear {b : CBuf} {c p : ℕ} (hc : c < b.ch) (hp : p < b.np) : b.clear.get c p = 0 := by
  rw [CBuf.clear, get_ofFloats hc hp]
  simp only [Buf.clear, CBuf.floats]
  rw [if_pos ⟨hc, by omega⟩, if_pos ⟨hc, by omega⟩]
  rfl

@[simp] theorem ofFloats_np (b : CBuf) (f : Buf) : (b.ofFloats f).np = b.np := rfl
@[simp] theorem ofFloats_ch (b : CBuf) (f : Buf) : (b.ofFloats f).ch = b.ch := rfl
@[simp] theorem clear_np (b : CBuf) : b.clear.np = b.np := rfl
@[simp] theorem clear_ch (b : CBuf) : b.clear.ch = b.ch := rfl
@[simp] theorem setChannel_np (b : CBuf) (c : ℕ) (d : ℕ → ℂ) : (b.setChannel c d).np = b.np := rfl
@[simp] theorem setChannel_ch (b : CBuf) (c : ℕ) (d : ℕ → ℂ) : (b.setChannel c d).ch = b.ch := rfl

theorem get_setChannel_same {b : CBuf} {c p : ℕ} {d : ℕ → ℂ} (hp : p < b.np) :
    (b.setChannel c d).get c p = d p := by
  simp only [CBuf.get, CBuf.setChannel]
  rw [if_pos (by omega)]
  congr 1; omega

theorem get_setChannel_ne {b : CBuf} {c c' p : ℕ} {d : ℕ → ℂ} (hp : p < b.np) (hne : c' ≠ c) :
    (b.setChannel c d).get c' p = b.get c' p := by
  simp only [CBuf.get, CBuf.setChannel]
  rw [if_neg]
  rintro ⟨h1, h2⟩
  rcases Nat.lt_or_ge c' c with h | h
  · have := Nat.mul_le_mul_right b.np (show c'+1 ≤ c from h)
    rw [Nat.add_mul] at this; omega
  · have := Nat.mul_le_mul_right b.np (show c+1 ≤ c' by omega)
    rw [Nat.add_mul] at this; omega

theorem mulFrom_eq {b x y : CBuf} (h1 : b.ch = x.ch) (h2 : x.ch = y.ch) (h3 : b.np = x.np)
    (h4 : x.np = y.np) : ∃ r, b.mulFrom x y = some r ∧ r.np = b.np ∧ r.ch = b.ch ∧
      ∀ c < b.ch, ∀ p < b.np, r.get c p = x.get c p * y.get c p := by
  unfold CBuf.mulFrom
  rw [if_pos ⟨⟨h1, h2⟩, h3, h4⟩]
  refine ⟨_, rfl, rfl, rfl, fun c hc p hp => ?_⟩
  simp only [CBuf.get, CBuf.size]
  rw [if_pos (cidx_lt hc hp), ← h4, ← h3]

theorem addFrom_eq {b x : CBuf} (h1 : b.ch = x.ch) (h3 : b.np = x.np) :
    ∃ r, b.addFrom x = some r ∧ r.np = b.np ∧ r.ch = b.ch ∧
      ∀ c < b.ch, ∀ p < b.np, r.get c p = b.get c p + x.get c p := by
  unfold CBuf.addFrom
  rw [if_pos ⟨h1, h3⟩]
  refine ⟨_, rfl, rfl, rfl, fun c hc p hp => ?_⟩
  simp only [CBuf.get, CBuf.size]
  rw [if_pos (cidx_lt hc hp), ← h3]

theorem mulAccFrom_eq {b x y : CBuf} (h1 : b.ch = x.ch) (h2 : x.ch = y.ch) (h3 : b.np = x.np)
    (h4 : x.np = y.np) : ∃ r, b.mulAccFrom x y = some r ∧ r.np = b.np ∧ r.ch = b.ch ∧
      ∀ c < b.ch, ∀ p < b.np, r.get c p = b.get c p + x.get c p * y.get c p := by
  unfold CBuf.mulAccFrom
  rw [if_pos ⟨⟨h1, h2⟩, h3, h4⟩]
  refine ⟨_, rfl, rfl, rfl, fun c hc p hp => ?_⟩
  simp only [CBuf.get, CBuf.size]
  rw [if_pos (cidx_lt hc hp), ← h4, ← h3]

theorem copyFromAudioBlock_eq {b : CBuf} {s : Buf} (h1 : b.ch = s.ch) :
    ∃ r, b.copyFromAudioBlock s = some r ∧ r.np = b.np ∧ r.ch = b.ch ∧
      ∀ c < b.ch, ∀ p < b.np, r.get c p = if p < s.n then ((s.data c p : ℝ) : ℂ) else b.get c p := by
  unfold CBuf.copyFromAudioBlock
  rw [if_pos h1]
  refine ⟨_, rfl, rfl, rfl, fun c hc p hp => ?_⟩
  simp only [CBuf.get, CBuf.size]
  rw [cidx_div hp, cidx_mod hp]
  by_cases hs : p < s.n
  · rw [if_pos ⟨cidx_lt hc hp, by omega⟩, if_pos hs]
  · rw [if_neg (by rintro ⟨_, h⟩; omega), if_neg hs]

/-! ## FrequencyDelayLine -/

theorem reverseWrap_pred {h n : ℕ} (hn : 0 < n) (hh : h < n) :
    FDL.reverseWrap ((h:ℤ) - 1) n = some ((h + n - 1) % n) := by
  unfold FDL.reverseWrap
  rw [if_neg (by omega)]
  congr 1
  rcases Nat.eq_zero_or_pos h with h0 | h0
  · subst h0
    rcases Nat.eq_or_lt_of_le (show 1 ≤ n from hn) with h1 | h1
    · subst h1; decide
    · have e1 : ((0:ℕ):ℤ) - 1 = -((1:ℕ):ℤ) := by norm_num
      have e2 : (-((1:ℕ):ℤ)).tmod (n:ℤ) = -1 := by
        rw [Int.neg_tmod]
        have : ((1:ℕ):ℤ).tmod (n:ℤ) = 1 := by
          rw [← Int.ofNat_tmod, Nat.mod_eq_of_lt h1]; rfl
        rw [this]
      rw [e1, e2]
      have e3 : (n:ℤ) + -1 = ((n-1 : ℕ):ℤ) := by omega
      rw [e3, ← Int.ofNat_tmod, Int.toNat_natCast, zero_add]
  · have e1 : ((h:ℤ) - 1) = ((h-1:ℕ):ℤ) := by omega
    rw [e1, ← Int.ofNat_tmod, Nat.mod_eq_of_lt (by omega)]
    rw [show (n:ℤ) + ((h-1:ℕ):ℤ) = ((n + (h-1) : ℕ):ℤ) by push_cast; ring, ← Int.ofNat_tmod,
      Int.toNat_natCast]
    congr 1; omega

theorem fdl_getNext {f : FDL} (hn : 0 < f.numBlocks) (hh : f.head < f.numBlocks) :
    f.getNext = some { f with head := (f.head + f.numBlocks - 1) % f.numBlocks } := by
  unfold FDL.getNext
  rw [reverseWrap_pred hn hh]; rfl

/-- after `GetNextBlock`, offset `i+1` is what was at offset `i` -/
theorem fdl_idx_shift {n h i : ℕ} (hn : 0 < n) :
    ((h + n - 1) % n + (i + 1)) % n = (h + i) % n := by
  rw [Nat.mod_add_mod, show h + n - 1 + (i + 1) = h + i + n by omega, Nat.add_mod_right]

theorem fdl_idx_inj {n h i j : ℕ} (hh : h < n) (hi : i < n) (hj : j < n)
    (h : (h + i) % n = (h + j) % n) : i = j := by
  rw [slot_eq_mod hh hi, slot_eq_mod hh hj] at h
  exact slot_inj hh hi hj h

end Zones.Proofs
