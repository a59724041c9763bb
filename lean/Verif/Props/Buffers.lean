import Verif.Proofs.Buffers
import Verif.Proofs.TDUPCSteps

/-!
# Properties of the buffers: C23 (circular buffer, split block), C24 (frequency delay line), C25 (stage buffers),
C48 (complex buffer)
-/

open Zones.Spec Zones.Model Zones.Proofs

namespace Zones.Props

/-! ## Circular buffer -/

/-- The contiguous delay line that a circular buffer stands for: sample `d` of channel `c` counted from the head. -/
def delayLine (r : Ring) (c d : ℕ) : ℝ := r.buf.data c ((r.head + d) % r.buf.n)

theorem delayLine_slot {n head d j : ℕ} (hn : 0 < n) (hj : j < n) :
    slot n ((head + d) % n) j = (head + (d + j)) % n := by
  rw [← slot_eq_mod (Nat.mod_lt _ hn) hj, Nat.mod_add_mod, add_assoc]

/-- **C23** (copy). Copying a block of at most the buffer's length at delay `d` changes exactly the samples
`d .. d + length - 1` of the delay line, to the block's samples; getting the split block without advancing
changes nothing. For every head position, also where the block wraps around. -/
theorem C23_copy_at_delay {r : Ring} (hn : 0 < r.buf.n) (d : ℕ) {block : Buf} (hb : block.n ≤ r.buf.n) :
    ∃ w buf', r.getNext d false = some (w, r) ∧ w.copyFrom r.buf block = some buf' ∧ buf'.n = r.buf.n ∧ buf'.ch = r.buf.ch ∧
      ∀ c, ∀ j < r.buf.n, delayLine ⟨r.head, buf'⟩ c (d + j) =
        if c < min r.buf.ch block.ch ∧ j < block.n then block.data c j else delayLine r c (d + j) := by
  obtain ⟨buf', e, n', c', g⟩ := split_copyFrom (Nat.mod_lt (r.head + d) hn) hn le_rfl (r := r.buf) (block := block) rfl rfl hb
  refine ⟨_, buf', getNext_eq hn d false, e, n', c', fun c j hj => ?_⟩
  have := g c j hj
  rw [delayLine_slot hn hj] at this
  unfold delayLine
  simp only [n']
  exact this

/-- **C23** (add). The same for adding. -/
theorem C23_add_at_delay {r : Ring} (hn : 0 < r.buf.n) (d : ℕ) {block : Buf} (hb : block.n ≤ r.buf.n)
    (hch : block.ch = r.buf.ch) :
    ∃ w buf', r.getNext d false = some (w, r) ∧ w.addFrom r.buf block = some buf' ∧ buf'.n = r.buf.n ∧ buf'.ch = r.buf.ch ∧
      ∀ c, ∀ j < r.buf.n, delayLine ⟨r.head, buf'⟩ c (d + j) =
        if c < r.buf.ch ∧ j < block.n then delayLine r c (d + j) + block.data c j else delayLine r c (d + j) := by
  obtain ⟨buf', e, n', c', g⟩ := split_addFrom (Nat.mod_lt (r.head + d) hn) hn le_rfl (r := r.buf) (block := block) rfl rfl hch hb
  refine ⟨_, buf', getNext_eq hn d false, e, n', c', fun c j hj => ?_⟩
  have := g c j hj
  rw [delayLine_slot hn hj] at this
  unfold delayLine
  simp only [n']
  exact this

theorem split_copyTo_short {n nx ch : ℕ} (hnx : nx < n) {r block : Buf} (hb : block.n ≤ n) :
    ∃ b', (splitSub n nx ch n).copyTo r block = some b' ∧ b'.n = block.n ∧ b'.ch = block.ch ∧
      ∀ c, ∀ j < block.n, b'.data c j =
        if c < min block.ch ch then r.data c (slot n nx j) else block.data c j := by
  unfold SplitBlock.copyTo
  simp only [splitSub]
  have e1 : min n (n - nx) = n - nx := by omega
  rw [e1]
  by_cases hw : block.n > n - nx ∧ 0 < nx
  · rw [if_pos (by omega : n - nx < n)]
    have f1 : block.n > n - nx ∧ n - (n - nx) > 0 := by omega
    have f2 : n - nx < block.n ∧ n - nx + (block.n - (n - nx)) ≤ block.n := by omega
    simp only [Buf.sub, Buf.copyFrom, f1, f2, and_self, if_true, Option.map_some]
    refine ⟨_, rfl, rfl, rfl, fun c j hj => ?_⟩
    simp only [Buf.copyFrom, View.read, Buf.put, zero_add]
    show (if c < block.ch ∧ n - nx ≤ j ∧ j < n - nx + (block.n - (n - nx)) then
        if c < min block.ch ch ∧ j - (n - nx) < min (block.n - (n - nx)) (n - (n - nx)) then r.data c (j - (n - nx))
        else
          if c < min block.ch ch ∧ n - nx + (j - (n - nx)) < min block.n (n - nx) then r.data c (nx + (n - nx + (j - (n - nx))))
          else block.data c (n - nx + (j - (n - nx)))
      else if c < min block.ch ch ∧ j < min block.n (n - nx) then r.data c (nx + j) else block.data c j) = _
    have e2 : min block.n (n - nx) = n - nx := by omega
    have e3 : min (block.n - (n - nx)) (n - (n - nx)) = block.n - (n - nx) := by omega
    rw [e2, e3]
    by_cases hc : c < min block.ch ch
    · have hc' : c < block.ch := by omega
      simp only [hc, hc', true_and, if_true]
      by_cases hj1 : nx + j < n
      · have : slot n nx j = nx + j := by unfold slot; rw [if_pos hj1]
        rw [this, if_neg (by omega), if_pos (by omega)]
      · have : slot n nx j = nx + j - n := by unfold slot; rw [if_neg hj1]
        rw [this, if_pos (by omega), if_pos (by omega)]
        congr 1; omega
    · simp only [hc, false_and, if_false]
      split
      · congr 1; omega
      · rfl
  · have hno : ∀ V : View, (V.len = n - (n - nx) ∨ V.len = 0) → ¬ (block.n > n - nx ∧ V.len > 0) := by
      intro V hV; omega
    have : ¬ ((block.copyFrom ((⟨nx, n - nx, ch⟩ : View).read r)).n > n - nx ∧
        (if n - nx < n then (⟨0, n - (n - nx), ch⟩ : View) else View.empty).len > 0) := by
      apply hno
      split
      · left; rfl
      · right; rfl
    rw [if_neg this]
    refine ⟨_, rfl, rfl, rfl, fun c j hj => ?_⟩
    simp only [Buf.copyFrom, View.read]
    have : slot n nx j = nx + j := by unfold slot; rw [if_pos (by omega)]
    rw [this]
    show (if c < min block.ch ch ∧ j < min block.n (n - nx) then r.data c (nx + j) else block.data c j) = _
    by_cases hc : c < min block.ch ch
    · have : c < min block.ch ch ∧ j < min block.n (n - nx) := ⟨hc, by omega⟩
      rw [if_pos this, if_pos hc]
    · rw [if_neg (by tauto), if_neg hc]

/-- **C23** (read). Reading at delay `d` into a block gives the samples `d, d + 1, ...` of the delay line (all of them if
the block is at least as long as the buffer; a longer block keeps its remaining samples). -/
theorem C23_read_at_delay {r : Ring} (hn : 0 < r.buf.n) (d : ℕ) (block : Buf) :
    ∃ w b', r.getNext d false = some (w, r) ∧ w.copyTo r.buf block = some b' ∧ b'.n = block.n ∧ b'.ch = block.ch ∧
      ∀ c < min block.ch r.buf.ch, ∀ j < block.n, b'.data c j =
        if j < r.buf.n then delayLine r c (d + j) else block.data c j := by
  rcases Nat.lt_or_ge block.n r.buf.n with h | h
  · obtain ⟨b', e, n', c', g⟩ := split_copyTo_short (ch := r.buf.ch) (Nat.mod_lt (r.head + d) hn) (r := r.buf) (block := block) h.le
    refine ⟨_, b', getNext_eq hn d false, e, n', c', fun c hc j hj => ?_⟩
    rw [g c j hj, if_pos hc, if_pos (by omega), delayLine_slot hn (by omega)]
    rfl
  · obtain ⟨b', e, n', c', g⟩ := split_copyTo (ch := r.buf.ch) (Nat.mod_lt (r.head + d) hn) (r := r.buf) (block := block) h
    refine ⟨_, b', getNext_eq hn d false, e, n', c', fun c hc j hj => ?_⟩
    rw [g c j]
    by_cases hj' : j < r.buf.n
    · rw [if_pos ⟨hc, hj'⟩, if_pos hj', delayLine_slot hn hj']
      rfl
    · rw [if_neg (by tauto), if_neg hj']

/-- **C23** (advance). Advancing by `a` moves the delay line by `a` samples and changes no data: what was at delay
`a + d` is at delay `d` afterwards. The same holds for the overload that always advances. -/
theorem C23_advance {r : Ring} (hn : 0 < r.buf.n) (a : ℕ) :
    (∃ w r', r.getNext a true = some (w, r') ∧ r'.buf = r.buf ∧ ∀ c d, delayLine r' c d = delayLine r c (a + d)) ∧
    (∃ w r', r.getNextAdvance a = some (w, r') ∧ r'.buf = r.buf ∧ ∀ c d, delayLine r' c d = delayLine r c (a + d)) := by
  have key : ∀ c d, delayLine { r with head := (r.head + a) % r.buf.n } c d = delayLine r c (a + d) := by
    intro c d
    unfold delayLine
    simp only
    rw [Nat.mod_add_mod, add_assoc]
  constructor
  · exact ⟨_, _, getNext_eq hn a true, rfl, key⟩
  · obtain ⟨w, e, _⟩ := getNextAdvance_eq hn a
    exact ⟨w, _, e, rfl, key⟩

/-- **C23** (add to, clear). The sub block of `k` samples at delay `d`, added to a block of `k` samples, adds exactly the
samples `d .. d + k - 1` of the delay line; clearing it makes exactly those zero. -/
theorem C23_sub_block {r : Ring} (hn : 0 < r.buf.n) (d : ℕ) {k : ℕ} (hk : 0 < k) (hkn : k ≤ r.buf.n) {block : Buf}
    (hb : block.n = k) (hch : block.ch = r.buf.ch) :
    ∃ w s b', r.getNext d false = some (w, r) ∧ w.getSubBlock k = some s ∧ s.addTo r.buf block = some b' ∧
      b'.n = k ∧ b'.ch = r.buf.ch ∧
      (∀ c < r.buf.ch, ∀ j < k, b'.data c j = block.data c j + delayLine r c (d + j)) ∧
      ∀ c < r.buf.ch, ∀ j < r.buf.n, delayLine ⟨r.head, s.clear r.buf⟩ c (d + j) =
        if j < k then 0 else delayLine r c (d + j) := by
  obtain ⟨b', e, n', c', g⟩ := split_addTo (ch := r.buf.ch) (Nat.mod_lt (r.head + d) hn) hk hkn (r := r.buf) hb hch
  obtain ⟨n2, c2, g2⟩ := split_clear (ch := r.buf.ch) (Nat.mod_lt (r.head + d) hn) hk hkn (r := r.buf) rfl rfl
  refine ⟨_, _, b', getNext_eq hn d false, getSubBlock_eq (Nat.mod_lt _ hn) hk hkn, e, n', c', fun c hc j hj => ?_,
    fun c hc j hj => ?_⟩
  · rw [g c j hj, if_pos hc, delayLine_slot hn (by omega)]
    rfl
  · have := g2 c j hj
    rw [delayLine_slot hn hj] at this
    unfold delayLine
    simp only [n2]
    rw [this]
    by_cases hjk : j < k
    · rw [if_pos ⟨hc, hjk⟩, if_pos hjk]
    · rw [if_neg (by tauto), if_neg hjk]

/-- A ring of 10 samples with the head at 7: a block of 5 samples at delay 6 occupies positions 3 .. 7, one at delay 1 wraps
around (positions 8, 9, 0, 1, 2). -/
example : ∃ w buf', (⟨7, ⟨2, 10, fun c i => 10 * c + i⟩⟩ : Zones.Model.Ring).getNext 1 false = some (w, ⟨7, ⟨2, 10, fun c i => 10 * c + i⟩⟩) ∧
    w.copyFrom ⟨2, 10, fun c i => 10 * c + i⟩ ⟨2, 5, fun _ j => 100 + j⟩ = some buf' ∧
    buf'.data 1 8 = 100 + (0 : ℕ) ∧ buf'.data 1 0 = 100 + (2 : ℕ) ∧ buf'.data 1 3 = 10 * (1 : ℕ) + (3 : ℕ) := by
  obtain ⟨w, buf', e1, e2, n', _, g⟩ := C23_copy_at_delay (r := ⟨7, ⟨2, 10, fun c i => 10 * c + i⟩⟩) (by norm_num) 1
    (block := ⟨2, 5, fun _ j => 100 + j⟩) (by norm_num)
  have n'' : buf'.n = 10 := n'
  refine ⟨w, buf', e1, e2, ?_, ?_, ?_⟩
  · have := g 1 0 (by norm_num); simpa [delayLine, n''] using this
  · have := g 1 2 (by norm_num); simpa [delayLine, n''] using this
  · have := g 1 5 (by norm_num); simpa [delayLine, n''] using this

/-! ## Frequency delay line -/

/-- Call `GetNextBlock` once per entry and write the entry into the block handed out. -/
def writeBlocks : FDL → List CBuf → Option FDL
  | f, [] => some f
  | f, b :: bs => f.getNext.bind fun f => writeBlocks (f.setOffset 0 b) bs

theorem fdl_write {f : FDL} (hh : f.head < f.numBlocks) (b : CBuf) :
    ∃ g, f.getNext = some g ∧ g.numBlocks = f.numBlocks ∧ g.head < g.numBlocks ∧ (g.setOffset 0 b).head = g.head ∧
      (g.setOffset 0 b).numBlocks = f.numBlocks ∧
      (g.setOffset 0 b).getOffset 0 = some b ∧
      ∀ i, i + 1 < f.numBlocks → (g.setOffset 0 b).getOffset (i+1) = f.getOffset i := by
  have hn : 0 < f.numBlocks := by omega
  have hlt : (f.head + f.numBlocks - 1) % f.numBlocks < f.numBlocks := Nat.mod_lt _ hn
  have hne : ¬ f.numBlocks = 0 := by omega
  refine ⟨_, fdl_getNext hn hh, rfl, hlt, rfl, rfl, ?_, fun i hi => ?_⟩
  · simp only [FDL.getOffset, FDL.setOffset, FDL.idx, hne, if_false, Function.update_self]
  · simp only [FDL.getOffset, FDL.setOffset, FDL.idx, hne, if_false, Option.some.injEq]
    rw [Function.update_of_ne]
    · rw [fdl_idx_shift hn]
    · intro h
      have := fdl_idx_inj hlt hi hn h
      omega

/-- **C24.** After any number of calls of `GetNextBlock`, `GetBlockWithOffset (i)` is the block handed out `i` calls ago
(with what was written into it), for every `i` below the number of blocks; if there were at most `i` calls, it is
the block that was at offset `i -` (number of calls) before. -/
theorem C24_frequency_delay_line : ∀ (bs : List CBuf) {f : FDL}, f.head < f.numBlocks →
    ∃ g, writeBlocks f bs = some g ∧ g.numBlocks = f.numBlocks ∧ g.head < g.numBlocks ∧
      ∀ i < f.numBlocks, g.getOffset i =
        if i < bs.length then bs.reverse[i]? else f.getOffset (i - bs.length)
  | [], f, hh => ⟨f, rfl, rfl, hh, fun i _ => by simp⟩
  | b :: bs, f, hh => by
    obtain ⟨g, e, n1, h1, h2, n2, o0, os⟩ := fdl_write hh b
    obtain ⟨g', e', n', h', o'⟩ := C24_frequency_delay_line bs (f := g.setOffset 0 b) (by rw [h2, n2, ← n1]; exact h1)
    rw [n2] at n' o'
    refine ⟨g', ?_, n', h', fun i hi => ?_⟩
    · unfold writeBlocks; rw [e]; exact e'
    · rw [o' i hi]
      simp only [List.length_cons, List.reverse_cons]
      rcases Nat.lt_trichotomy i bs.length with h | h | h
      · rw [if_pos h, if_pos (by omega), List.getElem?_append_left (by simpa using h)]
      · rw [if_neg (by omega), if_pos (by omega), h, Nat.sub_self, o0,
          List.getElem?_append_right (by simp)]
        simp
      · rw [if_neg (by omega), if_neg (by omega)]
        have : i - bs.length = (i - (bs.length + 1)) + 1 := by omega
        rw [this, os _ (by omega)]

/-- A new delay line of four blocks after six calls. -/
example (b : ℕ → CBuf) : ∃ g, writeBlocks (FDL.mk0 2 4 64) ((List.range 6).map b) = some g ∧ g.getOffset 3 = some (b 2) := by
  obtain ⟨g, e, _, _, h⟩ := C24_frequency_delay_line ((List.range 6).map b) (f := FDL.mk0 2 4 64)
    (by simp [FDL.mk0])
  exact ⟨g, e, by rw [h 3 (by simp [FDL.mk0])]; rfl⟩

/-! ## Stage buffers -/

/-- **C25.** `PromoteStages`, any number of times: after `k` promotions the buffer that was stage `j` is stage `j + k`
(mod 3: A to B to C to A), with its contents. -/
theorem C25_stages_rotate {s : Stages} (hs : s.head < 3) (k : ℕ) {j : ℕ} (hj : j < 3) :
    (Stages.promote^[k] s).get ((j + k) % 3) = s.get j ∧ (Stages.promote^[k] s).head < 3 := by
  induction k with
  | zero => simp [hs, Nat.mod_eq_of_lt hj]
  | succ k ih =>
    rw [Function.iterate_succ_apply']
    refine ⟨?_, stages_promote_head⟩
    rw [← ih.1, ← stages_promote_get ih.2 (Nat.mod_lt (j + k) (by norm_num))]
    congr 1
    omega

/-- **C25** (independence). Writing one stage leaves the other two unchanged. -/
theorem C25_stages_independent {s : Stages} (hs : s.head < 3) {j k : ℕ} (hj : j < 3) (hk : k < 3) (b : CBuf) :
    (s.set j b).get k = if k = j then b else s.get k := by
  split
  · next h => rw [h]; exact stages_get_set_same _ _ _
  · next h => exact stages_get_set_ne hs hj hk h b

/-- Named as in the property: A becomes B, B becomes C, C becomes A. -/
example {s : Stages} (hs : s.head < 3) : s.promote.get 1 = s.get 0 ∧ s.promote.get 2 = s.get 1 ∧ s.promote.get 0 = s.get 2 :=
  ⟨(C25_stages_rotate hs 1 (j := 0) (by norm_num)).1, (C25_stages_rotate hs 1 (j := 1) (by norm_num)).1,
    (C25_stages_rotate hs 1 (j := 2) (by norm_num)).1⟩

example : (Stages.mk0 128).head < 3 := by simp [Stages.mk0]

/-! ## Complex buffer -/

/-- Two buffers have the same shape. -/
def SameSize (a b : CBuf) : Prop := a.ch = b.ch ∧ a.np = b.np

/-- **C48.** Every operation of `ComplexBuffer` keeps the shape and acts on point `p` of channel `c` alone, for all
channels and points; `b.get c p` is the element `GetReadPointer (c)[p]`. -/
theorem C48_pointwise {b x y : CBuf} (hx : SameSize b x) (hy : SameSize b y) :
    (∃ r, b.mulFrom x y = some r ∧ SameSize r b ∧ ∀ c < b.ch, ∀ p < b.np, r.get c p = x.get c p * y.get c p) ∧
    (∃ r, b.addFrom x = some r ∧ SameSize r b ∧ ∀ c < b.ch, ∀ p < b.np, r.get c p = b.get c p + x.get c p) ∧
    (∃ r, b.mulAccFrom x y = some r ∧ SameSize r b ∧
      ∀ c < b.ch, ∀ p < b.np, r.get c p = b.get c p + x.get c p * y.get c p) ∧
    (SameSize b.clear b ∧ ∀ c < b.ch, ∀ p < b.np, b.clear.get c p = 0) ∧
    (∀ s : Buf, s.ch = b.ch → ∃ r, b.copyFromAudioBlock s = some r ∧ SameSize r b ∧
      ∀ c < b.ch, ∀ p < b.np, r.get c p = if p < s.n then ((s.data c p : ℝ) : ℂ) else b.get c p) := by
  refine ⟨?_, ?_, ?_, ⟨⟨rfl, rfl⟩, fun c hc p hp => get_clear hc hp⟩, ?_⟩
  · obtain ⟨r, e, n, c, g⟩ := mulFrom_eq (b := b) hx.1 (hx.1.symm.trans hy.1) hx.2 (hx.2.symm.trans hy.2)
    exact ⟨r, e, ⟨c, n⟩, g⟩
  · obtain ⟨r, e, n, c, g⟩ := addFrom_eq (b := b) hx.1 hx.2
    exact ⟨r, e, ⟨c, n⟩, g⟩
  · obtain ⟨r, e, n, c, g⟩ := mulAccFrom_eq (b := b) hx.1 (hx.1.symm.trans hy.1) hx.2 (hx.2.symm.trans hy.2)
    exact ⟨r, e, ⟨c, n⟩, g⟩
  · intro s hs
    obtain ⟨r, e, n, c, g⟩ := copyFromAudioBlock_eq (b := b) hs.symm
    exact ⟨r, e, ⟨c, n⟩, g⟩

/-- **C48** (shapes). The operations are refused (assertion) exactly when the shapes differ. -/
theorem C48_shape_mismatch {b x y : CBuf} :
    ((b.mulFrom x y).isSome ↔ SameSize b x ∧ SameSize x y) ∧ ((b.addFrom x).isSome ↔ SameSize b x) ∧
    ((b.mulAccFrom x y).isSome ↔ SameSize b x ∧ SameSize x y) ∧
    ∀ s : Buf, ((b.copyFromAudioBlock s).isSome ↔ b.ch = s.ch) := by
  unfold CBuf.mulFrom CBuf.addFrom CBuf.mulAccFrom CBuf.copyFromAudioBlock SameSize
  refine ⟨?_, ?_, ?_, fun s => ?_⟩ <;> split <;> simp_all
  all_goals tauto

/-- **C48** (float view). The float view of a buffer interleaves real and imaginary parts, and writing a view back
stores it without loss: reading it again gives the same floats, and writing the unchanged view changes nothing. -/
theorem C48_float_view (b : CBuf) (f : Buf) :
    (∀ c p, b.floats.data c (2 * p) = (b.get c p).re ∧ b.floats.data c (2 * p + 1) = (b.get c p).im) ∧
    (∀ c < b.ch, ∀ i < 2 * b.np, (b.ofFloats f).floats.data c i = f.data c i) ∧
    (∀ c < b.ch, ∀ p < b.np, (b.ofFloats b.floats).get c p = b.get c p) := by
  refine ⟨fun c p => ⟨floats_data_even, floats_data_odd⟩, fun c hc i hi => ?_, fun c hc p hp => ?_⟩
  · rcases Nat.even_or_odd' i with ⟨p, rfl | rfl⟩
    · rw [floats_data_even, get_ofFloats hc (by omega)]
    · rw [floats_data_odd, get_ofFloats hc (by omega)]
  · rw [get_ofFloats hc hp, floats_data_even, floats_data_odd]

/-- Different points have different places: channel `c`'s points do not overlap those of another channel. -/
theorem C48_no_aliasing {np c c' p p' : ℕ} (hp : p < np) (hp' : p' < np) (h : c * np + p = c' * np + p') : c = c' ∧ p = p' := by
  have h1 := cidx_div (c := c) hp
  have h2 := cidx_div (c := c') hp'
  have h3 := cidx_mod (c := c) hp
  have h4 := cidx_mod (c := c') hp'
  rw [h] at h1 h3
  exact ⟨h1.symm.trans h2, h3.symm.trans h4⟩

/-- **C48** (pointers). `GetReadPointer (c)` and `GetWritePointer (c)` are refused exactly for channels the buffer does not have; what is read at `p` through the former is the point written
there last through the latter, and writing a channel changes nothing in the others. -/
theorem C48_write_channel (b : CBuf) (c : ℕ) (d : ℕ → ℂ) :
    ((b.pointer c).isSome ↔ c < b.ch) ∧ SameSize (b.setChannel c d) b ∧
    ∀ c' < b.ch, ∀ p < b.np, ((b.setChannel c d).pointer c').map (fun f => f p) = some (if c' = c then d p else b.get c' p) := by
  refine ⟨by unfold CBuf.pointer; split <;> simp_all, ⟨rfl, rfl⟩, fun c' hc p hp => ?_⟩
  unfold CBuf.pointer
  rw [if_pos (show c' < (b.setChannel c d).ch from hc), Option.map_some]
  split
  case isTrue h => rw [h, get_setChannel_same hp]
  case isFalse h => rw [get_setChannel_ne hp h]

example : SameSize (CBuf.mk 4 2 fun i => i) (CBuf.mk 4 2 fun _ => 3) := ⟨rfl, rfl⟩

end Zones.Props
