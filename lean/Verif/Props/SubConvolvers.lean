import Verif.Proofs.NUPC
import Verif.Proofs.Feed
import Verif.Proofs.JuceFFT

/-!
# Properties of the convolvers used on their own: C05, C06 (`UniformPartitionedConvolver`),
C07 (`TimeDistributedNUPC`), C08 (`TimeDistributedUPC`, `TimeDistributedUPCMulti`)

`feed`, `history`, `stream`, `totalLen`, `SameShape` are defined in `Verif.Spec.Stream`,
`linConv` in `Verif.Spec.Signal`.
-/

open Finset Zones.Spec Zones.Model Zones.Proofs

namespace Zones.Props

/-! ## UniformPartitionedConvolver -/

theorem upc_step {F : RealFFT} (hF : Lawful F) {B nch : ℕ} (hB : 0 < B) {ir : Buf} :
    ∀ (x : ℕ → ℕ → ℝ) t s (blk : Buf), UInv (uPar B nch ir) x t s → True → blk.ch = nch →
      (∀ ch < nch, ∀ i < blk.n, blk.data ch i = x ch (t + i)) →
      ∃ s' blk', UPC.process F s blk = some (s', blk') ∧ blk'.n = blk.n ∧ blk'.ch = nch ∧
        (∀ o < nch, ∀ i < blk.n, blk'.data o i = linConv ir.n (ir.data (o % ir.ch)) (x o) (t + i)) ∧
        UInv (uPar B nch ir) x (t + blk.n) s' := by
  intro x t s blk h _ hch hin
  obtain ⟨s', blk', e, n, cc, d, h'⟩ := h.step hF (blk := blk) hch hin
  exact ⟨s', blk', e, n, cc, fun o ho i hi => (d o ho i hi).trans (linConv_seg hB ir (o % ir.ch) (x o) (t + i)), h'⟩

/-- **C05.** Used on its own, `UniformPartitionedConvolver` computes the exact, zero-latency linear convolution of every
channel with the impulse response (channel `ch` uses IR channel `ch mod` number of IR channels), for every partition
size (power of two or not) and every sequence of block sizes. -/
theorem C05_uniform_is_exact {F : RealFFT} (hF : Lawful F) {B nch : ℕ} (hB : 0 < B) (hB' : B ≤ 2^24) {ir : Buf}
    (hn : 0 < ir.n) (hn' : ir.n ≤ 2^24) (hch : 0 < ir.ch) (ring0 : ℕ → ℕ → ℝ) :
    ∃ u, UPC.create F B nch ir ring0 = some u ∧
      ∀ blocks : List Buf, (∀ b ∈ blocks, b.ch = nch) →
        ∃ u' outs, feed (UPC.process F) u blocks = some (u', outs) ∧ SameShape blocks outs ∧
          ∀ ch < nch, ∀ n < totalLen blocks,
            stream outs ch n = linConv ir.n (ir.data (ch % ir.ch)) (stream blocks ch) n := by
  obtain ⟨u, e, hu⟩ := UInv.create hF (nch := nch) hB hB' hn hn' (fun _ => hch) ring0
  refine ⟨u, e, fun blocks hN => ?_⟩
  exact exact_of_inv (y := fun x o n => linConv ir.n (ir.data (o % ir.ch)) (x o) n) (ok := fun _ => True)
    (upc_step hF hB) hu blocks (fun b hb => ⟨hN b hb, trivial⟩)

/-- **C06.** After any history of `Process` and `Reset` calls, `Reset` makes the uniform convolver produce, for every
further input, exactly the output of a new one. -/
theorem C06_uniform_reset {F : RealFFT} (hF : Lawful F) {B nch : ℕ} (hB : 0 < B) (hB' : B ≤ 2^24) {ir : Buf}
    (hn : 0 < ir.n) (hn' : ir.n ≤ 2^24) (hch : 0 < ir.ch) (ring0 : ℕ → ℕ → ℝ) :
    ∃ u, UPC.create F B nch ir ring0 = some u ∧
      ∀ ops : List Op, (∀ b, Op.process b ∈ ops → b.ch = nch) →
        ∃ used, history (UPC.process F) UPC.reset u ops = some used ∧
          ∀ blocks : List Buf, (∀ b ∈ blocks, b.ch = nch) →
            ∃ u₁ outs₁ u₂ outs₂, feed (UPC.process F) used.reset blocks = some (u₁, outs₁) ∧
              feed (UPC.process F) u blocks = some (u₂, outs₂) ∧
              ∀ ch < nch, ∀ n < totalLen blocks, stream outs₁ ch n = stream outs₂ ch n ∧
                stream outs₁ ch n = linConv ir.n (ir.data (ch % ir.ch)) (stream blocks ch) n := by
  obtain ⟨u, e, hu⟩ := UInv.create hF (nch := nch) hB hB' hn hn' (fun _ => hch) ring0
  refine ⟨u, e, fun ops hops => ?_⟩
  obtain ⟨used, e1, hused⟩ := fresh_of_inv (y := fun x o n => linConv ir.n (ir.data (o % ir.ch)) (x o) n)
    (ok := fun _ => True) (reset := UPC.reset) (upc_step hF hB) (fun x t s x' h => h.reset x') hu ops
    (fun b hb => ⟨hops b hb, trivial⟩)
  refine ⟨used, e1, fun blocks hN => ?_⟩
  obtain ⟨u1, o1, e1, _, d1⟩ := exact_of_inv (y := fun x o n => linConv ir.n (ir.data (o % ir.ch)) (x o) n)
    (ok := fun _ => True) (upc_step hF hB) hused blocks (fun b hb => ⟨hN b hb, trivial⟩)
  obtain ⟨u2, o2, e2, _, d2⟩ := exact_of_inv (y := fun x o n => linConv ir.n (ir.data (o % ir.ch)) (x o) n)
    (ok := fun _ => True) (upc_step hF hB) hu blocks (fun b hb => ⟨hN b hb, trivial⟩)
  exact ⟨u1, o1, u2, o2, e1, e2, fun ch hc n hn => ⟨by rw [d1 ch hc n hn, d2 ch hc n hn], d1 ch hc n hn⟩⟩

/-- A concrete case with a partition size that is no power of two: 3 channels, a stereo IR of 1000 samples, partition
size 48, blocks of 1, 47, 0 and 100 samples. -/
example : ∃ u, UPC.create referenceFFT 48 3 ⟨2, 1000, fun c i => c + i⟩ (fun _ _ => 7) = some u ∧
    ∀ s1 s2 s3 s4 : ℕ → ℕ → ℝ, ∃ u' outs,
      feed (UPC.process referenceFFT) u [⟨3, 1, s1⟩, ⟨3, 47, s2⟩, ⟨3, 0, s3⟩, ⟨3, 100, s4⟩] = some (u', outs) ∧
      stream outs 2 147 = linConv 1000 (fun i => ((0 : ℕ) : ℝ) + i)
        (stream [⟨3, 1, s1⟩, ⟨3, 47, s2⟩, ⟨3, 0, s3⟩, ⟨3, 100, s4⟩] 2) 147 := by
  obtain ⟨u, e, h⟩ := C05_uniform_is_exact referenceFFT_lawful (B := 48) (nch := 3) (by norm_num) (by norm_num)
    (ir := ⟨2, 1000, fun c i => c + i⟩) (by norm_num) (by norm_num) (by norm_num) (fun _ _ => 7)
  refine ⟨u, e, fun s1 s2 s3 s4 => ?_⟩
  obtain ⟨u', outs, e', _, d⟩ := h [⟨3, 1, s1⟩, ⟨3, 47, s2⟩, ⟨3, 0, s3⟩, ⟨3, 100, s4⟩] (by
    intro b hb; simp only [List.mem_cons, List.not_mem_nil, or_false] at hb
    rcases hb with rfl | rfl | rfl | rfl <;> rfl)
  exact ⟨u', outs, e', d 2 (by norm_num) 147 (by simp [totalLen])⟩

/-! ## TimeDistributedNUPC -/

theorem nupc_create {F : RealFFT} (hF : Lawful F) {B nch : ℕ} (hB : 0 < B) (hB' : B ≤ 2^24) {ir : Buf}
    (hn : 0 < ir.n) (hn' : ir.n ≤ 2^24) (hch : 0 < ir.ch) (g : Garbage) :
    ∃ s c, NUPC.create F B nch ir g = some s ∧ (∀ x, NInv c x 0 s) ∧
      ∀ (x : ℕ → ℕ → ℝ) t s (blk : Buf), NInv c x t s → True → blk.ch = nch →
        (∀ ch < nch, ∀ i < blk.n, blk.data ch i = x ch (t + i)) →
        ∃ s' blk', NUPC.process F s blk = some (s', blk') ∧ blk'.n = blk.n ∧ blk'.ch = nch ∧
          (∀ o < nch, ∀ i < blk.n, blk'.data o i = linConv ir.n (ir.data (o % ir.ch)) (x o) (t + i)) ∧
          NInv c x (t + blk.n) s' := by
  obtain ⟨s, n0, rest, e, h, hid⟩ := NInv.create hF (nch := nch) hB hB' hn hn' (fun _ => hch) g
  refine ⟨s, nPar B nch ir n0 rest, e, h, ?_⟩
  intro x t s blk h _ hch hin
  obtain ⟨s', blk', e, n, cc, d, h'⟩ := h.step hF hB (blk := blk) hch hin
  exact ⟨s', blk', e, n, cc, fun o ho i hi => (d o ho i hi).trans (hid x o (t + i)), h'⟩

/-- **C07.** `TimeDistributedNUPC` computes the exact, zero-latency linear convolution with its whole impulse response,
channel `ch` with IR channel `ch mod` number of IR channels, for every block size (tabulated or not), every IR of
up to `2^24` samples and every sequence of block sizes; and after any history a `Reset` makes it do so afresh. -/
theorem C07_nonuniform_is_exact {F : RealFFT} (hF : Lawful F) {B nch : ℕ} (hB : 0 < B) (hB' : B ≤ 2^24) {ir : Buf}
    (hn : 0 < ir.n) (hn' : ir.n ≤ 2^24) (hch : 0 < ir.ch) (g : Garbage) :
    ∃ s, NUPC.create F B nch ir g = some s ∧
      (∀ blocks : List Buf, (∀ b ∈ blocks, b.ch = nch) →
        ∃ s' outs, feed (NUPC.process F) s blocks = some (s', outs) ∧ SameShape blocks outs ∧
          ∀ ch < nch, ∀ n < totalLen blocks,
            stream outs ch n = linConv ir.n (ir.data (ch % ir.ch)) (stream blocks ch) n) ∧
      ∀ ops : List Op, (∀ b, Op.process b ∈ ops → b.ch = nch) →
        ∃ used, history (NUPC.process F) NUPC.reset s ops = some used ∧
          ∀ blocks : List Buf, (∀ b ∈ blocks, b.ch = nch) →
            ∃ s' outs, feed (NUPC.process F) used.reset blocks = some (s', outs) ∧ SameShape blocks outs ∧
              ∀ ch < nch, ∀ n < totalLen blocks,
                stream outs ch n = linConv ir.n (ir.data (ch % ir.ch)) (stream blocks ch) n := by
  obtain ⟨s, c, e, h, step⟩ := nupc_create hF (nch := nch) hB hB' hn hn' hch g
  have hcB : 0 < c.B := by
    have := (h (fun _ _ => 0)).blockSize
    obtain ⟨_, _, _, rep⟩ := (h (fun _ _ => 0)).upc.rep
    exact rep.hB
  have ex : ∀ s0 : NUPC, (∀ x, NInv c x 0 s0) → ∀ blocks : List Buf, (∀ b ∈ blocks, b.ch = nch) →
        ∃ s' outs, feed (NUPC.process F) s0 blocks = some (s', outs) ∧ SameShape blocks outs ∧
          ∀ ch < nch, ∀ n < totalLen blocks,
            stream outs ch n = linConv ir.n (ir.data (ch % ir.ch)) (stream blocks ch) n := fun s0 h0 blocks hN =>
    exact_of_inv (y := fun x o n => linConv ir.n (ir.data (o % ir.ch)) (x o) n) (ok := fun _ => True)
      step h0 blocks (fun b hb => ⟨hN b hb, trivial⟩)
  refine ⟨s, e, ex s h, fun ops hops => ?_⟩
  obtain ⟨used, e1, hused⟩ := fresh_of_inv (y := fun x o n => linConv ir.n (ir.data (o % ir.ch)) (x o) n)
    (ok := fun _ => True) (reset := NUPC.reset) step (fun x t s x' h => h.reset hcB x') h ops
    (fun b hb => ⟨hops b hb, trivial⟩)
  exact ⟨used, e1, ex _ hused⟩

/-- Concrete cases: block size 128 (tabulated; the IR of 100000 samples has time-distributed parts) and block size 100. -/
example : (∃ s, NUPC.create referenceFFT 128 2 ⟨2, 100000, fun c i => c + i⟩
      ⟨fun _ _ => 7, fun _ _ _ _ => 7, fun _ _ => 7, fun _ _ => 7, fun _ _ => 7⟩ = some s) ∧
    (∃ s, NUPC.create referenceFFT 100 2 ⟨1, 5000, fun c i => c + i⟩
      ⟨fun _ _ => 7, fun _ _ _ _ => 7, fun _ _ => 7, fun _ _ => 7, fun _ _ => 7⟩ = some s) := by
  obtain ⟨s, e, _⟩ := C07_nonuniform_is_exact referenceFFT_lawful (B := 128) (nch := 2) (by norm_num) (by norm_num)
    (ir := ⟨2, 100000, fun c i => c + i⟩) (by norm_num) (by norm_num) (by norm_num)
    ⟨fun _ _ => 7, fun _ _ _ _ => 7, fun _ _ => 7, fun _ _ => 7, fun _ _ => 7⟩
  obtain ⟨s', e', _⟩ := C07_nonuniform_is_exact referenceFFT_lawful (B := 100) (nch := 2) (by norm_num) (by norm_num)
    (ir := ⟨1, 5000, fun c i => c + i⟩) (by norm_num) (by norm_num) (by norm_num)
    ⟨fun _ _ => 7, fun _ _ _ _ => 7, fun _ _ => 7, fun _ _ => 7, fun _ _ => 7⟩
  exact ⟨⟨s, e⟩, ⟨s', e'⟩⟩

/-! ## TimeDistributedUPC -/

/-- `TimeDistributedUPC::Process` on a mono `Buf`. -/
noncomputable def tdProcess (s : TDUPC) (blk : Buf) : Option (TDUPC × Buf) :=
  (s.process blk.n (blk.data 0)).map fun r => (r.1, ⟨1, blk.n, fun _ => r.2⟩)

/-- the convolution with an impulse response of `L` samples, delayed by `D` samples (silent before) -/
noncomputable def delayedConv (D L : ℕ) (h x : ℕ → ℝ) (n : ℕ) : ℝ := if D ≤ n then linConv L h x (n - D) else 0

theorem td_step {b p : ℕ} {seg : Buf} {fc nd off : ℕ} :
    ∀ (x : ℕ → ℕ → ℝ) t s (blk : Buf), (∃ q, t = q * 2^b ∧ SInv (chPar b p seg fc nd off) (x 0) q s) →
      blk.n = 2^b → blk.ch = 1 → (∀ ch < 1, ∀ i < blk.n, blk.data ch i = x ch (t + i)) →
      ∃ s' blk', tdProcess s blk = some (s', blk') ∧ blk'.n = blk.n ∧ blk'.ch = 1 ∧
        (∀ o < 1, ∀ i < blk.n, blk'.data o i =
          delayedConv (2 * (2^p * 2^b)) seg.n (seg.data (fc % seg.ch)) (x o) (t + i)) ∧
        ∃ q, t + blk.n = q * 2^b ∧ SInv (chPar b p seg fc nd off) (x 0) q s' := by
  rintro x t s blk ⟨q, rfl, h⟩ hn hch hin
  obtain ⟨s', out, e, d, h'⟩ := SInv.step (h := zext seg (fc % seg.ch)) rfl h (blk.data 0)
    (fun i hi => hin 0 (by norm_num) i (by rw [hn]; exact hi))
  refine ⟨s', ⟨1, blk.n, fun _ => out⟩, ?_, rfl, rfl, ?_, q + 1, ?_, h'⟩
  · unfold tdProcess
    rw [hn, e]; rfl
  · intro o ho i hi
    obtain rfl : o = 0 := by omega
    show out i = _
    rw [d i (by rw [← hn]; exact hi)]
    have e3 : 2^p * 2^b = 2^(b+p) := by rw [← pow_add, add_comm]
    unfold dconv delayedConv
    rw [e3]
    split
    · exact linConv_seg (by positivity) seg (fc % seg.ch) (x 0) _
    · rfl
  · rw [hn]; ring

/-- **C08.** A time-distributed sub convolver is a pure delay of two partitions plus convolution. Take any power-of-two
block size `2^b` and partition size of `2^p ≥ 2` blocks, any filter segment, its transformed partitions as
`TimeDistributedUPCMulti` prepares them, any decomposition depth `nd` and transform offset that fit the stage, and any
history of `Process` and `Reset` calls (so that it is left at any phase). After a `Reset`, sample `n` of the
concatenated output is sample `n - 2 * partition size` of the exact convolution of the input with the segment, and
silence before. -/
theorem C08_delay_plus_convolution {b p nd off fc : ℕ} (hp : nd + 1 ≤ p) (hoff : off + 2^(nd+1) ≤ 2^p) {seg : Buf}
    (hseg : 0 < seg.n) (hn : seg.n ≤ 2^24) (hP : 2^p * 2^b ≤ 2^24) (hfc : fc < seg.ch) (tail0 : ℕ → ℕ → ℝ) :
    ∃ filters, buildVec (CBuf.mk0 0 0) (multiFilter (2^p * 2^b) seg) (numPartitionsFor (2^p * 2^b) seg.n) = some filters ∧
      ∀ ops : List Op, (∀ blk, Op.process blk ∈ ops → blk.ch = 1 ∧ blk.n = 2^b) →
        ∃ used, history tdProcess TDUPC.reset (TDUPC.create (2^b) (2^p) (numPartitionsFor (2^p * 2^b) seg.n) filters
            fc off nd tail0) ops = some used ∧
          ∀ blocks : List Buf, (∀ blk ∈ blocks, blk.ch = 1 ∧ blk.n = 2^b) →
            ∃ s' outs, feed tdProcess used.reset blocks = some (s', outs) ∧ SameShape blocks outs ∧
              ∀ n < totalLen blocks, stream outs 0 n =
                delayedConv (2 * (2^p * 2^b)) seg.n (seg.data fc) (stream blocks 0) n := by
  have hP0 : 0 < 2^(b+p) := by positivity
  have e1 : 2^p * 2^b = 2^(b+p) := by rw [← pow_add, add_comm]
  have hK : 0 < segK (2^(b+p)) seg := Nat.div_pos (by omega) hP0
  rw [e1] at hP
  obtain ⟨v, ev, hv⟩ := buildVec_eq (CBuf.mk0 0 0) (f := multiFilter (2^(b+p)) seg) (n := segK (2^(b+p)) seg)
    (Q := fun i b' => b'.np = 2^(b+p+1) ∧ b'.ch = seg.ch ∧
      ∀ c < seg.ch, ∀ k < 2^(b+p+1), b'.get c k = down (b+p+1) (hw (2^(b+p)) (zext seg c) i) k)
    (fun i hi => multiFilter_eq (by rw [pow_succ]; ring) seg (by
      rw [Nat.lt_div_iff_mul_lt hP0] at hi; omega))
  have hmod : fc % seg.ch = fc := Nat.mod_eq_of_lt hfc
  have hK' : numPartitionsFor (2^p * 2^b) seg.n = segK (2^(b+p)) seg := by
    rw [e1, numPartitionsFor_eq hP0 hn hP]
  rw [hK']
  refine ⟨v, by rw [e1]; exact ev, fun ops hops => ?_⟩
  have h0 : ∀ x : ℕ → ℕ → ℝ, ∃ q, 0 = q * 2^b ∧ SInv (chPar b p seg fc nd off) (x 0) q
      (TDUPC.create (2^b) (2^p) (segK (2^(b+p)) seg) v fc off nd tail0) := fun x => by
    refine ⟨0, by simp, SInv.of_zero (ph := 0) ?_ (by positivity) _⟩
    refine Rep.create (chPar b p seg fc nd off) hp hoff hK v fc tail0 ?_
    intro i hi
    obtain ⟨g1, g2, g3⟩ := hv i hi
    exact ⟨g1, by omega, fun k hk => by rw [g3 _ hfc k hk]; simp only [hmod]⟩
  obtain ⟨used, eu, hused⟩ := fresh_of_inv (N := 1) (process := tdProcess) (reset := TDUPC.reset)
    (y := fun x o n => delayedConv (2 * (2^p * 2^b)) seg.n (seg.data (fc % seg.ch)) (x o) n)
    (ok := fun blk => blk.n = 2^b)
    (Inv := fun x t s => ∃ q, t = q * 2^b ∧ SInv (chPar b p seg fc nd off) (x 0) q s)
    td_step (fun x t s x' h => by
      obtain ⟨q, _, h⟩ := h
      exact ⟨0, by simp, h.reset (x' 0)⟩) h0 ops hops
  refine ⟨used, eu, fun blocks hN => ?_⟩
  obtain ⟨s', outs, e', sh, d⟩ := exact_of_inv (N := 1) (process := tdProcess)
    (y := fun x o n => delayedConv (2 * (2^p * 2^b)) seg.n (seg.data (fc % seg.ch)) (x o) n)
    (ok := fun blk => blk.n = 2^b)
    (Inv := fun x t s => ∃ q, t = q * 2^b ∧ SInv (chPar b p seg fc nd off) (x 0) q s)
    td_step hused blocks hN
  refine ⟨s', outs, e', sh, fun n hn => ?_⟩
  have := d 0 (by norm_num) n hn
  rw [hmod] at this
  exact this

/-- Concrete parameters: blocks of 64, partitions of 16 blocks, depth 2, offset 8, a stereo segment of 3000 samples. -/
example : ∃ filters, buildVec (CBuf.mk0 0 0) (multiFilter (2^4 * 2^6) ⟨2, 3000, fun c i => c + i⟩)
    (numPartitionsFor (2^4 * 2^6) 3000) = some filters := by
  obtain ⟨f, e, _⟩ := C08_delay_plus_convolution (b := 6) (p := 4) (nd := 2) (off := 8) (fc := 1) (by norm_num)
    (by norm_num) (seg := ⟨2, 3000, fun c i => c + i⟩) (by norm_num) (by norm_num) (by norm_num) (by norm_num) (fun _ _ => 7)
  exact ⟨f, e⟩

theorem multi_step {b p nch : ℕ} {seg : Buf} :
    ∀ (x : ℕ → ℕ → ℝ) t m (blk : Buf), (∃ q, t = q * 2^b ∧ MInv b p seg nch x q m) →
      blk.n = 2^b → blk.ch = nch → (∀ ch < nch, ∀ i < blk.n, blk.data ch i = x ch (t + i)) →
      ∃ m' blk', Multi.process m blk = some (m', blk') ∧ blk'.n = blk.n ∧ blk'.ch = nch ∧
        (∀ o < nch, ∀ i < blk.n, blk'.data o i =
          delayedConv (2 * (2^p * 2^b)) seg.n (seg.data (o % seg.ch)) (x o) (t + i)) ∧
        ∃ q, t + blk.n = q * 2^b ∧ MInv b p seg nch x q m' := by
  rintro x t m blk ⟨q, rfl, h⟩ hn hch hin
  obtain ⟨m', blk', e, cc, n, d, h'⟩ := h.step (blk := blk) hch hn (fun c hc i hi => hin c hc i (by rw [hn]; exact hi))
  have e3 : 2^p * 2^b = 2^(b+p) := by rw [← pow_add, add_comm]
  refine ⟨m', blk', e, by rw [n, hn], cc, ?_, q + 1, by rw [hn]; ring, h'⟩
  intro o ho i hi
  rw [d o ho i (by rw [← hn]; exact hi), e3]; rfl

/-- **C08** (all channels). The same for `TimeDistributedUPCMulti` with any number of channels, whatever depths and
offsets it chooses for them; channel `ch` uses channel `ch mod` (number of IR channels) of the segment. -/
theorem C08_multichannel {b p nch : ℕ} (hp : 1 ≤ p) {seg : Buf} (hseg : 0 < seg.n) (hn : seg.n ≤ 2^24)
    (hch : 0 < seg.ch) (hP : 2^p * 2^b ≤ 2^24) (tail0 : ℕ → ℕ → ℕ → ℝ) :
    ∃ m, Multi.create (2^b) nch (2^p) seg tail0 = some m ∧
      ∀ ops : List Op, (∀ blk, Op.process blk ∈ ops → blk.ch = nch ∧ blk.n = 2^b) →
        ∃ used, history Multi.process Multi.reset m ops = some used ∧
          ∀ blocks : List Buf, (∀ blk ∈ blocks, blk.ch = nch ∧ blk.n = 2^b) →
            ∃ m' outs, feed Multi.process used.reset blocks = some (m', outs) ∧ SameShape blocks outs ∧
              ∀ ch < nch, ∀ n < totalLen blocks, stream outs ch n =
                delayedConv (2 * (2^p * 2^b)) seg.n (seg.data (ch % seg.ch)) (stream blocks ch) n := by
  have e1 : 2^p * 2^b = 2^(b+p) := by rw [← pow_add, add_comm]
  obtain ⟨m, e, hm⟩ := MInv.create (b := b) (nch := nch) hp hseg (fun _ => hch) hn (by rw [← e1]; exact hP) tail0
  refine ⟨m, e, fun ops hops => ?_⟩
  obtain ⟨used, eu, hused⟩ := fresh_of_inv (N := nch) (process := Multi.process) (reset := Multi.reset)
    (y := fun x o n => delayedConv (2 * (2^p * 2^b)) seg.n (seg.data (o % seg.ch)) (x o) n)
    (ok := fun blk => blk.n = 2^b)
    (Inv := fun x t m => ∃ q, t = q * 2^b ∧ MInv b p seg nch x q m)
    multi_step (fun x t s x' h => by
      obtain ⟨q, _, h⟩ := h
      exact ⟨0, by simp, h.reset x'⟩) (fun x => ⟨0, by simp, hm x⟩) ops hops
  refine ⟨used, eu, fun blocks hN => ?_⟩
  exact exact_of_inv (N := nch) (process := Multi.process)
    (y := fun x o n => delayedConv (2 * (2^p * 2^b)) seg.n (seg.data (o % seg.ch)) (x o) n)
    (ok := fun blk => blk.n = 2^b)
    (Inv := fun x t m => ∃ q, t = q * 2^b ∧ MInv b p seg nch x q m)
    multi_step hused blocks hN

/-- Concrete parameters: five channels on a stereo segment. -/
example : ∃ m, Multi.create (2^6) 5 (2^4) ⟨2, 3000, fun c i => c + i⟩ (fun _ _ _ => 7) = some m := by
  obtain ⟨m, e, _⟩ := C08_multichannel (b := 6) (p := 4) (nch := 5) (by norm_num)
    (seg := ⟨2, 3000, fun c i => c + i⟩) (by norm_num) (by norm_num) (by norm_num) (by norm_num) (fun _ _ _ => 7)
  exact ⟨m, e⟩

end Zones.Props
