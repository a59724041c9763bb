import Verif.Proofs.Convolver
import Verif.Proofs.Feed
import Verif.Proofs.JuceFFT

/-!
# Properties of `Convolver`: C01, C02, C03, C04, C26, C27, C28, C46, C47
-/

open Finset Zones.Spec Zones.Model Zones.Proofs

namespace Zones.Props

/-- The conditions under which a `Convolver` is constructed in the properties: a non-empty impulse response of at most
`2^24` samples (6 minutes at 44.1 kHz; beyond that see C19) with any number of channels, routing vectors that
name existing channels of the caller's `N`-channel blocks for every IR channel, and a block size request for which
the internal block size computation terminates (see C27). -/
structure Usable (ir : Buf) (maxB : ℕ) (spec : ConvolverSpec) (N : ℕ) : Prop where
  nonempty : 0 < ir.n
  size : ir.n ≤ 2^24
  inputs : ValidRouting spec.inputRouting ir.ch N
  outputs : ValidRouting spec.outputRouting ir.ch N
  blockSize : maxB ≤ 2^30 ∨ ∃ b, spec.internalBlockSize = some b ∧ b ≠ 0 ∧ b ≤ 2^30

theorem castInt32_le {n : ℕ} (h : n ≤ 2^30) : castInt32 n = n := by
  unfold castInt32
  rw [Int.bmod_eq_of_le]
  · norm_num
  · norm_num at *; omega

theorem castInt32_lt (n : ℕ) : castInt32 n < 2^31 := by
  unfold castInt32
  have := Int.bmod_lt (x := (n:ℤ)) (m := 2^32) (by norm_num)
  norm_num at this ⊢
  omega

theorem requested_le {maxB : ℕ} {io : Option ℤ} (h : maxB ≤ 2^30 ∨ ∃ b, io = some b ∧ b ≠ 0 ∧ b ≤ 2^30) :
    requestedBlockSize maxB io ≤ 2^30 := by
  rcases h with h | ⟨b, hb, hb0, hb1⟩
  · have hc := castInt32_le h
    unfold requestedBlockSize
    cases io with
    | none => simp only [hc]; exact_mod_cast h
    | some b =>
      simp only [hc]
      split
      · exact le_trans (min_le_left _ _) (by exact_mod_cast h)
      · exact_mod_cast h
  · subst hb
    unfold requestedBlockSize
    simp only
    rw [if_pos hb0]
    exact le_trans (min_le_right _ _) hb1

theorem route_of_valid {r : List ℤ} {n N : ℕ} (h : ValidRouting r n N) :
    ∀ c < n, Convolver.route r c = some (channelAt r c) ∧ channelAt r c < N := by
  intro c hc
  obtain ⟨z, hz, h0, h1⟩ := h c hc
  have hd : r.getD c 0 = z := by rw [List.getD_eq_getElem?_getD, hz]; rfl
  unfold Convolver.route channelAt
  rw [hz, hd]
  simp only
  rw [if_pos h0]
  exact ⟨rfl, by omega⟩

/-- the invariant reached by construction and kept by every step -/
theorem usable_create {F : RealFFT} (hF : Lawful F) {ir : Buf} {maxB N : ℕ} {spec : ConvolverSpec}
    (h : Usable ir maxB spec N) (g : Garbage) (r0 : ℕ → ℕ → ℝ) :
    ∃ c, Convolver.create F ir maxB spec g r0 = some c ∧
      ∀ x, CInv ir (channelAt spec.inputRouting) (channelAt spec.outputRouting) x 0 c :=
  CInv.create hF (requested_le h.blockSize) h.nonempty h.size
    (fun c hc => (route_of_valid h.inputs c hc).1) (fun c hc => (route_of_valid h.outputs c hc).1) g r0

theorem feed_of_routing {F : RealFFT} (hF : Lawful F) {ir : Buf} {N : ℕ} {spec : ConvolverSpec}
    (hi : ValidRouting spec.inputRouting ir.ch N) (ho : ValidRouting spec.outputRouting ir.ch N) {c : Convolver}
    (hc : ∀ x, CInv ir (channelAt spec.inputRouting) (channelAt spec.outputRouting) x 0 c) (blocks : List Buf)
    (hN : ∀ b ∈ blocks, b.ch = N) :
    ∃ c' outs, feed (Convolver.process F) c blocks = some (c', outs) ∧ SameShape blocks outs ∧
      ∀ o < N, ∀ n < totalLen blocks, stream outs o n =
        routedConv ir spec.inputRouting spec.outputRouting (stream blocks) o n := by
  obtain ⟨c', outs, e, sh, d, _⟩ := feed_exact (process := Convolver.process F) (N := N) (ok := fun _ => True)
    (Inv := fun t s => CInv ir (channelAt spec.inputRouting) (channelAt spec.outputRouting) (stream blocks) t s)
    (x := stream blocks)
    (y := fun o n => routedConv ir spec.inputRouting spec.outputRouting (stream blocks) o n)
    (by
      intro t s blk hs _ hch hin
      obtain ⟨s', blk', e, n, cc, d, h'⟩ := hs.step hF (blk := blk)
        (fun c hc => ⟨by rw [hch]; exact (route_of_valid hi c hc).2,
          by rw [hch]; exact (route_of_valid ho c hc).2⟩)
        (fun c hc i hi' => hin _ (route_of_valid hi c hc).2 i hi')
      exact ⟨s', blk', e, n, by rw [cc, hch], fun o ho' i hi' => d o (by rw [hch]; exact ho') i hi', h'⟩)
    blocks 0 c (hc _) (fun b hb => ⟨hN b hb, trivial⟩) (fun ch _ i _ => by rw [zero_add])
  refine ⟨c', outs, e, sh, fun o ho' n hn => ?_⟩
  rw [d o ho' n hn, zero_add]

theorem feed_of_inv {F : RealFFT} (hF : Lawful F) {ir : Buf} {maxB N : ℕ} {spec : ConvolverSpec}
    (h : Usable ir maxB spec N) {c : Convolver}
    (hc : ∀ x, CInv ir (channelAt spec.inputRouting) (channelAt spec.outputRouting) x 0 c) (blocks : List Buf)
    (hN : ∀ b ∈ blocks, b.ch = N) :
    ∃ c' outs, feed (Convolver.process F) c blocks = some (c', outs) ∧ SameShape blocks outs ∧
      ∀ o < N, ∀ n < totalLen blocks, stream outs o n =
        routedConv ir spec.inputRouting spec.outputRouting (stream blocks) o n :=
  feed_of_routing hF h.inputs h.outputs hc blocks hN

/-- **C01.** A `Convolver` computes exact, zero-latency linear convolution: whatever the block sizes and the number
of blocks, sample `n` of the concatenated output on channel `o` is the sum over the convolution channels routed
to `o` of the linear convolution with the input channel routed to them. -/
theorem C01_exact_convolution {F : RealFFT} (hF : Lawful F) {ir : Buf} {maxB N : ℕ} {spec : ConvolverSpec}
    (h : Usable ir maxB spec N) (g : Garbage) (r0 : ℕ → ℕ → ℝ) :
    ∃ c, Convolver.create F ir maxB spec g r0 = some c ∧
      ∀ blocks : List Buf, (∀ b ∈ blocks, b.ch = N) →
        ∃ c' outs, feed (Convolver.process F) c blocks = some (c', outs) ∧ SameShape blocks outs ∧
          ∀ o < N, ∀ n < totalLen blocks, stream outs o n =
            ∑ k ∈ range ir.ch, if channelAt spec.outputRouting k = o
              then linConv ir.n (ir.data k) (stream blocks (channelAt spec.inputRouting k)) n else 0 := by
  obtain ⟨c, e, hc⟩ := usable_create hF h g r0
  exact ⟨c, e, fun blocks hN => feed_of_inv hF h hc blocks hN⟩

/-- A concrete case: a two channel IR of 5000 samples, crossed outputs, host block size 64. -/
def exampleIR : Buf := ⟨2, 5000, fun c i => if c = 0 then 1 else (i : ℝ)⟩
def exampleSpec : ConvolverSpec := { inputRouting := [0, 1], outputRouting := [1, 0] }

theorem exampleUsable : Usable exampleIR 64 exampleSpec 2 where
  nonempty := by norm_num [exampleIR]
  size := by norm_num [exampleIR]
  inputs := by
    intro c hc
    have : c < 2 := hc
    rcases (by omega : c = 0 ∨ c = 1) with rfl | rfl <;> simp [exampleSpec]
  outputs := by
    intro c hc
    have : c < 2 := hc
    rcases (by omega : c = 0 ∨ c = 1) with rfl | rfl <;> simp [exampleSpec]
  blockSize := by left; norm_num

example : ∃ c, Convolver.create referenceFFT exampleIR 64 exampleSpec
    ⟨fun _ _ => 7, fun _ _ _ _ => 7, fun _ _ => 7, fun _ _ => 7, fun _ _ => 7⟩ (fun _ _ => 7) = some c ∧
    ∀ blocks : List Buf, (∀ b ∈ blocks, b.ch = 2) → ∃ c' outs, feed (Convolver.process referenceFFT) c blocks = some (c', outs) ∧
      SameShape blocks outs ∧ ∀ o < 2, ∀ n < totalLen blocks, stream outs o n =
        ∑ k ∈ range exampleIR.ch, if channelAt exampleSpec.outputRouting k = o
          then linConv exampleIR.n (exampleIR.data k) (stream blocks (channelAt exampleSpec.inputRouting k)) n else 0 :=
  C01_exact_convolution referenceFFT_lawful exampleUsable _ _

theorem routedConv_congr {ir : Buf} {a b : List ℤ} {x x' : ℕ → ℕ → ℝ} {o n : ℕ}
    (h : ∀ c < ir.ch, channelAt b c = o → ∀ m ≤ n, x (channelAt a c) m = x' (channelAt a c) m) :
    routedConv ir a b x o n = routedConv ir a b x' o n := by
  unfold routedConv
  refine sum_congr rfl fun c hc => ?_
  rw [mem_range] at hc
  split
  · next ho =>
    unfold linConv
    refine sum_congr rfl fun k _ => ?_
    split
    · rw [h c hc ho (n - k) (by omega)]
    · rfl
  · rfl

/-- **C02.** Block splitting is invisible: two sequences of blocks that carry the same signal give the same output
signal. -/
theorem C02_block_splitting_invisible {F : RealFFT} (hF : Lawful F) {ir : Buf} {maxB N : ℕ} {spec : ConvolverSpec}
    (h : Usable ir maxB spec N) (g : Garbage) (r0 : ℕ → ℕ → ℝ) :
    ∃ c, Convolver.create F ir maxB spec g r0 = some c ∧
      ∀ blocks₁ blocks₂ : List Buf, (∀ b ∈ blocks₁, b.ch = N) → (∀ b ∈ blocks₂, b.ch = N) →
        totalLen blocks₁ = totalLen blocks₂ →
        (∀ ch < N, ∀ n < totalLen blocks₁, stream blocks₁ ch n = stream blocks₂ ch n) →
        ∃ c₁ outs₁ c₂ outs₂, feed (Convolver.process F) c blocks₁ = some (c₁, outs₁) ∧
          feed (Convolver.process F) c blocks₂ = some (c₂, outs₂) ∧
          ∀ o < N, ∀ n < totalLen blocks₁, stream outs₁ o n = stream outs₂ o n := by
  obtain ⟨c, e, hc⟩ := usable_create hF h g r0
  refine ⟨c, e, fun b1 b2 hN1 hN2 hlen hst => ?_⟩
  obtain ⟨c1, o1, e1, _, d1⟩ := feed_of_inv hF h hc b1 hN1
  obtain ⟨c2, o2, e2, _, d2⟩ := feed_of_inv hF h hc b2 hN2
  refine ⟨c1, o1, c2, o2, e1, e2, fun o ho n hn => ?_⟩
  rw [d1 o ho n hn, d2 o ho n (by omega)]
  exact routedConv_congr fun k hk _ m hm => hst _ (route_of_valid h.inputs k hk).2 m (by omega)

/-- A concrete case of two different splittings of one signal. -/
example : totalLen [⟨2, 3, fun _ i => i⟩, ⟨2, 70, fun _ i => (i : ℝ) + 3⟩] = totalLen [⟨2, 73, fun _ i => i⟩] ∧
    ∀ ch < 2, ∀ n < 73, stream [⟨2, 3, fun _ i => i⟩, ⟨2, 70, fun _ i => (i : ℝ) + 3⟩] ch n =
      stream [⟨2, 73, fun _ i => i⟩] ch n := by
  refine ⟨rfl, fun ch _ n hn => ?_⟩
  simp only [stream]
  by_cases h3 : n < 3
  · rw [if_pos h3, if_pos hn]
  · rw [if_neg h3, if_pos (by omega), if_pos hn]
    have : n = (n - 3) + 3 := by omega
    rw [this]; push_cast; ring_nf

/-- Good states: everything a history can lead to. -/
theorem history_routing {F : RealFFT} (hF : Lawful F) {ir : Buf} {N : ℕ} {spec : ConvolverSpec}
    (hi : ValidRouting spec.inputRouting ir.ch N) (ho : ValidRouting spec.outputRouting ir.ch N) {c : Convolver}
    (hc : ∀ x, CInv ir (channelAt spec.inputRouting) (channelAt spec.outputRouting) x 0 c) (ops : List Op)
    (hops : ∀ b, Op.process b ∈ ops → b.ch = N) :
    ∃ c', history (Convolver.process F) Convolver.reset c ops = some c' ∧
      ∃ x t, CInv ir (channelAt spec.inputRouting) (channelAt spec.outputRouting) x t c' := by
  refine history_inv (process := Convolver.process F) (reset := Convolver.reset) (ok := fun _ => True) (N := N)
    (Inv := fun x t s => CInv ir (channelAt spec.inputRouting) (channelAt spec.outputRouting) x t s) ?_ ?_ ops
    (stream (lead ops)) 0 c (hc _) (fun b hb => ⟨hops b hb, trivial⟩) (fun ch i _ => by rw [zero_add])
  · intro x t s blk hs _ hch hin
    obtain ⟨s', blk', e, _, _, _, h'⟩ := hs.step hF (blk := blk)
      (fun c hc => ⟨by rw [hch]; exact (route_of_valid hi c hc).2,
          by rw [hch]; exact (route_of_valid ho c hc).2⟩)
      (fun c hc i hi' => hin _ (route_of_valid hi c hc).2 i hi')
    exact ⟨s', blk', e, h'⟩
  · intro x t s x' hs
    exact hs.reset x'

theorem history_good {F : RealFFT} (hF : Lawful F) {ir : Buf} {maxB N : ℕ} {spec : ConvolverSpec}
    (h : Usable ir maxB spec N) {c : Convolver}
    (hc : ∀ x, CInv ir (channelAt spec.inputRouting) (channelAt spec.outputRouting) x 0 c) (ops : List Op)
    (hops : ∀ b, Op.process b ∈ ops → b.ch = N) :
    ∃ c', history (Convolver.process F) Convolver.reset c ops = some c' ∧
      ∃ x t, CInv ir (channelAt spec.inputRouting) (channelAt spec.outputRouting) x t c' :=
  history_routing hF h.inputs h.outputs hc ops hops

/-- **C03.** Reset forgets the past completely: after any history of `Process` and `Reset` calls, a `Reset` makes the
object produce, for every further input, the same output as a newly constructed one. -/
theorem C03_reset_restores_fresh_behaviour {F : RealFFT} (hF : Lawful F) {ir : Buf} {maxB N : ℕ} {spec : ConvolverSpec}
    (h : Usable ir maxB spec N) (g : Garbage) (r0 : ℕ → ℕ → ℝ) :
    ∃ c, Convolver.create F ir maxB spec g r0 = some c ∧
      ∀ ops : List Op, (∀ b, Op.process b ∈ ops → b.ch = N) →
        ∃ used, history (Convolver.process F) Convolver.reset c ops = some used ∧
          ∀ blocks : List Buf, (∀ b ∈ blocks, b.ch = N) →
            ∃ c₁ outs₁ c₂ outs₂, feed (Convolver.process F) used.reset blocks = some (c₁, outs₁) ∧
              feed (Convolver.process F) c blocks = some (c₂, outs₂) ∧ SameShape outs₁ outs₂ ∧
              ∀ o < N, ∀ n < totalLen blocks, stream outs₁ o n = stream outs₂ o n := by
  obtain ⟨c, e, hc⟩ := usable_create hF h g r0
  refine ⟨c, e, fun ops hops => ?_⟩
  obtain ⟨used, e1, x, t, hu⟩ := history_good hF h hc ops hops
  refine ⟨used, e1, fun blocks hN => ?_⟩
  obtain ⟨c1, o1, e1, s1, d1⟩ := feed_of_inv hF h (c := used.reset) (fun x' => hu.reset x') blocks hN
  obtain ⟨c2, o2, e2, s2, d2⟩ := feed_of_inv hF h hc blocks hN
  refine ⟨c1, o1, c2, o2, e1, e2, ?_, fun o ho n hn => by rw [d1 o ho n hn, d2 o ho n hn]⟩
  have h1 := List.forall₂_iff_get.mp s1
  have h2 := List.forall₂_iff_get.mp s2
  exact List.forall₂_iff_get.mpr ⟨by rw [← h1.1, ← h2.1], fun i hi1 hi2 =>
    ⟨by rw [← (h1.2 i (by rw [h1.1]; exact hi1) hi1).1, (h2.2 i (by rw [h2.1]; exact hi2) hi2).1],
     by rw [← (h1.2 i (by rw [h1.1]; exact hi1) hi1).2, (h2.2 i (by rw [h2.1]; exact hi2) hi2).2]⟩⟩

/-- A history that stops in the middle of a block and of a partition. -/
example : ∀ b, Op.process b ∈ [Op.process ⟨2, 4001, fun _ i => i⟩, Op.reset, Op.process ⟨2, 17, fun _ _ => 1⟩] → b.ch = 2 := by
  intro b hb
  simp only [List.mem_cons, Op.process.injEq, List.not_mem_nil, or_false, reduceCtorEq, false_or] at hb
  rcases hb with rfl | rfl <;> rfl

/-- **C04** (first half). An output channel that no convolution channel is routed to is exactly zero. -/
theorem C04_unrouted_outputs_are_silent {F : RealFFT} (hF : Lawful F) {ir : Buf} {maxB N : ℕ} {spec : ConvolverSpec}
    (h : Usable ir maxB spec N) (g : Garbage) (r0 : ℕ → ℕ → ℝ) :
    ∃ c, Convolver.create F ir maxB spec g r0 = some c ∧
      ∀ blocks : List Buf, (∀ b ∈ blocks, b.ch = N) →
        ∃ c' outs, feed (Convolver.process F) c blocks = some (c', outs) ∧
          ∀ o < N, (∀ k < ir.ch, channelAt spec.outputRouting k ≠ o) →
            ∀ n < totalLen blocks, stream outs o n = 0 := by
  obtain ⟨c, e, hc⟩ := usable_create hF h g r0
  refine ⟨c, e, fun blocks hN => ?_⟩
  obtain ⟨c', outs, e', _, d⟩ := feed_of_inv hF h hc blocks hN
  refine ⟨c', outs, e', fun o ho hno n hn => ?_⟩
  rw [d o ho n hn]
  unfold routedConv
  refine sum_eq_zero fun k hk => ?_
  rw [if_neg (hno k (mem_range.mp hk))]

/-- **C04** (second half). An output channel depends only on the input channels that are routed to it through some
convolution channel (and only on their past). -/
theorem C04_outputs_depend_only_on_routed_inputs {F : RealFFT} (hF : Lawful F) {ir : Buf} {maxB N : ℕ}
    {spec : ConvolverSpec} (h : Usable ir maxB spec N) (g : Garbage) (r0 : ℕ → ℕ → ℝ) :
    ∃ c, Convolver.create F ir maxB spec g r0 = some c ∧
      ∀ blocks₁ blocks₂ : List Buf, (∀ b ∈ blocks₁, b.ch = N) → (∀ b ∈ blocks₂, b.ch = N) →
        ∃ c₁ outs₁ c₂ outs₂, feed (Convolver.process F) c blocks₁ = some (c₁, outs₁) ∧
          feed (Convolver.process F) c blocks₂ = some (c₂, outs₂) ∧
          ∀ o < N, ∀ n, n < totalLen blocks₁ → n < totalLen blocks₂ →
            (∀ k < ir.ch, channelAt spec.outputRouting k = o → ∀ m ≤ n,
              stream blocks₁ (channelAt spec.inputRouting k) m = stream blocks₂ (channelAt spec.inputRouting k) m) →
            stream outs₁ o n = stream outs₂ o n := by
  obtain ⟨c, e, hc⟩ := usable_create hF h g r0
  refine ⟨c, e, fun b1 b2 hN1 hN2 => ?_⟩
  obtain ⟨c1, o1, e1, _, d1⟩ := feed_of_inv hF h hc b1 hN1
  obtain ⟨c2, o2, e2, _, d2⟩ := feed_of_inv hF h hc b2 hN2
  refine ⟨c1, o1, c2, o2, e1, e2, fun o ho n hn1 hn2 heq => ?_⟩
  rw [d1 o ho n hn1, d2 o ho n hn2]
  exact routedConv_congr heq

/-- A routing that leaves channel 1 of three unrouted. -/
example : Usable ⟨2, 10, fun _ _ => 1⟩ 512 { inputRouting := [1, 1, -5], outputRouting := [0, 2] } 3 ∧
    ∀ k < 2, channelAt [0, 2] k ≠ 1 := by
  refine ⟨⟨by norm_num, by norm_num, ?_, ?_, by left; norm_num⟩, ?_⟩
  · intro c hc
    have : c < 2 := hc
    rcases (by omega : c = 0 ∨ c = 1) with rfl | rfl <;> simp
  · intro c hc
    have : c < 2 := hc
    rcases (by omega : c = 0 ∨ c = 1) with rfl | rfl <;> simp
  · intro c hc
    rcases (by omega : c = 0 ∨ c = 1) with rfl | rfl <;> simp [channelAt]

/-- A response without channels needs no routing, and silences everything. -/
theorem C04_no_channels_is_silence {F : RealFFT} (hF : Lawful F) {ir : Buf} (hn : 0 < ir.n) (hn' : ir.n ≤ 2^24) (hc : ir.ch = 0) {maxB N : ℕ} (hB : maxB ≤ 2^30) (spec : ConvolverSpec)
    (g : Garbage) (r0 : ℕ → ℕ → ℝ) :
    ∃ c, Convolver.create F ir maxB spec g r0 = some c ∧
      ∀ blocks : List Buf, (∀ b ∈ blocks, b.ch = N) → ∃ c' outs, feed (Convolver.process F) c blocks = some (c', outs) ∧ SameShape blocks outs ∧
        ∀ o < N, ∀ n < totalLen blocks, stream outs o n = 0 := by
  have h : Usable ir maxB spec N := ⟨hn, hn', fun c h => absurd h (by omega), fun c h => absurd h (by omega), .inl hB⟩
  obtain ⟨c, e, hf⟩ := C01_exact_convolution hF h g r0
  refine ⟨c, e, fun blocks hN => ?_⟩
  obtain ⟨c', outs, e', hs, d⟩ := hf blocks hN
  exact ⟨c', outs, e', hs, fun o ho n hn => by rw [d o ho n hn, hc]; rfl⟩

/-- **C26.** No sequence of operations reaches undefined behaviour: construction and every history of `Process` and
`Reset` calls with blocks of the agreed channel count are defined, where the model reports as undefined every element
access outside its buffer, division by zero, negative delay, failed assertion and endless loop of the signal path. -/
theorem C26_no_undefined_behaviour {F : RealFFT} (hF : Lawful F) {ir : Buf} {maxB N : ℕ} {spec : ConvolverSpec}
    (h : Usable ir maxB spec N) (g : Garbage) (r0 : ℕ → ℕ → ℝ) :
    ∃ c, Convolver.create F ir maxB spec g r0 = some c ∧
      ∀ ops : List Op, (∀ b, Op.process b ∈ ops → b.ch = N) →
        (history (Convolver.process F) Convolver.reset c ops).isSome := by
  obtain ⟨c, e, hc⟩ := usable_create hF h g r0
  refine ⟨c, e, fun ops hops => ?_⟩
  obtain ⟨used, e1, _⟩ := history_good hF h hc ops hops
  rw [e1]; rfl

example : (∃ c, Convolver.create referenceFFT exampleIR 64 exampleSpec
    ⟨fun _ _ => 7, fun _ _ _ _ => 7, fun _ _ => 7, fun _ _ => 7, fun _ _ => 7⟩ (fun _ _ => 7) = some c ∧
    ∀ ops : List Op, (∀ b, Op.process b ∈ ops → b.ch = 2) →
      (history (Convolver.process referenceFFT) Convolver.reset c ops).isSome) :=
  C26_no_undefined_behaviour referenceFFT_lawful exampleUsable _ _

theorem linConv_linear (L : ℕ) (h x y z : ℕ → ℝ) (a b : ℝ) (n : ℕ) (hz : ∀ m ≤ n, z m = a * x m + b * y m) :
    linConv L h z n = a * linConv L h x n + b * linConv L h y n := by
  unfold linConv
  rw [mul_sum, mul_sum, ← sum_add_distrib]
  refine sum_congr rfl fun k _ => ?_
  split
  · rw [hz _ (by omega)]; ring
  · ring

theorem linConv_delay (L : ℕ) (h x z : ℕ → ℝ) (d n : ℕ) (hz : ∀ m ≤ n, z m = if m < d then 0 else x (m - d)) :
    linConv L h z n = if n < d then 0 else linConv L h x (n - d) := by
  unfold linConv
  by_cases hd : n < d
  · rw [if_pos hd]
    refine sum_eq_zero fun k _ => ?_
    split
    · rw [hz _ (by omega), if_pos (by omega), mul_zero]
    · rfl
  · rw [if_neg hd]
    refine sum_congr rfl fun k _ => ?_
    by_cases hk : k ≤ n - d
    · rw [if_pos hk, if_pos (by omega), hz _ (by omega), if_neg (by omega)]
      congr 2; omega
    · rw [if_neg hk]
      split
      · rw [hz _ (by omega), if_pos (by omega), mul_zero]
      · rfl

/-- **C46** (linearity). If a third input signal is `a` times the first plus `b` times the second, so is the output;
in particular (`a = b = 0`) silence yields silence. The block sizes of the three runs may differ. -/
theorem C46_linear {F : RealFFT} (hF : Lawful F) {ir : Buf} {maxB N : ℕ} {spec : ConvolverSpec}
    (h : Usable ir maxB spec N) (g : Garbage) (r0 : ℕ → ℕ → ℝ) :
    ∃ c, Convolver.create F ir maxB spec g r0 = some c ∧
      ∀ xs ys zs : List Buf, (∀ b ∈ xs, b.ch = N) → (∀ b ∈ ys, b.ch = N) → (∀ b ∈ zs, b.ch = N) →
        ∃ c₁ ox c₂ oy c₃ oz, feed (Convolver.process F) c xs = some (c₁, ox) ∧
          feed (Convolver.process F) c ys = some (c₂, oy) ∧ feed (Convolver.process F) c zs = some (c₃, oz) ∧
          ∀ (a b : ℝ) (n : ℕ), n < totalLen xs → n < totalLen ys → n < totalLen zs →
            (∀ ch < N, ∀ m ≤ n, stream zs ch m = a * stream xs ch m + b * stream ys ch m) →
            ∀ o < N, stream oz o n = a * stream ox o n + b * stream oy o n := by
  obtain ⟨c, e, hc⟩ := usable_create hF h g r0
  refine ⟨c, e, fun xs ys zs h1 h2 h3 => ?_⟩
  obtain ⟨c1, o1, e1, _, d1⟩ := feed_of_inv hF h hc xs h1
  obtain ⟨c2, o2, e2, _, d2⟩ := feed_of_inv hF h hc ys h2
  obtain ⟨c3, o3, e3, _, d3⟩ := feed_of_inv hF h hc zs h3
  refine ⟨c1, o1, c2, o2, c3, o3, e1, e2, e3, fun a b n n1 n2 n3 heq o ho => ?_⟩
  rw [d1 o ho n n1, d2 o ho n n2, d3 o ho n n3]
  unfold routedConv
  rw [mul_sum, mul_sum, ← sum_add_distrib]
  refine sum_congr rfl fun k hk => ?_
  split
  · exact linConv_linear _ _ _ _ _ a b n fun m hm => heq _ (route_of_valid h.inputs k (mem_range.mp hk)).2 m hm
  · ring

/-- **C46** (time invariance). Delaying the input by any number `d` of samples delays the output by `d` samples. -/
theorem C46_time_invariant {F : RealFFT} (hF : Lawful F) {ir : Buf} {maxB N : ℕ} {spec : ConvolverSpec}
    (h : Usable ir maxB spec N) (g : Garbage) (r0 : ℕ → ℕ → ℝ) :
    ∃ c, Convolver.create F ir maxB spec g r0 = some c ∧
      ∀ xs zs : List Buf, (∀ b ∈ xs, b.ch = N) → (∀ b ∈ zs, b.ch = N) →
        ∃ c₁ ox c₃ oz, feed (Convolver.process F) c xs = some (c₁, ox) ∧
          feed (Convolver.process F) c zs = some (c₃, oz) ∧
          ∀ d n : ℕ, n < totalLen zs → n - d < totalLen xs →
            (∀ ch < N, ∀ m ≤ n, stream zs ch m = if m < d then 0 else stream xs ch (m - d)) →
            ∀ o < N, stream oz o n = if n < d then 0 else stream ox o (n - d) := by
  obtain ⟨c, e, hc⟩ := usable_create hF h g r0
  refine ⟨c, e, fun xs zs h1 h3 => ?_⟩
  obtain ⟨c1, o1, e1, _, d1⟩ := feed_of_inv hF h hc xs h1
  obtain ⟨c3, o3, e3, _, d3⟩ := feed_of_inv hF h hc zs h3
  refine ⟨c1, o1, c3, o3, e1, e3, fun d n n3 n1 heq o ho => ?_⟩
  rw [d1 o ho _ n1, d3 o ho n n3]
  unfold routedConv
  have key : ∀ k ∈ range ir.ch, (if channelAt spec.outputRouting k = o
      then linConv ir.n (ir.data k) (stream zs (channelAt spec.inputRouting k)) n else 0) =
      if n < d then 0 else (if channelAt spec.outputRouting k = o
        then linConv ir.n (ir.data k) (stream xs (channelAt spec.inputRouting k)) (n - d) else 0) := by
    intro k hk
    rw [linConv_delay _ _ _ _ d n fun m hm => heq _ (route_of_valid h.inputs k (mem_range.mp hk)).2 m hm]
    split <;> split <;> rfl
  rw [sum_congr rfl key]
  split
  · simp
  · rfl

/-- Concrete signals: the second is the first delayed by one sample. -/
example : ∀ ch < 2, ∀ m ≤ 5, stream [⟨2, 6, fun _ i => if i = 0 then 0 else ((i - 1 : ℕ) : ℝ)⟩] ch m =
    if m < 1 then 0 else stream [⟨2, 2, fun _ i => (i : ℝ)⟩, ⟨2, 4, fun _ i => (i : ℝ) + 2⟩] ch (m - 1) := by
  intro ch _ m hm
  rcases (by omega : m = 0 ∨ m = 1 ∨ m = 2 ∨ m = 3 ∨ m = 4 ∨ m = 5) with rfl | rfl | rfl | rfl | rfl | rfl <;>
    norm_num [stream]

/-- **C47.** The response ends with the impulse response: if the input is silent from sample `m` on, the output is
exactly silent from sample `m + length - 1` on. -/
theorem C47_response_ends {F : RealFFT} (hF : Lawful F) {ir : Buf} {maxB N : ℕ} {spec : ConvolverSpec}
    (h : Usable ir maxB spec N) (g : Garbage) (r0 : ℕ → ℕ → ℝ) :
    ∃ c, Convolver.create F ir maxB spec g r0 = some c ∧
      ∀ blocks : List Buf, (∀ b ∈ blocks, b.ch = N) →
        ∃ c' outs, feed (Convolver.process F) c blocks = some (c', outs) ∧
          ∀ m, (∀ ch < N, ∀ n ≥ m, stream blocks ch n = 0) →
            ∀ o < N, ∀ n < totalLen blocks, m + ir.n - 1 ≤ n → stream outs o n = 0 := by
  obtain ⟨c, e, hc⟩ := usable_create hF h g r0
  refine ⟨c, e, fun blocks hN => ?_⟩
  obtain ⟨c', outs, e', _, d⟩ := feed_of_inv hF h hc blocks hN
  refine ⟨c', outs, e', fun m hm o ho n hn hmn => ?_⟩
  rw [d o ho n hn]
  unfold routedConv
  refine sum_eq_zero fun k hk => ?_
  split
  · unfold linConv
    refine sum_eq_zero fun j hj => ?_
    rw [mem_range] at hj
    split
    · rw [hm _ (route_of_valid h.inputs k (mem_range.mp hk)).2 _ (by omega), mul_zero]
    · rfl
  · rfl

/-- An input of two samples followed by silence. -/
example : ∀ ch < 2, ∀ n ≥ 2, stream [⟨2, 100, fun _ i => if i < 2 then 1 else 0⟩] ch n = 0 := by
  intro ch _ n hn
  simp only [stream]
  split
  · rw [if_neg (by omega)]
  · rfl

/-! ## C27: the internal block size -/

/-- **C27.** Whatever the host's maximum block size and the spec's internal block size are (as 32 bit numbers), if the
requested size (the smaller of the two, or the host's if the spec requests none or 0) is at most `2^30`, the internal
block size is a power of two in [32, 2048] for which there is a table of partition schemes; it does not exceed the
request unless the request is below 32, and it is the largest such power of two. -/
theorem C27_internal_block_size (fuel maxB : ℕ) (internal : Option ℤ) (hf : 32 ≤ fuel) (r : ℤ)
    (hr : r = (match internal with
      | none => castInt32 maxB
      | some b => if b = 0 then castInt32 maxB else min (castInt32 maxB) b))
    (hr30 : r ≤ 2^30) :
    ∃ B, internalBlockSize fuel maxB internal = some B ∧ (∃ b, B = 2^b) ∧ 32 ≤ B ∧ B ≤ 2048 ∧
      B ∈ kGarciaResults.map Prod.fst ∧ (32 ≤ r → (B : ℤ) ≤ r) ∧ (r < 32 → B = 32) ∧ (B < 2048 → r < 2 * B) := by
  have hreq : requestedBlockSize maxB internal = r := by
    rw [hr]; unfold requestedBlockSize
    cases internal with
    | none => rfl
    | some b => by_cases h0 : b = 0 <;> simp [h0]
  obtain ⟨b, hb1, hb2, e, h1, h2⟩ := internalBlockSize_eq (io := internal) hf (by rw [hreq]; exact hr30)
  rw [hreq] at h1 h2
  refine ⟨2^b, e, ⟨b, rfl⟩, ?_, ?_, ?_, fun h => (h1 h).1, fun h => by rw [h2 h]; norm_num, ?_⟩
  · calc 32 = 2^5 := by norm_num
      _ ≤ 2^b := Nat.pow_le_pow_right (by norm_num) hb1
  · calc 2^b ≤ 2^11 := Nat.pow_le_pow_right (by norm_num) hb2
      _ = 2048 := by norm_num
  · rcases (by omega : b = 5 ∨ b = 6 ∨ b = 7 ∨ b = 8 ∨ b = 9 ∨ b = 10 ∨ b = 11) with
      rfl | rfl | rfl | rfl | rfl | rfl | rfl <;> decide
  · intro hlt
    rcases lt_or_ge r 32 with h | h
    · rw [h2 h]; norm_num; omega
    · rcases (h1 h).2 with h3 | h3
      · exact h3
      · rw [h3] at hlt; norm_num at hlt

/-- `castInt32` on sizes that fit. -/
theorem C27_cast (n : ℕ) (h : n < 2^31) : castInt32 n = n := by
  unfold castInt32
  rw [Int.bmod_eq_of_le]
  · norm_num
  · norm_num at *; omega

example : internalBlockSize 64 480 none = some 256 ∧ internalBlockSize 64 512 (some 0) = some 512 ∧
    internalBlockSize 64 4096 none = some 2048 ∧ internalBlockSize 64 512 (some 100) = some 64 ∧
    internalBlockSize 64 1 none = some 32 ∧ internalBlockSize 64 512 (some (-3)) = some 32 := by decide

/-- **C27** (the exception). For a requested size above `2^30` (and below `2^31`) the computation never ends. -/
theorem C27_nontermination (fuel maxB : ℕ) (h1 : 2^30 < maxB) (h2 : maxB < 2^31) :
    internalBlockSize fuel maxB none = none := by
  unfold internalBlockSize requestedBlockSize
  simp only
  rw [C27_cast maxB h2, powerOfTwo_forever (by exact_mod_cast h1) (by exact_mod_cast h2)]
  rfl

/-! ## C28: routing vectors -/

theorem foldlM_none {α : Type} {f : α → ℕ → Option α} {c : ℕ} (hc : ∀ a, f a c = none) :
    ∀ (l : List ℕ) (a : α), c ∈ l → l.foldlM f a = none
  | [], _, h => by simp at h
  | d :: l, a, h => by
    rw [List.foldlM_cons]
    by_cases hd : d = c
    · subst hd; rw [hc]; rfl
    · rcases hfa : f a d with _ | a'
      · rfl
      · exact foldlM_none hc l a' (by
          rcases List.mem_cons.mp h with h' | h'
          · exact absurd h'.symm hd
          · exact h')

/-- **C28** (short vectors). If either routing vector has fewer entries than the impulse response has channels, or a
negative entry, or an entry that is not a channel of the block, processing any non-empty block is undefined. -/
theorem C28_short_routing_is_undefined {F : RealFFT} {ir : Buf} {maxB : ℕ} {spec : ConvolverSpec} {g : Garbage}
    {r0 : ℕ → ℕ → ℝ} {c : Convolver} (hc : Convolver.create F ir maxB spec g r0 = some c) {blk : Buf} (hblk : 0 < blk.n)
    (hbad : ¬ ValidRouting spec.inputRouting ir.ch blk.ch ∨ ¬ ValidRouting spec.outputRouting ir.ch blk.ch) :
    c.process F blk = none := by
  -- what construction leaves in the object
  have hobj : c.spec = spec ∧ c.numConv = ir.ch := by
    unfold Convolver.create at hc
    simp only [Option.bind_eq_bind] at hc
    rcases h1 : internalBlockSize Convolver.po2Fuel maxB spec.internalBlockSize with _ | B
    · rw [h1] at hc; cases hc
    · rw [h1] at hc
      simp only [Option.bind_some] at hc
      rcases h2 : NUPC.create F B ir.ch ir g with _ | nu
      · rw [h2] at hc; cases hc
      · rw [h2] at hc
        simp only [Option.bind_some, Option.pure_def, Option.some.injEq] at hc
        subst hc; exact ⟨rfl, rfl⟩
  obtain ⟨hs, hn⟩ := hobj
  -- an entry that is not a channel
  have hroute : ∀ {r : List ℤ}, ¬ ValidRouting r ir.ch blk.ch → ∃ k < ir.ch, ∀ i, Convolver.route r k = some i → blk.ch ≤ i := by
    intro r hr
    unfold ValidRouting at hr
    push Not at hr
    obtain ⟨k, hk, hz⟩ := hr
    refine ⟨k, hk, fun i hi => ?_⟩
    unfold Convolver.route at hi
    rcases hrk : r[k]? with _ | z
    · rw [hrk] at hi; cases hi
    · rw [hrk] at hi
      simp only at hi
      by_cases h0 : 0 ≤ z
      · rw [if_pos h0, Option.some.injEq] at hi
        have := hz z hrk h0
        omega
      · rw [if_neg h0] at hi; cases hi
  have hbody : ∀ s : Convolver, s.spec = spec → s.numConv = ir.ch → ∀ k, s.body F blk 0 k = none := by
    intro s hs hn k
    unfold Convolver.body
    simp only [Option.bind_eq_bind]
    rcases h1 : blk.sub 0 k with _ | out
    · rfl
    have hout : out.ch = blk.ch := by
      unfold Buf.sub at h1
      split at h1
      · rw [Option.some.injEq] at h1; rw [← h1]
      · cases h1
    simp only [Option.bind_some]
    rcases h2 : s.routing.sub 0 k with _ | rs
    · rfl
    simp only [Option.bind_some]
    rw [hn]
    rcases h3 : (List.range ir.ch).foldlM (Convolver.gatherOne s out) rs with _ | rs'
    · rfl
    simp only [Option.bind_some]
    rcases h4 : s.nupc.process F rs' with _ | r
    · rfl
    simp only [Option.bind_some]
    rcases hbad with hbad | hbad
    · -- the input loop cannot have succeeded
      obtain ⟨j, hj, hjr⟩ := hroute hbad
      have : (List.range ir.ch).foldlM (Convolver.gatherOne s out) rs = none := by
        refine foldlM_none (c := j) (fun a => ?_) _ _ (List.mem_range.mpr hj)
        unfold Convolver.gatherOne
        rw [hs]
        rcases h5 : Convolver.route spec.inputRouting j with _ | i
        · rfl
        · have := hjr i h5
          have h6 : out.single i = none := by unfold Buf.single; rw [if_neg (by omega)]
          simp only [Option.bind_eq_bind, Option.bind_some, h6]; rfl
      rw [this] at h3; cases h3
    · obtain ⟨j, hj, hjr⟩ := hroute hbad
      have key : ∀ (l : List ℕ) (a : Buf), a.ch = blk.ch → j ∈ l → l.foldlM (Convolver.scatterOne s r.2) a = none := by
        intro l
        induction l with
        | nil => intro a _ h; simp at h
        | cons d l ih =>
          intro a ha hmem
          rw [List.foldlM_cons]
          by_cases hd : d = j
          · subst hd
            have : Convolver.scatterOne s r.2 a d = none := by
              unfold Convolver.scatterOne
              rw [hs]
              rcases h5 : Convolver.route spec.outputRouting d with _ | i
              · rfl
              · have := hjr i h5
                have h6 : a.single i = none := by unfold Buf.single; rw [if_neg (by omega)]
                simp only [Option.bind_eq_bind, Option.bind_some, h6]; rfl
            rw [this]; rfl
          · rcases hsc : Convolver.scatterOne s r.2 a d with _ | a'
            · rfl
            · refine ih a' ?_ (by
                rcases List.mem_cons.mp hmem with h' | h'
                · exact absurd h'.symm hd
                · exact h')
              unfold Convolver.scatterOne at hsc
              simp only [Option.bind_eq_bind] at hsc
              rcases h5 : Convolver.route s.spec.outputRouting d with _ | i
              · rw [h5] at hsc; cases hsc
              rw [h5] at hsc
              simp only [Option.bind_some] at hsc
              rcases h6 : a.single i with _ | dst
              · rw [h6] at hsc; cases hsc
              rw [h6] at hsc
              simp only [Option.bind_some] at hsc
              rcases h7 : r.2.single d with _ | src
              · rw [h7] at hsc; cases hsc
              rw [h7] at hsc
              simp only [Option.bind_some] at hsc
              rcases h8 : dst.add src with _ | dst'
              · rw [h8] at hsc; cases hsc
              rw [h8] at hsc
              simp only [Option.bind_some, Option.pure_def, Option.some.injEq] at hsc
              rw [← hsc]; exact ha
      rw [key _ out.clear (by show out.ch = _; exact hout) (List.mem_range.mpr hj)]
      rfl
  unfold Convolver.process
  obtain ⟨m, hm⟩ : ∃ m, blk.n = m + 1 := ⟨blk.n - 1, by omega⟩
  rw [hm]
  unfold Convolver.loop
  rw [if_pos (by omega)]
  simp only [Option.bind_eq_bind]
  rw [hbody _ (by exact hs) (by exact hn)]
  rfl

/-- A spec with one routing entry for a two channel response. -/
example : ¬ ValidRouting [0] 2 2 := by
  intro h
  obtain ⟨z, hz, _⟩ := h 1 (by norm_num)
  simp at hz

/-- **C28** (long vectors). Only the first entries (as many as the impulse response has channels) of the routing
vectors matter: two specs that agree on them give the same output. -/
theorem C28_extra_entries_are_ignored {F : RealFFT} (hF : Lawful F) {ir : Buf} {maxB N : ℕ} {spec spec' : ConvolverSpec}
    (h : Usable ir maxB spec N) (hib : spec'.internalBlockSize = spec.internalBlockSize)
    (hi : ∀ k < ir.ch, spec'.inputRouting[k]? = spec.inputRouting[k]?)
    (ho : ∀ k < ir.ch, spec'.outputRouting[k]? = spec.outputRouting[k]?) (g : Garbage) (r0 : ℕ → ℕ → ℝ) :
    ∃ c c', Convolver.create F ir maxB spec g r0 = some c ∧ Convolver.create F ir maxB spec' g r0 = some c' ∧
      ∀ blocks : List Buf, (∀ b ∈ blocks, b.ch = N) →
        ∃ c₁ outs₁ c₂ outs₂, feed (Convolver.process F) c blocks = some (c₁, outs₁) ∧
          feed (Convolver.process F) c' blocks = some (c₂, outs₂) ∧
          ∀ o < N, ∀ n < totalLen blocks, stream outs₁ o n = stream outs₂ o n := by
  have h' : Usable ir maxB spec' N :=
    ⟨h.nonempty, h.size, fun k hk => by rw [hi k hk]; exact h.inputs k hk,
      fun k hk => by rw [ho k hk]; exact h.outputs k hk, by rw [hib]; exact h.blockSize⟩
  obtain ⟨c, e, hc⟩ := usable_create hF h g r0
  obtain ⟨c', e', hc'⟩ := usable_create hF h' g r0
  refine ⟨c, c', e, e', fun blocks hN => ?_⟩
  obtain ⟨c1, o1, e1, _, d1⟩ := feed_of_inv hF h hc blocks hN
  obtain ⟨c2, o2, e2, _, d2⟩ := feed_of_inv hF h' hc' blocks hN
  refine ⟨c1, o1, c2, o2, e1, e2, fun o hoN n hn => ?_⟩
  rw [d1 o hoN n hn, d2 o hoN n hn]
  unfold routedConv
  refine sum_congr rfl fun k hk => ?_
  have hk' := mem_range.mp hk
  have a1 : channelAt spec'.inputRouting k = channelAt spec.inputRouting k := by
    unfold channelAt; rw [List.getD_eq_getElem?_getD, List.getD_eq_getElem?_getD, hi k hk']
  have a2 : channelAt spec'.outputRouting k = channelAt spec.outputRouting k := by
    unfold channelAt; rw [List.getD_eq_getElem?_getD, List.getD_eq_getElem?_getD, ho k hk']
  rw [a1, a2]

example : (∀ k < 2, ([0, 1, 99, -7] : List ℤ)[k]? = ([0, 1] : List ℤ)[k]?) := by
  intro k hk
  rcases (by omega : k = 0 ∨ k = 1) with rfl | rfl <;> rfl

end Zones.Props
