import Verif.Props.Convolver
import Verif.Props.SubConvolvers
import Verif.Proofs.Work

/-!
# C50: the amount of work of a `Process` call

See `Verif/Spec/Work.lean` for the programs with limits.
-/

open Zones.Spec Zones.Model Zones.Proofs

namespace Zones.Props

theorem upc_inStep {c : UPar} {x : ℕ → ℕ → ℝ} {t : ℕ} {s : UPC} (h : UInv c x t s) : s.partSize = c.B ∧ s.collected = t % c.B ∧ 0 < c.B := by
  obtain ⟨_, _, _, rep⟩ := h.rep
  exact ⟨rep.partSize, rep.col, rep.hB⟩

theorem nupc_inStep {c : NPar} {x : ℕ → ℕ → ℝ} {t : ℕ} {s : NUPC} (h : NInv c x t s) : InStep s ∧ s.blockSize = c.B ∧ s.collected = t % c.B := by
  obtain ⟨h1, h2, h3⟩ := upc_inStep h.upc
  have h3 : 0 < c.B := h3
  exact ⟨⟨by rw [h.col, h.blockSize]; exact Nat.mod_lt _ h3, by rw [h1, h.blockSize], by rw [h2, h.col]⟩, h.blockSize, h.col⟩

/-- **C50.** A call of `Convolver::Process` with `n` samples makes at most `⌈n / B⌉` passes of its loop (`B` the internal block size, C27), each with at
most two passes of the partition loop of `TimeDistributedNUPC`, each of these with at most one pass of the uniform convolver and one step of every time-distributed
sub convolver: whatever was processed before, in whatever block sizes. -/
theorem C50_convolver_passes {F : RealFFT} (hF : Lawful F) {ir : Buf} {maxB N : ℕ} {spec : ConvolverSpec} (h : Usable ir maxB spec N) (g : Garbage) (r0 : ℕ → ℕ → ℝ) :
    ∃ c, Convolver.create F ir maxB spec g r0 = some c ∧
      ∀ (ops : List Op) (blk : Buf), (∀ b, Op.process b ∈ ops → b.ch = N) → blk.ch = N →
        ∃ used r, history (Convolver.process F) Convolver.reset c ops = some used ∧ Convolver.process F used blk = some r ∧
          ∀ B m, internalBlockSize 64 maxB spec.internalBlockSize = some B → blk.n ≤ m * B →
            convolverWithin F m { used with routing := used.routing.clear } blk 0 = some r := by
  obtain ⟨c, e, hc⟩ := usable_create hF h g r0
  refine ⟨c, e, fun ops blk hops hblk => ?_⟩
  have hio : ∀ b : Buf, b.ch = N → ∀ k < ir.ch, channelAt spec.inputRouting k < b.ch ∧ channelAt spec.outputRouting k < b.ch := fun b hb k hk =>
    ⟨by rw [hb]; exact (route_of_valid h.inputs k hk).2, by rw [hb]; exact (route_of_valid h.outputs k hk).2⟩
  obtain ⟨used, e1, x, ⟨hu, hB⟩, hx⟩ := history_then (process := Convolver.process F) (reset := Convolver.reset) (N := N)
    (Inv := fun x t s => CInv ir (channelAt spec.inputRouting) (channelAt spec.outputRouting) x t s ∧ s.blockSize = c.blockSize) (by
      rintro x t s b ⟨hs, hb⟩ hch hin
      obtain ⟨s', blk', e', _, _, k1, _, h'⟩ := hs.clearRouting.loop hF b.n (blk := b) (done := 0) (by omega) (hio b hch)
        (by
          have := hs.hB
          show b.n - 0 ≤ b.n * s.blockSize
          exact Nat.le_mul_of_pos_right _ this)
        (by intro k hk i hi; rw [zero_add]; exact hin _ (route_of_valid h.inputs k hk).2 i hi)
      exact ⟨s', blk', e', h', k1.trans hb⟩)
    (fun x t s x' hs => ⟨hs.1.reset x', hs.2⟩) blk ops (stream (lead (ops ++ [.process blk]))) 0 c ⟨hc _, rfl⟩ hops (fun ch i _ => by rw [zero_add])
  obtain ⟨s', blk', e2, _⟩ := hu.step hF (blk := blk) (hio blk hblk) (fun k hk i hi => hx _ i hi)
  refine ⟨used, (s', blk'), e1, e2, fun B m hBm hm => ?_⟩
  obtain ⟨n0, rest, hn, _⟩ := hu.nupc
  obtain ⟨i1, i2, _⟩ := nupc_inStep hn
  have hcB : c.blockSize = B := by
    unfold Convolver.create Convolver.po2Fuel at e
    rw [hBm] at e
    simp only [bind, Option.bind_some, Option.bind_eq_some_iff, pure, Option.some.injEq] at e
    obtain ⟨_, _, rfl⟩ := e
    rfl
  refine convolver_passes blk.n m e2 i1 i2 (Nat.zero_le _) fun _ => ?_
  show blk.n - 0 ≤ m * used.blockSize
  rw [hB, hcB]; exact hm

/-- **C50.** Used on its own, `UniformPartitionedConvolver` makes at most `(c + n) / B` passes, rounded up, for `n` samples, where `c` is the number of samples since
the last full partition (counted from the last `Reset`). -/
theorem C50_uniform_passes {F : RealFFT} (hF : Lawful F) {B nch : ℕ} (hB : 0 < B) (hB' : B ≤ 2^24) {ir : Buf} (hn : 0 < ir.n) (hn' : ir.n ≤ 2^24) (hch : 0 < ir.ch)
    (ring0 : ℕ → ℕ → ℝ) :
    ∃ u, UPC.create F B nch ir ring0 = some u ∧
      ∀ (ops : List Op) (blk : Buf), (∀ b, Op.process b ∈ ops → b.ch = nch) → blk.ch = nch →
        ∃ used r, history (UPC.process F) UPC.reset u ops = some used ∧ UPC.process F used blk = some r ∧
          ∀ m, samplesSinceReset 0 ops % B + blk.n ≤ m * B → UPC.loop F m used blk 0 = some r := by
  obtain ⟨u, e, hu⟩ := UInv.create hF (nch := nch) hB hB' hn hn' (fun _ => hch) ring0
  refine ⟨u, e, fun ops blk hops hblk => ?_⟩
  obtain ⟨used, e1, x, h, hx⟩ := history_then (process := UPC.process F) (reset := UPC.reset) (N := nch) (Inv := UInv (uPar B nch ir))
    (fun x t s b hs hch hin => by
      obtain ⟨s', blk', e, _, _, _, h'⟩ := upc_step hF hB x t s b hs trivial hch hin
      exact ⟨s', blk', e, h'⟩)
    (fun x t s x' hs => hs.reset x') blk ops (stream (lead (ops ++ [.process blk]))) 0 u (hu _) hops (fun ch i _ => by rw [zero_add])
  obtain ⟨s', blk', e2, _⟩ := upc_step hF hB x _ used blk h trivial hblk (fun ch _ i hi => hx ch i hi)
  obtain ⟨p1, p2, _⟩ := upc_inStep h
  refine ⟨used, (s', blk'), e1, e2, fun m hm => ?_⟩
  have p1 : used.partSize = B := p1
  have p2 : used.collected = samplesSinceReset 0 ops % B := p2
  refine (upc_passes blk.n m e2 (by rw [p1, p2]; exact Nat.mod_lt _ hB) (Nat.zero_le _) fun _ => ?_).1
  rw [p1, p2, Nat.sub_zero, add_comm]; exact hm

/-- **C50.** The same for `TimeDistributedNUPC`; each pass contains at most one pass of the uniform convolver and one step of every sub convolver. -/
theorem C50_nonuniform_passes {F : RealFFT} (hF : Lawful F) {B nch : ℕ} (hB : 0 < B) (hB' : B ≤ 2^24) {ir : Buf} (hn : 0 < ir.n) (hn' : ir.n ≤ 2^24) (hch : 0 < ir.ch)
    (g : Garbage) :
    ∃ s, NUPC.create F B nch ir g = some s ∧
      ∀ (ops : List Op) (blk : Buf), (∀ b, Op.process b ∈ ops → b.ch = nch) → blk.ch = nch →
        ∃ used r, history (NUPC.process F) NUPC.reset s ops = some used ∧ NUPC.process F used blk = some r ∧
          ∀ m, samplesSinceReset 0 ops % B + blk.n ≤ m * B → nupcWithin F m used blk 0 = some r := by
  obtain ⟨s, n0, rest, e, h0, hid⟩ := NInv.create hF (nch := nch) hB hB' hn hn' (fun _ => hch) g
  refine ⟨s, e, fun ops blk hops hblk => ?_⟩
  obtain ⟨used, e1, x, h, hx⟩ := history_then (process := NUPC.process F) (reset := NUPC.reset) (N := nch) (Inv := NInv (nPar B nch ir n0 rest))
    (fun x t s b hs hch hin => by
      obtain ⟨s', blk', e, _, _, _, h'⟩ := hs.step hF hB (blk := b) hch hin
      exact ⟨s', blk', e, h'⟩)
    (fun x t s x' hs => hs.reset hB x') blk ops (stream (lead (ops ++ [.process blk]))) 0 s (h0 _) hops (fun ch i _ => by rw [zero_add])
  obtain ⟨s', blk', e2, _⟩ := h.step hF hB (blk := blk) hblk (fun ch _ i hi => hx ch i hi)
  obtain ⟨p1, p2, p3⟩ := nupc_inStep h
  refine ⟨used, (s', blk'), e1, e2, fun m hm => ?_⟩
  have p2 : used.blockSize = B := p2
  have p3 : used.collected = samplesSinceReset 0 ops % B := p3
  refine (nupc_passes blk.n m e2 p1 (Nat.zero_le _) fun _ => ?_).1
  rw [p2, p3, Nat.sub_zero, add_comm]; exact hm

/-- A case: 480 samples to a convolver with internal block size 64, in the middle of a block: 8 passes. -/
example : ∃ c, Convolver.create referenceFFT exampleIR 64 exampleSpec ⟨fun _ _ => 7, fun _ _ _ _ => 7, fun _ _ => 7, fun _ _ => 7, fun _ _ => 7⟩ (fun _ _ => 7) = some c ∧
    ∃ used r, history (Convolver.process referenceFFT) Convolver.reset c [.process ⟨2, 17, fun _ _ => 1⟩] = some used ∧
      Convolver.process referenceFFT used ⟨2, 480, fun _ i => i⟩ = some r ∧
      convolverWithin referenceFFT 8 { used with routing := used.routing.clear } ⟨2, 480, fun _ i => i⟩ 0 = some r := by
  obtain ⟨c, e, h⟩ := C50_convolver_passes referenceFFT_lawful exampleUsable ⟨fun _ _ => 7, fun _ _ _ _ => 7, fun _ _ => 7, fun _ _ => 7, fun _ _ => 7⟩ (fun _ _ => 7)
  obtain ⟨used, r, e1, e2, h2⟩ := h [.process ⟨2, 17, fun _ _ => 1⟩] ⟨2, 480, fun _ i => i⟩ (by
    intro b hb
    simp only [List.mem_cons, Op.process.injEq, List.not_mem_nil, or_false] at hb
    subst hb; rfl) rfl
  exact ⟨c, e, used, r, e1, e2, h2 64 8 (by decide) (by norm_num)⟩

end Zones.Props
