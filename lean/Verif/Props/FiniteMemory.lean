import Verif.Proofs.RMemConvolver
import Verif.Proofs.RBound
import Verif.Props.Convolver

/-!
# Whatever the arithmetic rounds to, the past is forgotten bit for bit (C91)

`[Arith]` is arbitrary, except that operations on zeros give zero; of the library's transforms only `HalfSpectrum` is assumed.
-/

open Finset Zones.Spec Zones.Model Zones.Proofs Zones.Proofs.R

namespace Zones.Props

variable [Arith]

/-- two runs over sequences of blocks of the same shape -/
theorem feed_rel2 {σ : Type} {process : σ → Buf → Option (σ × Buf)} {Inv : ℕ → σ → σ → Prop} {N : ℕ}
    {x x' : ℕ → ℕ → ℝ} {R : ℕ → ℕ → ℝ → ℝ → Prop}
    (step : ∀ t s s' blk blk', Inv t s s' → blk.ch = N → blk'.ch = N → blk'.n = blk.n → (∀ ch < N, ∀ i < blk.n, blk.data ch i = x ch (t + i)) →
      (∀ ch < N, ∀ i < blk.n, blk'.data ch i = x' ch (t + i)) →
      ∃ s1 b1 s1' b1', process s blk = some (s1, b1) ∧ process s' blk' = some (s1', b1') ∧ b1.n = blk.n ∧ b1.ch = N ∧ b1'.n = blk.n ∧ b1'.ch = N ∧
        (∀ o < N, ∀ i < blk.n, R o (t + i) (b1.data o i) (b1'.data o i)) ∧ Inv (t + blk.n) s1 s1') :
    ∀ {blocks blocks' : List Buf}, SameShape blocks blocks' → ∀ (t : ℕ) (s s' : σ), Inv t s s' → (∀ b ∈ blocks, b.ch = N) →
      (∀ ch < N, ∀ i < totalLen blocks, stream blocks ch i = x ch (t + i)) →
      (∀ ch < N, ∀ i < totalLen blocks, stream blocks' ch i = x' ch (t + i)) →
      ∃ s1 outs s1' outs', feed process s blocks = some (s1, outs) ∧ feed process s' blocks' = some (s1', outs') ∧ SameShape blocks outs ∧
        SameShape blocks' outs' ∧
        (∀ o < N, ∀ i < totalLen blocks, R o (t + i) (stream outs o i) (stream outs' o i)) ∧ Inv (t + totalLen blocks) s1 s1' := by
  intro blocks blocks' hsh
  induction hsh with
  | nil =>
    intro t s s' h _ _ _
    exact ⟨s, [], s', [], rfl, rfl, .nil, .nil, fun o _ i hi => absurd hi (by simp [totalLen]), h⟩
  | @cons b b' bs bs' hb _ ih =>
    intro t s s' h hok hx hx'
    have hbN := hok b (List.mem_cons_self ..)
    obtain ⟨s1, b1, s1', b1', e1, e1', n1, c1, n1', c1', d1, h1⟩ := step t s s' b b' h hbN (by rw [← hb.1, hbN]) hb.2.symm (by
        intro ch hc i hi
        have := hx ch hc i (by simp only [totalLen]; omega)
        simp only [stream, hi, if_true] at this
        exact this) (by
        intro ch hc i hi
        have := hx' ch hc i (by simp only [totalLen]; omega)
        simp only [stream, ← hb.2, hi, if_true] at this
        exact this)
    obtain ⟨s2, outs, s2', outs', e2, e2', sh2, sh2', d2, h2⟩ := ih (t + b.n) s1 s1' h1
      (fun b' hb' => hok b' (List.mem_cons_of_mem _ hb')) (by
        intro ch hc i hi
        have := hx ch hc (b.n + i) (by simp only [totalLen]; omega)
        simp only [stream] at this
        rw [if_neg (by omega), show b.n + i - b.n = i by omega] at this
        rw [this, add_assoc]) (by
        intro ch hc i hi
        have := hx' ch hc (b.n + i) (by simp only [totalLen]; omega)
        simp only [stream, ← hb.2] at this
        rw [if_neg (by omega), show b.n + i - b.n = i by omega] at this
        rw [this, add_assoc])
    refine ⟨s2, b1 :: outs, s2', b1' :: outs', ?_, ?_, ?_, ?_, ?_, ?_⟩
    · unfold feed
      rw [e1]
      simp only [Option.bind_some]
      rw [e2]; rfl
    · unfold feed
      rw [e1']
      simp only [Option.bind_some]
      rw [e2']; rfl
    · exact List.Forall₂.cons ⟨by rw [c1, hbN], n1.symm⟩ sh2
    · exact List.Forall₂.cons ⟨by rw [c1', ← hb.1, hbN], by rw [n1', hb.2]⟩ sh2'
    · intro o ho i hi
      simp only [totalLen] at hi
      simp only [stream, n1, n1']
      by_cases hlt : i < b.n
      · rw [if_pos hlt, if_pos hlt]; exact d1 o ho i hlt
      · rw [if_neg hlt, if_neg hlt]
        have := d2 o ho (i - b.n) (by omega)
        rw [show t + b.n + (i - b.n) = t + i by omega] at this
        exact this
    · simp only [totalLen]; rw [← add_assoc]; exact h2

theorem lead_shape {ops ops' : List Op} (h : List.Forall₂ SameCall ops ops') : SameShape (lead ops) (lead ops') := by
  induction h with
  | nil => exact .nil
  | cons hc _ ih =>
    cases hc with
    | process hb => exact .cons hb ih
    | reset => exact .nil

/-- two histories of the same calls -/
theorem history_rel2 {σ : Type} {process : σ → Buf → Option (σ × Buf)} {reset : σ → σ}
    {Inv : (ℕ → ℕ → ℝ) → (ℕ → ℕ → ℝ) → ℕ → σ → σ → Prop} {N : ℕ}
    (step : ∀ x x' t s s' blk blk', Inv x x' t s s' → blk.ch = N → blk'.ch = N → blk'.n = blk.n →
      (∀ ch < N, ∀ i < blk.n, blk.data ch i = x ch (t + i)) → (∀ ch < N, ∀ i < blk.n, blk'.data ch i = x' ch (t + i)) →
      ∃ s1 b1 s1' b1', process s blk = some (s1, b1) ∧ process s' blk' = some (s1', b1') ∧ Inv x x' (t + blk.n) s1 s1')
    (hreset : ∀ x x' t s s' y y', Inv x x' t s s' → Inv y y' 0 (reset s) (reset s')) :
    ∀ {ops ops' : List Op}, List.Forall₂ SameCall ops ops' → ∀ (x x' : ℕ → ℕ → ℝ) (t : ℕ) (s s' : σ), Inv x x' t s s' →
      (∀ b, Op.process b ∈ ops → b.ch = N) →
      (∀ ch i, i < totalLen (lead ops) → stream (lead ops) ch i = x ch (t + i)) →
      (∀ ch i, i < totalLen (lead ops) → stream (lead ops') ch i = x' ch (t + i)) →
      ∃ s1 s1', history process reset s ops = some s1 ∧ history process reset s' ops' = some s1' ∧ ∃ x x' t, Inv x x' t s1 s1' := by
  intro ops ops' hops
  induction hops with
  | nil => intro x x' t s s' h _ _ _; exact ⟨s, s', rfl, rfl, x, x', t, h⟩
  | @cons a a' ops ops' hc _ ih =>
    intro x x' t s s' h hok hx hx'
    cases hc with
    | @process b b' hb =>
      have hbN := hok b (List.mem_cons_self ..)
      obtain ⟨s1, b1, s1', b1', e1, e1', h1⟩ := step x x' t s s' b b' h hbN (by rw [← hb.1, hbN]) hb.2.symm (by
        intro ch hc i hi
        have := hx ch i (by simp only [lead, totalLen]; omega)
        simp only [lead, stream, hi, if_true] at this
        exact this) (by
        intro ch hc i hi
        have := hx' ch i (by simp only [lead, totalLen]; omega)
        simp only [lead, stream, ← hb.2, hi, if_true] at this
        exact this)
      obtain ⟨s2, s2', e2, e2', h2⟩ := ih x x' (t + b.n) s1 s1' h1 (fun b' hb' => hok b' (List.mem_cons_of_mem _ hb')) (by
          intro ch i hi
          have := hx ch (b.n + i) (by simp only [lead, totalLen]; omega)
          simp only [lead, stream] at this
          rw [if_neg (by omega), show b.n + i - b.n = i by omega] at this
          rw [this, add_assoc]) (by
          intro ch i hi
          have := hx' ch (b.n + i) (by simp only [lead, totalLen]; omega)
          simp only [lead, stream, ← hb.2] at this
          rw [if_neg (by omega), show b.n + i - b.n = i by omega] at this
          rw [this, add_assoc])
      refine ⟨s2, s2', ?_, ?_, h2⟩
      · unfold history; rw [e1]; exact e2
      · unfold history; rw [e1']; exact e2'
    | reset =>
      exact ih (stream (lead ops)) (stream (lead ops')) 0 (reset s) (reset s') (hreset _ _ _ _ _ _ _ h)
        (fun b' hb' => hok b' (List.mem_cons_of_mem _ hb')) (fun ch i _ => by rw [zero_add]) (fun ch i _ => by rw [zero_add])

theorem _root_.Zones.Spec.ExactOnZeros.safe (hZ : ExactOnZeros) (L : ℕ) (ir : Buf) : ZeroSafe L ir :=
  ZeroLaws.safe ⟨hZ.addF, hZ.add, hZ.sub, hZ.mul, hZ.half⟩ L ir

/-- construction of the pair -/
theorem usable_create2 {F : RealFFT} {ir : Buf} {maxB N L : ℕ} (hZ : ZeroSafe L ir)
    {spec : ConvolverSpec} (h : Usable ir maxB spec N) {B : ℕ} {sch : List Layout}
    (hB : internalBlockSize Convolver.po2Fuel maxB spec.internalBlockSize = some B)
    (hsch : getPartitionScheme kGarciaResults B ir.n = some sch)
    (hL : ∀ l ∈ sch, 2 * (l.psb * B) ≤ 2^L) (g g' : Garbage) (r0 r0' : ℕ → ℕ → ℝ) :
    ∃ c c' n0 rest, Convolver.createR F ir maxB spec g r0 = some c ∧ Convolver.createR F ir maxB spec g' r0' = some c' ∧ sch = ⟨1, n0⟩ :: rest ∧
      ∀ x x', C3Inv (ir.n + 2^L + B) ir (channelAt spec.inputRouting) (channelAt spec.outputRouting) B n0 rest x x' 0 c c' := by
  have := hZ.base
  obtain ⟨c, c', b, n0, rest, e, e', eB, esch, hgood, hn0, hc⟩ := C3Inv.create (E := F) (requested_le h.blockSize) h.nonempty
    h.size (fun c hc => (route_of_valid h.inputs c hc).1) (fun c hc => (route_of_valid h.outputs c hc).1) g g' r0 r0'
  rw [hB] at eB
  have eB' := Option.some.inj eB
  subst eB'
  rw [hsch] at esch
  have esch' := Option.some.inj esch
  subst esch'
  refine ⟨c, c', n0, rest, e, e', rfl, hc _ ?_ ?_ ?_⟩
  · have := hL ⟨1, n0⟩ (List.mem_cons_self ..)
    rw [one_mul] at this
    exact first_win this
  · rw [Nat.log_pow (by norm_num)]
    exact specs_win rest _ hgood (fun l hl => hL l (List.mem_cons_of_mem _ hl))
  · rw [Nat.log_pow (by norm_num)]
    exact specs_zero hZ rest _ hgood (fun l hl => hL l (List.mem_cons_of_mem _ hl))

theorem C3Inv.feed {F : RealFFT} (hF : HalfSpectrum F) {ir : Buf} {maxB N W : ℕ} {spec : ConvolverSpec}
    (h : Usable ir maxB spec N) {c c' : Convolver} {n0 B : ℕ} {rest : List Layout}
    (hc : ∀ x x', C3Inv W ir (channelAt spec.inputRouting) (channelAt spec.outputRouting) B n0 rest x x' 0 c c') {blocks blocks' : List Buf}
    (hsh : SameShape blocks blocks') (hN : ∀ b ∈ blocks, b.ch = N) :
    ∃ d outs d' outs', Spec.feed (Convolver.processR F) c blocks = some (d, outs) ∧ Spec.feed (Convolver.processR F) c' blocks' = some (d', outs') ∧
      SameShape blocks outs ∧ SameShape blocks' outs' ∧
      ∀ o < N, ∀ n < totalLen blocks,
        (∀ c < ir.ch, channelAt spec.outputRouting c = o → ∀ m, n < m + W → m < n + B →
          stream blocks (channelAt spec.inputRouting c) m = stream blocks' (channelAt spec.inputRouting c) m) →
        stream outs o n = stream outs' o n := by
  obtain ⟨d, outs, d', outs', e, e', sh, sh', hd, _⟩ := feed_rel2 (process := Convolver.processR F) (N := N)
    (Inv := fun t s s' => C3Inv W ir (channelAt spec.inputRouting) (channelAt spec.outputRouting) B n0 rest (stream blocks) (stream blocks') t s s')
    (x := stream blocks) (x' := stream blocks')
    (R := fun o n v v' => (∀ c < ir.ch, channelAt spec.outputRouting c = o → ∀ m, n < m + W → m < n + B →
          stream blocks (channelAt spec.inputRouting c) m = stream blocks' (channelAt spec.inputRouting c) m) → v = v')
    (by
      intro t s s' blk blk' hs hch hch' hnn hin hin'
      obtain ⟨s1, b1, s1', b1', e, e', n, cc, n', cc', d, h'⟩ := hs.step hF (blk := blk) (blk' := blk') hnn (by rw [hch, hch'])
        (fun c hc => ⟨by rw [hch]; exact (route_of_valid h.inputs c hc).2,
          by rw [hch]; exact (route_of_valid h.outputs c hc).2⟩)
        (fun c hc i hi => hin _ (route_of_valid h.inputs c hc).2 i hi)
        (fun c hc i hi => hin' _ (route_of_valid h.inputs c hc).2 i hi)
      exact ⟨s1, b1, s1', b1', e, e', n, by rw [cc, hch], n', by rw [cc', hch], fun o ho i hi => d o (by rw [hch]; exact ho) i hi, h'⟩)
    hsh 0 c c' (hc _ _) hN (fun ch _ i _ => by rw [zero_add]) (fun ch _ i _ => by rw [zero_add])
  refine ⟨d, outs, d', outs', e, e', sh, sh', fun o ho n hn => ?_⟩
  have := hd o ho n hn
  rw [zero_add] at this
  exact this

theorem memory_is_finite {F : RealFFT} (hF : HalfSpectrum F) {ir : Buf} {maxB N L : ℕ} (hZ : ZeroSafe L ir)
    {spec : ConvolverSpec} (h : Usable ir maxB spec N) {B : ℕ} {sch : List Layout}
    (hB : internalBlockSize Convolver.po2Fuel maxB spec.internalBlockSize = some B)
    (hsch : getPartitionScheme kGarciaResults B ir.n = some sch)
    (hL : ∀ l ∈ sch, 2 * (l.psb * B) ≤ 2^L) (g g' : Garbage) (r0 r0' : ℕ → ℕ → ℝ) :
    ∃ c c', Convolver.createR F ir maxB spec g r0 = some c ∧ Convolver.createR F ir maxB spec g' r0' = some c' ∧
      ∀ blocks blocks' : List Buf, SameShape blocks blocks' → (∀ b ∈ blocks, b.ch = N) →
        ∃ d outs d' outs', feed (Convolver.processR F) c blocks = some (d, outs) ∧ feed (Convolver.processR F) c' blocks' = some (d', outs') ∧
          SameShape blocks outs ∧ SameShape blocks' outs' ∧
          ∀ o < N, ∀ n < totalLen blocks,
            (∀ c < ir.ch, channelAt spec.outputRouting c = o → ∀ m, n < m + (ir.n + 2^L + B) → m < n + B →
              stream blocks (channelAt spec.inputRouting c) m = stream blocks' (channelAt spec.inputRouting c) m) →
            stream outs o n = stream outs' o n := by
  obtain ⟨c, c', n0, rest, e, e', _, hc⟩ := usable_create2 hZ (F := F) h hB hsch hL g g' r0 r0'
  exact ⟨c, c', e, e', fun blocks blocks' hsh hN => C3Inv.feed hF h hc hsh hN⟩

theorem memory_is_finite_after_reset {F : RealFFT} (hF : HalfSpectrum F) {ir : Buf} {maxB N L : ℕ} (hZ : ZeroSafe L ir)
    {spec : ConvolverSpec} (h : Usable ir maxB spec N) {B : ℕ} {sch : List Layout}
    (hB : internalBlockSize Convolver.po2Fuel maxB spec.internalBlockSize = some B)
    (hsch : getPartitionScheme kGarciaResults B ir.n = some sch)
    (hL : ∀ l ∈ sch, 2 * (l.psb * B) ≤ 2^L) (g g' : Garbage) (r0 r0' : ℕ → ℕ → ℝ) :
    ∃ c c', Convolver.createR F ir maxB spec g r0 = some c ∧ Convolver.createR F ir maxB spec g' r0' = some c' ∧
      ∀ ops ops' : List Op, List.Forall₂ SameCall ops ops' → (∀ b, Op.process b ∈ ops → b.ch = N) →
        ∃ used used', history (Convolver.processR F) Convolver.reset c ops = some used ∧
          history (Convolver.processR F) Convolver.reset c' ops' = some used' ∧
          ∀ blocks blocks' : List Buf, SameShape blocks blocks' → (∀ b ∈ blocks, b.ch = N) →
            ∃ d outs d' outs', feed (Convolver.processR F) used.reset blocks = some (d, outs) ∧
              feed (Convolver.processR F) used'.reset blocks' = some (d', outs') ∧
              SameShape blocks outs ∧ SameShape blocks' outs' ∧
              ∀ o < N, ∀ n < totalLen blocks,
                (∀ c < ir.ch, channelAt spec.outputRouting c = o → ∀ m, n < m + (ir.n + 2^L + B) → m < n + B →
                  stream blocks (channelAt spec.inputRouting c) m = stream blocks' (channelAt spec.inputRouting c) m) →
                stream outs o n = stream outs' o n := by
  have := hZ.base
  obtain ⟨c, c', n0, rest, e, e', _, hc⟩ := usable_create2 hZ (F := F) h hB hsch hL g g' r0 r0'
  refine ⟨c, c', e, e', fun ops ops' hops hN => ?_⟩
  obtain ⟨used, used', e1, e1', x, x', t, hi⟩ := history_rel2 (process := Convolver.processR F) (reset := Convolver.reset) (N := N)
    (Inv := fun x x' t s s' => C3Inv (ir.n + 2^L + B) ir (channelAt spec.inputRouting) (channelAt spec.outputRouting) B n0 rest x x' t s s') (by
      intro x x' t s s' blk blk' hs hch hch' hnn hin hin'
      obtain ⟨s1, b1, s1', b1', e, e', _, _, _, _, _, h'⟩ := hs.step hF (blk := blk) (blk' := blk') hnn (by rw [hch, hch'])
        (fun c hc => ⟨by rw [hch]; exact (route_of_valid h.inputs c hc).2,
          by rw [hch]; exact (route_of_valid h.outputs c hc).2⟩)
        (fun c hc i hi => hin _ (route_of_valid h.inputs c hc).2 i hi)
        (fun c hc i hi => hin' _ (route_of_valid h.inputs c hc).2 i hi)
      exact ⟨s1, b1, s1', b1', e, e', h'⟩)
    (fun x x' t s s' y y' hs => hs.reset y y') hops (stream (lead ops)) (stream (lead ops')) 0 c c' (hc _ _) hN
    (fun ch i _ => by rw [zero_add]) (fun ch i _ => by rw [zero_add])
  exact ⟨used, used', e1, e1', fun blocks blocks' hsh hN => C3Inv.feed hF h (fun y y' => hi.reset y y') hsh hN⟩

/-- **C91.** An output sample depends, to the last bit, on nothing but the recent input.  Two convolvers for the same response, made
from memory with different contents, are fed two signals in blocks of the same shape.  Wherever the signals agree, on the channels
routed to an output, in the `ir.n + 2^L + B` samples before a sample and in the rest of its block, the two outputs agree at that
sample exactly — whatever the arithmetic rounds to, and however different the signals were before. -/
theorem C91_memory_is_finite (hZ : ExactOnZeros) {F : RealFFT} (hF : HalfSpectrum F) {ir : Buf} {maxB N L : ℕ}
    {spec : ConvolverSpec} (h : Usable ir maxB spec N) {B : ℕ} {sch : List Layout}
    (hB : internalBlockSize Convolver.po2Fuel maxB spec.internalBlockSize = some B)
    (hsch : getPartitionScheme kGarciaResults B ir.n = some sch)
    (hL : ∀ l ∈ sch, 2 * (l.psb * B) ≤ 2^L) (g g' : Garbage) (r0 r0' : ℕ → ℕ → ℝ) :
    ∃ c c', Convolver.createR F ir maxB spec g r0 = some c ∧ Convolver.createR F ir maxB spec g' r0' = some c' ∧
      ∀ blocks blocks' : List Buf, SameShape blocks blocks' → (∀ b ∈ blocks, b.ch = N) →
        ∃ d outs d' outs', feed (Convolver.processR F) c blocks = some (d, outs) ∧ feed (Convolver.processR F) c' blocks' = some (d', outs') ∧
          SameShape blocks outs ∧ SameShape blocks' outs' ∧
          ∀ o < N, ∀ n < totalLen blocks,
            (∀ c < ir.ch, channelAt spec.outputRouting c = o → ∀ m, n < m + (ir.n + 2^L + B) → m < n + B →
              stream blocks (channelAt spec.inputRouting c) m = stream blocks' (channelAt spec.inputRouting c) m) →
            stream outs o n = stream outs' o n :=
  memory_is_finite hF (hZ.safe L ir) h hB hsch hL g g' r0 r0'

/-- **C91**, after `Reset`: the two convolvers may have been used before, with the same sequence of calls on blocks of the same
shape but with any contents.  (The shapes matter: `Reset` keeps the phase in which the sub convolvers are.) -/
theorem C91_memory_is_finite_after_reset (hZ : ExactOnZeros) {F : RealFFT} (hF : HalfSpectrum F) {ir : Buf} {maxB N L : ℕ}
    {spec : ConvolverSpec} (h : Usable ir maxB spec N) {B : ℕ} {sch : List Layout}
    (hB : internalBlockSize Convolver.po2Fuel maxB spec.internalBlockSize = some B)
    (hsch : getPartitionScheme kGarciaResults B ir.n = some sch)
    (hL : ∀ l ∈ sch, 2 * (l.psb * B) ≤ 2^L) (g g' : Garbage) (r0 r0' : ℕ → ℕ → ℝ) :
    ∃ c c', Convolver.createR F ir maxB spec g r0 = some c ∧ Convolver.createR F ir maxB spec g' r0' = some c' ∧
      ∀ ops ops' : List Op, List.Forall₂ SameCall ops ops' → (∀ b, Op.process b ∈ ops → b.ch = N) →
        ∃ used used', history (Convolver.processR F) Convolver.reset c ops = some used ∧
          history (Convolver.processR F) Convolver.reset c' ops' = some used' ∧
          ∀ blocks blocks' : List Buf, SameShape blocks blocks' → (∀ b ∈ blocks, b.ch = N) →
            ∃ d outs d' outs', feed (Convolver.processR F) used.reset blocks = some (d, outs) ∧
              feed (Convolver.processR F) used'.reset blocks' = some (d', outs') ∧
              SameShape blocks outs ∧ SameShape blocks' outs' ∧
              ∀ o < N, ∀ n < totalLen blocks,
                (∀ c < ir.ch, channelAt spec.outputRouting c = o → ∀ m, n < m + (ir.n + 2^L + B) → m < n + B →
                  stream blocks (channelAt spec.inputRouting c) m = stream blocks' (channelAt spec.inputRouting c) m) →
                stream outs o n = stream outs' o n :=
  memory_is_finite_after_reset hF (hZ.safe L ir) h hB hsch hL g g' r0 r0'

end Zones.Props
