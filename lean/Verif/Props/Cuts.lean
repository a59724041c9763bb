import Verif.Props.FiniteMemory
import Verif.Props.EngineLevel
import Verif.Proofs.RCuts

/-!
# Where the caller's blocks are cut does not change a bit, as long as the pieces inside are the same (C92)

`[Arith]` is arbitrary, except that operations on zeros give zero; of the library's transforms only `HalfSpectrum` is assumed.
-/

open Finset Zones.Spec Zones.Model Zones.Proofs Zones.Proofs.R

namespace Zones.Props

variable [Arith]

section
variable {W B N n0 : ℕ} {ir : Buf} {rest : List Layout} {inR outR : ℕ → ℕ}

def chops (B : ℕ) (blocks : List Buf) : List Buf := blocks.flatMap (chop B)

omit [Arith] in
theorem chops_lens (hB : 0 < B) (blocks : List Buf) : (chops B blocks).map Buf.n = cuts B blocks := by
  unfold chops cuts
  rw [List.map_flatMap]
  congr 1
  funext b
  exact chop_lens hB b

omit [Arith] in
theorem chops_ch {blocks : List Buf} (h : ∀ b ∈ blocks, b.ch = N) : ∀ p ∈ chops B blocks, p.ch = N := by
  intro p hp
  obtain ⟨b, hb, hp⟩ := List.mem_flatMap.mp hp
  rw [chopAux_ch b _ _ p hp, h b hb]

omit [Arith] in
theorem sameShape_of_lens : ∀ {xs ys : List Buf}, xs.map Buf.n = ys.map Buf.n → (∀ b ∈ xs, b.ch = N) → (∀ b ∈ ys, b.ch = N) → SameShape xs ys
  | [], [], _, _, _ => .nil
  | [], _ :: _, h, _, _ => by simp at h
  | _ :: _, [], h, _, _ => by simp at h
  | x :: xs, y :: ys, h, hx, hy => by
    rw [List.map_cons, List.map_cons, List.cons.injEq] at h
    exact .cons ⟨by rw [hx x (List.mem_cons_self ..), hy y (List.mem_cons_self ..)], h.1⟩
      (sameShape_of_lens h.2 (fun b hb => hx b (List.mem_cons_of_mem _ hb)) (fun b hb => hy b (List.mem_cons_of_mem _ hb)))

omit [Arith] in
theorem totalLen_sum (xs : List Buf) : totalLen xs = (xs.map Buf.n).sum := by
  induction xs with
  | nil => rfl
  | cons b bs ih => rw [totalLen, List.map_cons, List.sum_cons, ih]

omit [Arith] in
theorem cut_sum {n : ℕ} : (cut B n).sum = n := by
  unfold cut
  rw [List.sum_append, List.sum_replicate, smul_eq_mul]
  have := Nat.div_add_mod n B
  rw [Nat.mul_comm]
  split
  · next h => rw [List.sum_nil]; omega
  · rw [List.sum_singleton]; omega

omit [Arith] in
theorem cuts_sum (blocks : List Buf) : (cuts B blocks).sum = totalLen blocks := by
  induction blocks with
  | nil => rfl
  | cons b bs ih =>
    unfold cuts at ih ⊢
    rw [List.flatMap_cons, List.sum_append, ih, cut_sum, totalLen]

omit [Arith] in
theorem chops_totalLen (hB : 0 < B) (blocks : List Buf) : totalLen (chops B blocks) = totalLen blocks := by
  rw [totalLen_sum, chops_lens hB, cuts_sum]

omit [Arith] in
theorem chop_totalLen (hB : 0 < B) (b : Buf) : totalLen (chop B b) = b.n := by
  rw [totalLen_sum, chop_lens hB, cut_sum]

omit [Arith] in
theorem chopAux_stream (hB : 0 < B) (b : Buf) (ch : ℕ) : ∀ (fuel done i : ℕ), b.n - done ≤ fuel * B → i < b.n - done →
    stream (chopAux B b fuel done) ch i = b.data ch (done + i)
  | 0, done, i, h, hi => by omega
  | fuel + 1, done, i, h, hi => by
    unfold chopAux
    rw [if_pos (by omega)]
    simp only [stream]
    by_cases h1 : i < min (b.n - done) B
    · rw [if_pos (by exact h1)]; rfl
    · rw [if_neg (by exact h1)]
      show stream _ ch (i - min (b.n - done) B) = _
      rw [chopAux_stream hB b ch fuel _ _ (by rw [Nat.add_mul, one_mul] at h; omega) (by omega)]
      congr 1; omega

omit [Arith] in
theorem chops_stream (hB : 0 < B) (ch : ℕ) : ∀ (blocks : List Buf) (i : ℕ), i < totalLen blocks → stream (chops B blocks) ch i = stream blocks ch i
  | [], i, h => by simp [totalLen] at h
  | b :: bs, i, h => by
    have e : chops B (b :: bs) = chop B b ++ chops B bs := List.flatMap_cons
    rw [e]
    simp only [stream]
    by_cases hi : i < b.n
    · rw [if_pos hi, stream_append_left _ _ (by rw [chop_totalLen hB]; exact hi)]
      have := chopAux_stream hB b ch b.n 0 i (by rw [Nat.sub_zero]; exact Nat.le_mul_of_pos_right _ hB) (by omega)
      rw [zero_add] at this
      exact this
    · rw [if_neg hi]
      have : i = totalLen (chop B b) + (i - b.n) := by rw [chop_totalLen hB]; omega
      conv_lhs => rw [this]
      rw [stream_append_right]
      exact chops_stream hB ch bs _ (by simp only [totalLen] at h; omega)

/-- blocks, and their pieces -/
theorem C3Inv.feed_chops {F : RealFFT} (hF : HalfSpectrum F) {x : ℕ → ℕ → ℝ} (hio : ∀ c < ir.ch, inR c < N ∧ outR c < N) :
    ∀ {blocks : List Buf} {t : ℕ} {s m : Convolver}, C3Inv W ir inR outR B n0 rest x x t s m → (∀ b ∈ blocks, b.ch = N) →
      (∀ ch < N, ∀ i < totalLen blocks, stream blocks ch i = x ch (t + i)) →
      ∃ s1 outs m1 outm, Spec.feed (Convolver.processR F) s blocks = some (s1, outs) ∧ Spec.feed (Convolver.processR F) m (chops B blocks) = some (m1, outm) ∧
        SameShape blocks outs ∧ SameShape (chops B blocks) outm ∧
        (∀ o < N, ∀ i < totalLen blocks, stream outs o i = stream outm o i) ∧
        C3Inv W ir inR outR B n0 rest x x (t + totalLen blocks) s1 m1 := by
  intro blocks
  induction blocks with
  | nil =>
    intro t s m h _ _
    exact ⟨s, [], m, [], rfl, rfl, .nil, .nil, fun o _ i hi => absurd hi (by simp [totalLen]), h⟩
  | cons b bs ih =>
    intro t s m h hN hx
    have hbN := hN b (List.mem_cons_self ..)
    obtain ⟨s1, out, m1, outm, e1, e1', n1, c1, sh1, d1, h1⟩ := h.step_chop hF (blk := b) (by rw [hbN]; exact hio) (by
      intro c hc i hi
      have := hx _ (hio c hc).1 i (by simp only [totalLen]; omega)
      simp only [stream, hi, if_true] at this
      exact this)
    obtain ⟨s2, outs, m2, outm2, e2, e2', sh2, sh2', d2, h2⟩ := ih h1 (fun b' hb' => hN b' (List.mem_cons_of_mem _ hb')) (by
      intro ch hc i hi
      have := hx ch hc (b.n + i) (by simp only [totalLen]; omega)
      simp only [stream] at this
      rw [if_neg (by omega), show b.n + i - b.n = i by omega] at this
      rw [this, add_assoc])
    have hcs : chops B (b :: bs) = chop B b ++ chops B bs := List.flatMap_cons
    have hB := h.base.hB
    have hlen : totalLen outm = b.n := by rw [sameShape_totalLen sh1, chop_totalLen hB]
    refine ⟨s2, out :: outs, m2, outm ++ outm2, ?_, ?_, .cons ⟨c1.symm, n1.symm⟩ sh2, ?_, ?_, ?_⟩
    · unfold Spec.feed
      rw [e1]
      simp only [Option.bind_some, e2, Option.map_some]
    · rw [hcs, feed_append, e1']
      simp only [Option.bind_some, e2', Option.map_some]
    · rw [hcs]
      exact List.rel_append sh1 sh2'
    · intro o ho i hi
      simp only [totalLen] at hi
      simp only [stream, n1]
      by_cases hlt : i < b.n
      · rw [if_pos hlt, stream_append_left _ _ (by rw [hlen]; exact hlt)]
        exact d1 o (by rw [hbN]; exact ho) i hlt
      · rw [if_neg hlt, d2 o ho (i - b.n) (by omega)]
        have : i = totalLen outm + (i - b.n) := by rw [hlen]; omega
        conv_rhs => rw [this]
        rw [stream_append_right]
    · simp only [totalLen]; rw [← add_assoc]; exact h2

/-- two runs, in blocks of different lengths that are cut into the same pieces -/
def Chain (W : ℕ) (ir : Buf) (inR outR : ℕ → ℕ) (B n0 : ℕ) (rest : List Layout) (x x' : ℕ → ℕ → ℝ) (t : ℕ) (s s' : Convolver) : Prop :=
  ∃ m m', C3Inv W ir inR outR B n0 rest x x t s m ∧ C3Inv W ir inR outR B n0 rest x x' t m m' ∧ C3Inv W ir inR outR B n0 rest x' x' t s' m'

theorem Chain.reset (hZ : ExactOnZeros) {x x' : ℕ → ℕ → ℝ} {t : ℕ} {s s' : Convolver} (h : Chain W ir inR outR B n0 rest x x' t s s') (y y' : ℕ → ℕ → ℝ) :
    Chain W ir inR outR B n0 rest y y' 0 s.reset s'.reset := by
  have : ZeroLaws := ⟨hZ.addF, hZ.add, hZ.sub, hZ.mul, hZ.half⟩
  obtain ⟨m, m', h1, h2, h3⟩ := h
  exact ⟨m.reset, m'.reset, h1.reset y y, h2.reset y y', h3.reset y' y'⟩

theorem Chain.feed {F : RealFFT} (hF : HalfSpectrum F) {x x' : ℕ → ℕ → ℝ} (hio : ∀ c < ir.ch, inR c < N ∧ outR c < N)
    {blocks blocks' : List Buf} (hcut : cuts B blocks = cuts B blocks') {t : ℕ} {s s' : Convolver} (h : Chain W ir inR outR B n0 rest x x' t s s')
    (hN : ∀ b ∈ blocks, b.ch = N) (hN' : ∀ b ∈ blocks', b.ch = N)
    (hx : ∀ ch < N, ∀ i < totalLen blocks, stream blocks ch i = x ch (t + i))
    (hx' : ∀ ch < N, ∀ i < totalLen blocks, stream blocks' ch i = x' ch (t + i)) :
    ∃ s1 outs s1' outs', Spec.feed (Convolver.processR F) s blocks = some (s1, outs) ∧ Spec.feed (Convolver.processR F) s' blocks' = some (s1', outs') ∧
      SameShape blocks outs ∧ SameShape blocks' outs' ∧
      (∀ o < N, ∀ i < totalLen blocks, (∀ c < ir.ch, outR c = o → ∀ m, t + i < m + W → m < t + i + B → x (inR c) m = x' (inR c) m) →
        stream outs o i = stream outs' o i) ∧
      Chain W ir inR outR B n0 rest x x' (t + totalLen blocks) s1 s1' := by
  obtain ⟨m, m', h1, h2, h3⟩ := h
  have hB := h1.base.hB
  have hlen : totalLen blocks' = totalLen blocks := by rw [← cuts_sum (B := B), ← hcut, cuts_sum]
  obtain ⟨s1, outs, m1, outm, e1, f1, sh1, shm1, d1, h1'⟩ := C3Inv.feed_chops hF hio h1 hN hx
  obtain ⟨s1', outs', m1', outm', e1', f1', sh1', shm1', d1', h3'⟩ := C3Inv.feed_chops hF hio h3 hN' (by rw [hlen]; exact hx')
  have hshape : SameShape (chops B blocks) (chops B blocks') :=
    sameShape_of_lens (by rw [chops_lens hB, chops_lens hB, hcut]) (chops_ch hN) (chops_ch hN')
  obtain ⟨d, o2, d', o2', g, g', _, _, hd, h2'⟩ := feed_rel2 (process := Convolver.processR F) (N := N)
    (Inv := fun t s s' => C3Inv W ir inR outR B n0 rest x x' t s s')
    (x := x) (x' := x')
    (R := fun o n v v' => (∀ c < ir.ch, outR c = o → ∀ m, n < m + W → m < n + B → x (inR c) m = x' (inR c) m) → v = v')
    (by
      intro t s s' blk blk' hs hch hch' hnn hin hin'
      obtain ⟨s1, b1, s1', b1', e, e', n, cc, n', cc', d, h'⟩ := hs.step hF (blk := blk) (blk' := blk') hnn (by rw [hch, hch'])
        (fun c hc => by rw [hch]; exact hio c hc)
        (fun c hc i hi => hin _ (hio c hc).1 i hi)
        (fun c hc i hi => hin' _ (hio c hc).1 i hi)
      exact ⟨s1, b1, s1', b1', e, e', n, by rw [cc, hch], n', by rw [cc', hch], fun o ho i hi => d o (by rw [hch]; exact ho) i hi, h'⟩)
    hshape t m m' h2 (chops_ch hN)
    (fun ch hc i hi => by
      rw [chops_totalLen hB] at hi
      rw [chops_stream hB ch _ _ hi]; exact hx ch hc i hi)
    (fun ch hc i hi => by
      rw [chops_totalLen hB] at hi
      rw [chops_stream hB ch _ _ (by rw [hlen]; exact hi)]; exact hx' ch hc i hi)
  rw [f1] at g
  rw [f1'] at g'
  cases g
  cases g'
  rw [chops_totalLen hB] at hd h2'
  rw [hlen] at d1' h3'
  exact ⟨s1, outs, s1', outs', e1, e1', sh1, sh1', fun o ho i hi hs => by rw [d1 o ho i hi, d1' o ho i hi]; exact hd o ho i hi hs,
    m1, m1', h1', h2', h3'⟩

omit [Arith] in
theorem history_feed_append {σ : Type} {process : σ → Buf → Option (σ × Buf)} {reset : σ → σ} : ∀ (bs : List Buf) {s s' : σ} {outs : List Buf} (ops : List Op),
    feed process s bs = some (s', outs) → history process reset s (bs.map Op.process ++ ops) = history process reset s' ops
  | [], s, s', outs, ops, h => by
    simp only [feed, Option.some.injEq, Prod.mk.injEq] at h
    rw [h.1]; rfl
  | b :: bs, s, s', outs, ops, h => by
    unfold feed at h
    obtain ⟨r, h1, h⟩ := Option.bind_eq_some_iff.mp h
    obtain ⟨q, h2, h⟩ := Option.map_eq_some_iff.mp h
    cases h
    rw [List.map_cons, List.cons_append, history, h1]
    exact history_feed_append bs ops h2

theorem Chain.history {F : RealFFT} (hZ : ExactOnZeros) (hF : HalfSpectrum F) (hio : ∀ c < ir.ch, inR c < N ∧ outR c < N) {ops ops' : List Op} (hops : SameCuts B ops ops') :
    ∀ {s s' : Convolver}, (∀ x x', Chain W ir inR outR B n0 rest x x' 0 s s') →
    (∀ b, Op.process b ∈ ops → b.ch = N) → (∀ b, Op.process b ∈ ops' → b.ch = N) →
    ∃ u u', Spec.history (Convolver.processR F) Convolver.reset s ops = some u ∧ Spec.history (Convolver.processR F) Convolver.reset s' ops' = some u' ∧
      ∃ x x' t, Chain W ir inR outR B n0 rest x x' t u u' := by
  induction hops with
  | @blocks bs bs' hcut =>
    intro s s' h hN hN'
    obtain ⟨s1, outs, s1', outs', e, e', _, _, _, h'⟩ := (h (stream bs) (stream bs')).feed hF hio hcut
      (fun b hb => hN b (List.mem_map_of_mem hb)) (fun b hb => hN' b (List.mem_map_of_mem hb))
      (fun ch _ i _ => by rw [zero_add]) (fun ch _ i _ => by rw [zero_add])
    exact ⟨s1, s1', feed_history _ _ _ _ e, feed_history _ _ _ _ e', _, _, _, h'⟩
  | @reset bs bs' ops ops' hcut _ ih =>
    intro s s' h hN hN'
    obtain ⟨s1, outs, s1', outs', e, e', _, _, _, h'⟩ := (h (stream bs) (stream bs')).feed hF hio hcut
      (fun b hb => hN b (List.mem_append_left _ (List.mem_map_of_mem hb))) (fun b hb => hN' b (List.mem_append_left _ (List.mem_map_of_mem hb)))
      (fun ch _ i _ => by rw [zero_add]) (fun ch _ i _ => by rw [zero_add])
    obtain ⟨u, u', f, f', h2⟩ := ih (fun y y' => h'.reset hZ y y')
      (fun b hb => hN b (List.mem_append_right _ (List.mem_cons_of_mem _ hb))) (fun b hb => hN' b (List.mem_append_right _ (List.mem_cons_of_mem _ hb)))
    refine ⟨u, u', ?_, ?_, h2⟩
    · rw [history_feed_append _ _ e]; exact f
    · rw [history_feed_append _ _ e']; exact f'

end

variable {F : RealFFT} {ir : Buf} {maxB N L : ℕ} {spec : ConvolverSpec} {B : ℕ} {sch : List Layout}

theorem usable_chain (hZ : ExactOnZeros) (h : Usable ir maxB spec N)
    (hB : internalBlockSize Convolver.po2Fuel maxB spec.internalBlockSize = some B)
    (hsch : getPartitionScheme kGarciaResults B ir.n = some sch)
    (hL : ∀ l ∈ sch, 2 * (l.psb * B) ≤ 2^L) (g g' : Garbage) (r0 r0' : ℕ → ℕ → ℝ) :
    ∃ c c' n0 rest, Convolver.createR F ir maxB spec g r0 = some c ∧ Convolver.createR F ir maxB spec g' r0' = some c' ∧
      ∀ x x', Chain (ir.n + 2^L + B) ir (channelAt spec.inputRouting) (channelAt spec.outputRouting) B n0 rest x x' 0 c c' := by
  obtain ⟨c, c', n0, rest, e, e', rfl, hc⟩ := usable_create2 (hZ.safe L ir) (F := F) h hB hsch hL g g' r0 r0'
  obtain ⟨c2, c2', n2, rest2, f, f', h2, hc2⟩ := usable_create2 (hZ.safe L ir) (F := F) h hB hsch hL g g r0 r0
  obtain ⟨c3, c3', n3, rest3, k, k', h3, hc3⟩ := usable_create2 (hZ.safe L ir) (F := F) h hB hsch hL g' g' r0' r0'
  rw [e] at f f'
  rw [e'] at k k'
  cases f; cases f'; cases k; cases k'; cases h2; cases h3
  exact ⟨c, c', n0, rest, e, e', fun x x' => ⟨c, c', hc2 x x, hc x x', hc3 x' x'⟩⟩

theorem usable_io (h : Usable ir maxB spec N) : ∀ c < ir.ch, channelAt spec.inputRouting c < N ∧ channelAt spec.outputRouting c < N :=
  fun c hc => ⟨(route_of_valid h.inputs c hc).2, (route_of_valid h.outputs c hc).2⟩

/-- **C92.** Where the caller cuts the signal into blocks matters to the bits of the output only through the pieces the blocks are
cut into: `B` samples at a time and a rest, `B` the internal block size.  Two convolvers for the same response, made from memory with
different contents, are fed two signals, in blocks that give the same pieces.  Wherever the signals agree, on the channels routed to an
output, in the `ir.n + 2^L + B` samples before a sample and in the rest of its piece, the outputs agree at that sample exactly —
whatever the arithmetic rounds to. -/
theorem C92_only_the_pieces_matter (hZ : ExactOnZeros) (hF : HalfSpectrum F) (h : Usable ir maxB spec N)
    (hB : internalBlockSize Convolver.po2Fuel maxB spec.internalBlockSize = some B)
    (hsch : getPartitionScheme kGarciaResults B ir.n = some sch)
    (hL : ∀ l ∈ sch, 2 * (l.psb * B) ≤ 2^L) (g g' : Garbage) (r0 r0' : ℕ → ℕ → ℝ) :
    ∃ c c', Convolver.createR F ir maxB spec g r0 = some c ∧ Convolver.createR F ir maxB spec g' r0' = some c' ∧
      ∀ blocks blocks' : List Buf, cuts B blocks = cuts B blocks' → (∀ b ∈ blocks, b.ch = N) → (∀ b ∈ blocks', b.ch = N) →
        ∃ d outs d' outs', feed (Convolver.processR F) c blocks = some (d, outs) ∧ feed (Convolver.processR F) c' blocks' = some (d', outs') ∧
          SameShape blocks outs ∧ SameShape blocks' outs' ∧
          ∀ o < N, ∀ n < totalLen blocks,
            (∀ c < ir.ch, channelAt spec.outputRouting c = o → ∀ m, n < m + (ir.n + 2^L + B) → m < n + B →
              stream blocks (channelAt spec.inputRouting c) m = stream blocks' (channelAt spec.inputRouting c) m) →
            stream outs o n = stream outs' o n := by
  obtain ⟨c, c', n0, rest, e, e', hc⟩ := usable_chain hZ (F := F) h hB hsch hL g g' r0 r0'
  refine ⟨c, c', e, e', fun blocks blocks' hcut hN hN' => ?_⟩
  obtain ⟨d, outs, d', outs', f, f', sh, sh', hd, _⟩ := (hc (stream blocks) (stream blocks')).feed hF (usable_io h) hcut hN hN'
    (fun ch _ i _ => by rw [zero_add]) (fun ch _ i _ => by rw [zero_add])
  refine ⟨d, outs, d', outs', f, f', sh, sh', fun o ho n hn hs => hd o ho n hn ?_⟩
  rw [zero_add]
  exact hs

/-- **C92**, after `Reset`: the two convolvers may have been used before, with calls that give the same pieces between the same
`Reset`s. -/
theorem C92_only_the_pieces_matter_after_reset (hZ : ExactOnZeros) (hF : HalfSpectrum F) (h : Usable ir maxB spec N)
    (hB : internalBlockSize Convolver.po2Fuel maxB spec.internalBlockSize = some B)
    (hsch : getPartitionScheme kGarciaResults B ir.n = some sch)
    (hL : ∀ l ∈ sch, 2 * (l.psb * B) ≤ 2^L) (g g' : Garbage) (r0 r0' : ℕ → ℕ → ℝ) :
    ∃ c c', Convolver.createR F ir maxB spec g r0 = some c ∧ Convolver.createR F ir maxB spec g' r0' = some c' ∧
      ∀ ops ops' : List Op, SameCuts B ops ops' → (∀ b, Op.process b ∈ ops → b.ch = N) → (∀ b, Op.process b ∈ ops' → b.ch = N) →
        ∃ used used', history (Convolver.processR F) Convolver.reset c ops = some used ∧
          history (Convolver.processR F) Convolver.reset c' ops' = some used' ∧
          ∀ blocks blocks' : List Buf, cuts B blocks = cuts B blocks' → (∀ b ∈ blocks, b.ch = N) → (∀ b ∈ blocks', b.ch = N) →
            ∃ d outs d' outs', feed (Convolver.processR F) used.reset blocks = some (d, outs) ∧
              feed (Convolver.processR F) used'.reset blocks' = some (d', outs') ∧
              SameShape blocks outs ∧ SameShape blocks' outs' ∧
              ∀ o < N, ∀ n < totalLen blocks,
                (∀ c < ir.ch, channelAt spec.outputRouting c = o → ∀ m, n < m + (ir.n + 2^L + B) → m < n + B →
                  stream blocks (channelAt spec.inputRouting c) m = stream blocks' (channelAt spec.inputRouting c) m) →
                stream outs o n = stream outs' o n := by
  obtain ⟨c, c', n0, rest, e, e', hc⟩ := usable_chain hZ (F := F) h hB hsch hL g g' r0 r0'
  refine ⟨c, c', e, e', fun ops ops' hops hO hO' => ?_⟩
  obtain ⟨used, used', e1, e1', x, x', t, hi⟩ := Chain.history hZ hF (usable_io h) hops hc hO hO'
  refine ⟨used, used', e1, e1', fun blocks blocks' hcut hN hN' => ?_⟩
  obtain ⟨d, outs, d', outs', f, f', sh, sh', hd, _⟩ := (hi.reset hZ (stream blocks) (stream blocks')).feed hF (usable_io h) hcut hN hN'
    (fun ch _ i _ => by rw [zero_add]) (fun ch _ i _ => by rw [zero_add])
  refine ⟨d, outs, d', outs', f, f', sh, sh', fun o ho n hn hs => hd o ho n hn ?_⟩
  rw [zero_add]
  exact hs

omit [Arith] in
theorem cuts_multiples (hB : 0 < B) : ∀ {blocks : List Buf}, (∀ b ∈ blocks, B ∣ b.n) → cuts B blocks = List.replicate (totalLen blocks / B) B
  | [], _ => by simp [cuts, totalLen]
  | b :: bs, h => by
    have hb := h b (List.mem_cons_self ..)
    have e : cuts B (b :: bs) = cut B b.n ++ cuts B bs := List.flatMap_cons
    rw [e, cuts_multiples hB (fun b hb => h b (List.mem_cons_of_mem _ hb)), totalLen, Nat.add_div_of_dvd_right hb, List.replicate_add]
    congr 1
    unfold cut
    rw [if_pos (Nat.mod_eq_zero_of_dvd hb), List.append_nil]

omit [Arith] in
theorem totalLen_multiples {blocks : List Buf} (h : ∀ b ∈ blocks, B ∣ b.n) : B ∣ totalLen blocks := by
  induction blocks with
  | nil => exact dvd_zero _
  | cons b bs ih => exact dvd_add (h b (List.mem_cons_self ..)) (ih fun b hb => h b (List.mem_cons_of_mem _ hb))

theorem usable_scheme (hZ : ExactOnZeros) (h : Usable ir maxB spec N)
    (hB : internalBlockSize Convolver.po2Fuel maxB spec.internalBlockSize = some B) :
    0 < B ∧ ∃ sch L, getPartitionScheme kGarciaResults B ir.n = some sch ∧ ∀ l ∈ sch, 2 * (l.psb * B) ≤ 2^L := by
  have : ZeroLaws := ⟨hZ.addF, hZ.add, hZ.sub, hZ.mul, hZ.half⟩
  let g : Garbage := ⟨fun _ _ => 0, fun _ _ _ _ => 0, fun _ _ => 0, fun _ _ => 0, fun _ _ => 0⟩
  obtain ⟨_, _, b, n0, rest, _, _, eB, esch, _⟩ := C3Inv.create (E := ⟨fun _ d => d, fun _ d => d⟩) (requested_le h.blockSize) h.nonempty
    h.size (fun c hc => (route_of_valid h.inputs c hc).1) (fun c hc => (route_of_valid h.outputs c hc).1) g g (fun _ _ => 0) (fun _ _ => 0)
  rw [hB] at eB
  have eB' := Option.some.inj eB
  subst eB'
  refine ⟨by positivity, _, ((⟨1, n0⟩ :: rest).map fun l : Layout => 2 * (l.psb * 2^b)).sum, esch, fun l hl => ?_⟩
  exact le_trans (List.single_le_sum (fun _ _ => Nat.zero_le _) _ (List.mem_map_of_mem (f := fun l : Layout => 2 * (l.psb * 2^b)) hl)) Nat.lt_two_pow_self.le

/-- **C92**, for blocks whose lengths are multiples of the internal block size: which multiples they are does not matter to a single
bit.  Two callers who feed the same signal to the same convolver, each in blocks of his own lengths, get the same output, for as
long as both have run. -/
theorem C92_block_lengths_do_not_matter (hZ : ExactOnZeros) (hF : HalfSpectrum F) (h : Usable ir maxB spec N)
    (hB : internalBlockSize Convolver.po2Fuel maxB spec.internalBlockSize = some B) (g : Garbage) (r0 : ℕ → ℕ → ℝ) :
    ∃ c, Convolver.createR F ir maxB spec g r0 = some c ∧
      ∀ blocks blocks' : List Buf, (∀ b ∈ blocks, b.ch = N ∧ B ∣ b.n) → (∀ b ∈ blocks', b.ch = N ∧ B ∣ b.n) →
        (∀ c < ir.ch, ∀ n < min (totalLen blocks) (totalLen blocks'),
          stream blocks (channelAt spec.inputRouting c) n = stream blocks' (channelAt spec.inputRouting c) n) →
        ∃ d outs d' outs', feed (Convolver.processR F) c blocks = some (d, outs) ∧ feed (Convolver.processR F) c blocks' = some (d', outs') ∧
          SameShape blocks outs ∧ SameShape blocks' outs' ∧
          ∀ o < N, ∀ n < min (totalLen blocks) (totalLen blocks'), stream outs o n = stream outs' o n := by
  obtain ⟨hpos, sch, L, hsch, hL⟩ := usable_scheme hZ h hB
  obtain ⟨c, c', e, e', hc⟩ := C92_only_the_pieces_matter hZ hF h hB hsch hL g g r0 r0
  rw [e] at e'
  cases e'
  have main : ∀ blocks blocks' : List Buf, totalLen blocks ≤ totalLen blocks' → (∀ b ∈ blocks, b.ch = N ∧ B ∣ b.n) → (∀ b ∈ blocks', b.ch = N ∧ B ∣ b.n) →
      (∀ c < ir.ch, ∀ n < totalLen blocks, stream blocks (channelAt spec.inputRouting c) n = stream blocks' (channelAt spec.inputRouting c) n) →
      ∃ d outs d' outs', feed (Convolver.processR F) c blocks = some (d, outs) ∧ feed (Convolver.processR F) c blocks' = some (d', outs') ∧
        SameShape blocks outs ∧ SameShape blocks' outs' ∧ ∀ o < N, ∀ n < totalLen blocks, stream outs o n = stream outs' o n := by
    intro blocks blocks' hle hb hb' hs
    set ext : Buf := ⟨N, totalLen blocks' - totalLen blocks, fun ch i => stream blocks' ch (totalLen blocks + i)⟩ with hext
    have hlen : totalLen (blocks ++ [ext]) = totalLen blocks' := by
      rw [totalLen_append]
      simp only [totalLen, hext]
      omega
    have hmul : ∀ b ∈ blocks ++ [ext], B ∣ b.n := by
      intro b hbm
      rcases List.mem_append.mp hbm with hbm | hbm
      · exact (hb b hbm).2
      · rw [List.mem_singleton] at hbm
        subst hbm
        exact Nat.dvd_sub (totalLen_multiples fun b hb1 => (hb' b hb1).2) (totalLen_multiples fun b hb1 => (hb b hb1).2)
    obtain ⟨d, outs, d', outs', f, f', sh, sh', hd⟩ := hc (blocks ++ [ext]) blocks'
      (by rw [cuts_multiples hpos hmul, cuts_multiples hpos (fun b hb1 => (hb' b hb1).2), hlen])
      (by
        intro b hbm
        rcases List.mem_append.mp hbm with hbm | hbm
        · exact (hb b hbm).1
        · rw [List.mem_singleton] at hbm
          subst hbm
          rfl) (fun b hbm => (hb' b hbm).1)
    rw [feed_append] at f
    obtain ⟨⟨d1, outs1⟩, f1, f⟩ := Option.bind_eq_some_iff.mp f
    obtain ⟨⟨d2, outs2⟩, f2, f⟩ := Option.map_eq_some_iff.mp f
    cases f
    obtain ⟨d3, outs3, f4, sh3⟩ : ∃ (d3 : Convolver) (outs3 : List Buf), feed (Convolver.processR F) c blocks = some (d3, outs3) ∧ SameShape blocks outs3 := by
      obtain ⟨d3, outs3, _, _, f4, _, sh3, _⟩ := hc blocks blocks rfl (fun b hbm => (hb b hbm).1) (fun b hbm => (hb b hbm).1)
      exact ⟨d3, outs3, f4, sh3⟩
    rw [f1] at f4
    cases f4
    refine ⟨d1, outs1, d', outs', f1, f', sh3, sh', fun o ho n hn => ?_⟩
    have := hd o ho n (by rw [hlen]; omega) (by
      intro c hc _ m _ _
      by_cases h1 : m < totalLen blocks
      · rw [stream_append_left _ _ h1]
        exact hs c hc m h1
      · obtain ⟨q, rfl⟩ : ∃ q, m = totalLen blocks + q := ⟨m - totalLen blocks, by omega⟩
        rw [stream_append_right]
        simp only [stream, hext]
        by_cases h2 : q < totalLen blocks' - totalLen blocks
        · rw [if_pos h2]
        · rw [if_neg h2, stream_beyond _ _ _ (by omega)])
    rw [stream_append_left _ _ (by rw [sameShape_totalLen sh3]; exact hn)] at this
    exact this
  refine ⟨c, e, fun blocks blocks' hb hb' hs => ?_⟩
  by_cases hle : totalLen blocks ≤ totalLen blocks'
  · rw [Nat.min_eq_left hle] at hs ⊢
    exact main blocks blocks' hle hb hb' hs
  · rw [Nat.min_eq_right (by omega)] at hs ⊢
    obtain ⟨d, outs, d', outs', f, f', sh, sh', hd⟩ := main blocks' blocks (by omega) hb' hb (fun c hc n hn => (hs c hc n hn).symm)
    exact ⟨d', outs', d, outs, f', f, sh', sh, fun o ho n hn => (hd o ho n hn).symm⟩

end Zones.Props
