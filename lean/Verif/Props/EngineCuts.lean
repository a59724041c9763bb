import Verif.Proofs.EngineCuts
import Verif.Props.Cuts
import Verif.Props.EngineBits

/-!
# Block lengths that give the same pieces do not change a bit of the engine's output, also while it fades (C105)

`[Arith]` and the arithmetic `A` of the fades are arbitrary, except that operations on zeros give zero and gains of 0 and 1 are exact; of the library's transforms only `HalfSpectrum` is assumed.
-/

open Zones.Spec Zones.Model Zones.Proofs Zones.Proofs.R

namespace Zones.Props

variable [Arith]

/-! ## The samples of a convolver's output -/

/-- 0, or a sum as the convolver computes it. -/
def IsSum (a : ℝ) : Prop := a = 0 ∨ ∃ x y, a = Arith.addF x y

theorem scatter_sums {s : Convolver} {rs : Buf} : ∀ (l : List ℕ) {out out' : Buf}, l.foldlM (Convolver.scatterOneR s rs) out = some out' →
    (∀ ch < out.ch, ∀ i < out.n, IsSum (out.data ch i)) → out'.ch = out.ch ∧ out'.n = out.n ∧ ∀ ch < out.ch, ∀ i < out.n, IsSum (out'.data ch i)
  | [], out, out', h, hs => by
    cases h
    exact ⟨rfl, rfl, hs⟩
  | c :: l, out, out', h, hs => by
    rw [List.foldlM_cons] at h
    obtain ⟨mid, h1, h2⟩ := Option.bind_eq_some_iff.mp h
    unfold Convolver.scatterOneR at h1
    simp only [Option.bind_eq_bind, Option.bind_eq_some_iff] at h1
    obtain ⟨o, _, dst, hd, src, hsrc, sum, hsum, h1⟩ := h1
    cases h1
    unfold Buf.single at hd hsrc
    split at hd
    swap
    · cases hd
    next ho =>
    cases hd
    unfold Buf.addR at hsum
    split at hsum
    swap
    · cases hsum
    cases hsum
    obtain ⟨a1, a2, a3⟩ := scatter_sums l h2 (by
      intro ch hc i hi
      show IsSum (if ch = o ∧ i < out.n then _ else out.data ch i)
      split
      · show IsSum (if _ then _ else _)
        split
        · exact .inr ⟨_, _, rfl⟩
        · exact hs o ho i hi
      · exact hs ch hc i hi)
    exact ⟨a1, a2, a3⟩

theorem loop_sums {F : RealFFT} : ∀ (fuel : ℕ) {s s' : Convolver} {blk blk' : Buf} {done : ℕ}, Convolver.loopR F fuel s blk done = some (s', blk') →
    (∀ ch < blk.ch, ∀ i < done, i < blk.n → IsSum (blk.data ch i)) → blk'.ch = blk.ch ∧ blk'.n = blk.n ∧ ∀ ch < blk.ch, ∀ i < blk.n, IsSum (blk'.data ch i)
  | 0, s, s', blk, blk', done, h, hs => by
    unfold Convolver.loopR at h
    split at h
    · cases h
    · cases h; exact ⟨rfl, rfl, fun ch hc i hi => hs ch hc i (by omega) hi⟩
  | fuel + 1, s, s', blk, blk', done, h, hs => by
    unfold Convolver.loopR at h
    split at h
    · simp only [Option.bind_eq_bind] at h
      obtain ⟨r, hb, h⟩ := Option.bind_eq_some_iff.mp h
      unfold Convolver.bodyR at hb
      simp only [Option.bind_eq_bind, Option.bind_eq_some_iff] at hb
      obtain ⟨sub, hsub, _, _, _, _, r', _, out, hout, hb⟩ := hb
      cases hb
      unfold Buf.sub at hsub
      split at hsub
      swap
      · cases hsub
      cases hsub
      obtain ⟨a1, a2, a3⟩ := scatter_sums _ hout (fun ch hc i hi => by
        show IsSum (if _ then _ else _)
        rw [if_pos ⟨hc, hi⟩]
        exact .inl rfl)
      refine loop_sums (blk := blk.put done out) fuel h ?_
      intro ch hc i hi hn
      show IsSum (if ch < blk.ch ∧ done ≤ i ∧ i < done + out.n then out.data ch (i - done) else blk.data ch i)
      rw [show out.n = min (blk.n - done) s.blockSize from a2]
      by_cases hd : i < done
      · rw [if_neg (by omega)]
        exact hs ch hc i hd hn
      · rw [if_pos ⟨hc, by omega, hi⟩]
        exact a3 ch hc _ (by show i - done < min (blk.n - done) s.blockSize; omega)
    · cases h; exact ⟨rfl, rfl, fun ch hc i hi => hs ch hc i (by omega) hi⟩

/-- The convolver leaves nothing but zeros and sums in the block. -/
theorem process_sums {F : RealFFT} {s s' : Convolver} {blk blk' : Buf} (h : s.processR F blk = some (s', blk')) :
    blk'.ch = blk.ch ∧ blk'.n = blk.n ∧ ∀ ch < blk.ch, ∀ i < blk.n, IsSum (blk'.data ch i) := by
  unfold Convolver.processR at h
  exact loop_sums _ h fun ch _ i hi => absurd hi (by omega)

theorem feed_sums {F : RealFFT} {N : ℕ} : ∀ {blocks outs : List Buf} {s s' : Convolver}, Spec.feed (Convolver.processR F) s blocks = some (s', outs) → (∀ b ∈ blocks, b.ch = N) →
    ∀ ch < N, ∀ t < totalLen blocks, IsSum (stream outs ch t)
  | [], _, _, _, _, _, _, _, _, ht => by simp [totalLen] at ht
  | b :: bs, outs, s, s', h, hN, ch, hc, t, ht => by
    unfold Spec.feed at h
    obtain ⟨r, h1, h⟩ := Option.bind_eq_some_iff.mp h
    obtain ⟨q, h2, h⟩ := Option.map_eq_some_iff.mp h
    cases h
    obtain ⟨a1, a2, a3⟩ := process_sums h1
    simp only [stream, a2]
    by_cases hb : t < b.n
    · rw [if_pos hb]
      exact a3 ch (by rw [hN b (List.mem_cons_self ..)]; exact hc) t hb
    · rw [if_neg hb]
      simp only [totalLen] at ht
      exact feed_sums h2 (fun x hx => hN x (List.mem_cons_of_mem _ hx)) ch hc _ (by omega)

/-! ## Pairs of convolvers -/

section
variable {F : RealFFT} {N : ℕ} {irs : ℕ → Buf} {maxBs : ℕ → ℕ} {specs : ℕ → ConvolverSpec} {Bs : ℕ → ℕ}

/-- Two convolvers for response `i` that have heard the same signal, in blocks that were cut into the same pieces. -/
def Tied (F : RealFFT) (N : ℕ) (irs : ℕ → Buf) (maxBs : ℕ → ℕ) (specs : ℕ → ConvolverSpec) (Bs : ℕ → ℕ) (i : ℕ) (v v' : Convolver) : Prop :=
  Usable (irs i) (maxBs i) (specs i) N ∧ (v.numSamples = (irs i).n ∧ v.spec = specs i) ∧ (v'.numSamples = (irs i).n ∧ v'.spec = specs i) ∧
  ∃ W n0 rest c c' past past' outs outs',
    (∀ x x', Chain W (irs i) (channelAt (specs i).inputRouting) (channelAt (specs i).outputRouting) (Bs i) n0 rest x x' 0 c c') ∧
    cuts (Bs i) past = cuts (Bs i) past' ∧ (∀ b ∈ past, b.ch = N) ∧ (∀ b ∈ past', b.ch = N) ∧
    Spec.feed (Convolver.processR F) c past = some (v, outs) ∧ Spec.feed (Convolver.processR F) c' past' = some (v', outs') ∧ SameSignal N past past'

omit [Arith] in
theorem cuts_append (B : ℕ) (xs ys : List Buf) : cuts B (xs ++ ys) = cuts B xs ++ cuts B ys := List.flatMap_append

omit [Arith] in
theorem all_append {P : Buf → Prop} {xs ys : List Buf} (h : ∀ b ∈ xs, P b) (g : ∀ b ∈ ys, P b) : ∀ b ∈ xs ++ ys, P b :=
  fun b hb => (List.mem_append.1 hb).elim (h b) (g b)

theorem feedR_fixed : ∀ {blocks outs : List Buf} {s s' : Convolver}, Spec.feed (Convolver.processR F) s blocks = some (s', outs) → s'.spec = s.spec ∧ s'.numSamples = s.numSamples
  | [], _, _, _, h => by cases h; exact ⟨rfl, rfl⟩
  | b :: bs, outs, s, s', h => by
    unfold Spec.feed at h
    obtain ⟨r, h1, h⟩ := Option.bind_eq_some_iff.mp h
    obtain ⟨q, h2, h⟩ := Option.map_eq_some_iff.mp h
    cases h
    obtain ⟨a1, a2⟩ := processR_fixed (F := F) h1
    obtain ⟨b1, b2⟩ := feedR_fixed h2
    exact ⟨b1.trans a1, b2.trans a2⟩

omit [Arith] in
/-- the second half of two signals -/
theorem sameSignal_right {xs ys us vs : List Buf} (hl : totalLen xs = totalLen ys) (h : SameSignal N (xs ++ us) (ys ++ vs)) : SameSignal N us vs := by
  refine ⟨?_, fun ch hc t => ?_⟩
  · have := h.1
    rw [totalLen_append, totalLen_append] at this
    omega
  · have := h.2 ch hc (totalLen xs + t)
    rw [stream_append_right] at this
    rw [this, hl, stream_append_right]

/-- Feeding both. -/
theorem Tied.feed (hF : HalfSpectrum F) {i : ℕ} {v v' : Convolver} (h : Tied F N irs maxBs specs Bs i v v') {xs ys : List Buf} (hx : ∀ b ∈ xs, b.ch = N) (hy : ∀ b ∈ ys, b.ch = N)
    (hs : SameSignal N xs ys) (hcut : cuts (Bs i) xs = cuts (Bs i) ys) :
    ∃ w os w' os', Spec.feed (Convolver.processR F) v xs = some (w, os) ∧ Spec.feed (Convolver.processR F) v' ys = some (w', os') ∧ SameShape xs os ∧
      SameSignal N os os' ∧ Tied F N irs maxBs specs Bs i w w' := by
  obtain ⟨hU, hv, hv', W, n0, rest, c, c', past, past', outs, outs', hC, hcp, hp, hp', e, e', hsp⟩ := h
  have hcut2 : cuts (Bs i) (past ++ xs) = cuts (Bs i) (past' ++ ys) := by rw [cuts_append, cuts_append, hcp, hcut]
  have hN := all_append hp hx
  have hN' := all_append hp' hy
  have hs2 := SameSignal.append hsp hs
  obtain ⟨d, os, d', os', f, f', sh, sh', hd, -⟩ := (hC (stream (past ++ xs)) (stream (past' ++ ys))).feed hF (usable_io hU) hcut2 hN hN'
    (fun ch _ i _ => by rw [zero_add]) (fun ch _ i _ => by rw [zero_add])
  obtain ⟨d0, os0, d0', os0', f0, f0', s0, s0', -, -⟩ := (hC (stream past) (stream past')).feed hF (usable_io hU) hcp hp hp'
    (fun ch _ i _ => by rw [zero_add]) (fun ch _ i _ => by rw [zero_add])
  rw [e] at f0; cases f0
  rw [e'] at f0'; cases f0'
  have g := f
  have g' := f'
  rw [feed_append, e] at g
  rw [feed_append, e'] at g'
  obtain ⟨⟨w, o⟩, g1, g2⟩ := Option.map_eq_some_iff.mp g
  obtain ⟨⟨w', o'⟩, g1', g2'⟩ := Option.map_eq_some_iff.mp g'
  cases g2; cases g2'
  have l0 : past.length = outs.length := s0.length_eq
  have so := List.forall₂_drop past.length sh
  rw [List.drop_left, l0, List.drop_left] at so
  have hfull : SameSignal N (outs ++ o) (outs' ++ o') := by
    have ht : totalLen (outs ++ o) = totalLen (past ++ xs) := sameShape_totalLen sh
    have ht' : totalLen (outs' ++ o') = totalLen (past ++ xs) := (sameShape_totalLen sh').trans hs2.1.symm
    refine ⟨ht.trans ht'.symm, fun ch hc t => ?_⟩
    by_cases hlt : t < totalLen (past ++ xs)
    · exact hd ch hc t hlt fun k hk _ m _ _ => hs2.2 _ (usable_io hU k hk).1 m
    · rw [stream_beyond _ _ _ (by omega), stream_beyond _ _ _ (by omega)]
  have hlen : totalLen outs = totalLen outs' := by rw [sameShape_totalLen s0, sameShape_totalLen s0', hsp.1]
  obtain ⟨x1, x2⟩ := feedR_fixed g1
  obtain ⟨x1', x2'⟩ := feedR_fixed g1'
  exact ⟨w, o, w', o', g1, g1', so, sameSignal_right hlen hfull, hU, ⟨x2.trans hv.1, x1.trans hv.2⟩, ⟨x2'.trans hv'.1, x1'.trans hv'.2⟩, W, n0, rest, c, c', _, _, _, _, hC, hcut2, hN, hN', f, f', hs2⟩

theorem Tied.reset (hZ : ExactOnZeros) (hF : HalfSpectrum F) {i : ℕ} {v v' : Convolver} (h : Tied F N irs maxBs specs Bs i v v') : Tied F N irs maxBs specs Bs i v.reset v'.reset := by
  obtain ⟨hU, hv, hv', W, n0, rest, c, c', past, past', outs, outs', hC, hcp, hp, hp', e, e', hsp⟩ := h
  obtain ⟨d0, os0, d0', os0', f0, f0', s0, s0', -, hi⟩ := (hC (stream past) (stream past')).feed hF (usable_io hU) hcp hp hp'
    (fun ch _ i _ => by rw [zero_add]) (fun ch _ i _ => by rw [zero_add])
  rw [e] at f0; cases f0
  rw [e'] at f0'; cases f0'
  exact ⟨hU, hv, hv', W, n0, rest, v.reset, v'.reset, [], [], [], [], fun y y' => hi.reset hZ y y', rfl, by simp, by simp, rfl, rfl, SameSignal.refl _ _⟩

theorem Tied.create (hZ : ExactOnZeros) {i : ℕ} {v v' : Convolver} (hU : Usable (irs i) (maxBs i) (specs i) N)
    (hB : internalBlockSize Convolver.po2Fuel (maxBs i) (specs i).internalBlockSize = some (Bs i))
    (e : ∃ m r0, Convolver.createR F (irs i) (maxBs i) (specs i) m r0 = some v) (e' : ∃ m r0, Convolver.createR F (irs i) (maxBs i) (specs i) m r0 = some v') :
    Tied F N irs maxBs specs Bs i v v' := by
  obtain ⟨m, r0, e⟩ := e
  obtain ⟨m', r0', e'⟩ := e'
  obtain ⟨-, sch, L, hsch, hL⟩ := usable_scheme hZ hU hB
  obtain ⟨c, c', n0, rest, f, f', hC⟩ := usable_chain hZ (F := F) hU hB hsch hL m m' r0 r0'
  rw [e] at f; cases f
  rw [e'] at f'; cases f'
  exact ⟨hU, createR_fixed e, createR_fixed e', _, n0, rest, v, v', [], [], [], [], hC, rfl, by simp, by simp, rfl, rfl, SameSignal.refl _ _⟩

theorem tied_accepts (hZ : ExactOnZeros) (hF : HalfSpectrum F) (A : GainArith) : Accepts (convolverOpsR F A) N (fun v => ∃ i, Tied F N irs maxBs specs Bs i v v) := by
  constructor
  · rintro v blk ⟨i, h⟩ hb
    obtain ⟨w, os, w', os', f, f', sh, -, ht⟩ := h.feed hF (xs := [blk]) (ys := [blk]) (by simpa using hb) (by simpa using hb) (SameSignal.refl _ _) rfl
    rw [f] at f'; cases f'
    unfold Spec.feed at f
    obtain ⟨⟨x, o⟩, g1, g2⟩ := Option.bind_eq_some_iff.mp f
    cases g2
    obtain ⟨x1, x2⟩ := processR_fixed g1
    cases sh with
    | cons h1 _ => exact ⟨x, o, g1, h1.1.symm.trans hb, h1.2.symm, ⟨i, ht⟩, x2, by show x.spec.fadeStrategy = v.spec.fadeStrategy; rw [x1]⟩
  · rintro v ⟨i, h⟩
    exact ⟨⟨i, h.reset hZ hF⟩, rfl, rfl⟩

/-- Convolvers for one of the responses whose pieces are the same. -/
def TiedIn (F : RealFFT) (N : ℕ) (irs : ℕ → Buf) (maxBs : ℕ → ℕ) (specs : ℕ → ConvolverSpec) (Bs : ℕ → ℕ) (Z : ℕ → Prop) (v v' : Convolver) : Prop :=
  ∃ i, Z (Bs i) ∧ Tied F N irs maxBs specs Bs i v v'

theorem tied_law (hZ : ExactOnZeros) (hF : HalfSpectrum F) {A : GainArith} (hA : CleanGains A) (Z : ℕ → Prop) :
    CutLaw (convolverOpsR F A) N Z IsSum (TiedIn F N irs maxBs specs Bs Z) where
  feed := by
    rintro v v' w w' xs ys os os' ⟨i, hi, h⟩ hx hy hs hcut e e'
    obtain ⟨u, o, u', o', f, f', -, h1, h2⟩ := h.feed hF hx hy hs (hcut _ hi)
    have k := f.symm.trans e
    have k' := f'.symm.trans e'
    cases k; cases k'
    exact ⟨⟨i, hi, h2⟩, h1, feed_sums e hx⟩
  reset := by
    rintro v v' ⟨i, hi, h⟩
    exact ⟨i, hi, h.reset hZ hF⟩
  fixed := by
    rintro v v' ⟨i, hi, -, h, h', -⟩
    exact ⟨h'.1.trans h.1.symm, by show v'.spec.fadeStrategy = v.spec.fadeStrategy; rw [h'.2, h.2]⟩
  silent := hA.silent
  full := by
    rintro a (rfl | ⟨x, y, rfl⟩)
    · exact hA.full0
    · exact hA.full x y
  alone := by
    rintro a (rfl | ⟨x, y, rfl⟩)
    · exact hA.alone0
    · exact hA.alone x y

end

/-! ## Whole histories -/

/-- Every response of the pieces is a convolver just created for the impulse response and specification that `irs`, `specs` assign to it, in memory with any contents; its internal block size is `Bs`. -/
def CreatedIn (F : RealFFT) (N : ℕ) (irs : ℕ → Buf) (maxBs : ℕ → ℕ) (specs : ℕ → ConvolverSpec) (Bs : ℕ → ℕ) (ps : List (List (Held Convolver) × Piece)) : Prop :=
  ∀ q ∈ ps, ∀ g ∈ q.1, Usable (irs g.id) (maxBs g.id) (specs g.id) N ∧ internalBlockSize Convolver.po2Fuel (maxBs g.id) (specs g.id).internalBlockSize = some (Bs g.id) ∧
    ∃ m r0, Convolver.createR F (irs g.id) (maxBs g.id) (specs g.id) m r0 = some g.obj

/-- Responses arrive one at a time, each with the first block of a signal, and are crossfaded to while it is played. -/
def OneAtATime (irs : ℕ → Buf) (specs : ℕ → ConvolverSpec) (r : ℕ) (ps : List (List (Held Convolver) × Piece)) : Prop :=
  ∀ q ∈ ps, q.1 = [] ∨ ∃ f b bs, q.1 = [f] ∧ q.2 = .play b bs ∧ CrossfadeWithin irs specs r (totalLen (b :: bs)) f.id

omit [Arith] in
theorem fits_of_wellFormed {N M : ℕ} {G : Convolver → Prop} : ∀ (bs : List Buf) {rest : List (List (Held Convolver) × Call)},
    WellFormed N G (some M) ((bs.map fun b => ([], Call.process b)) ++ rest) → (∀ b ∈ bs, b.ch = N ∧ b.n ≤ M) ∧ WellFormed N G (some M) rest
  | [], _, h => ⟨by simp, h⟩
  | b :: bs, rest, h => by
    obtain ⟨_, _, h1, h2, h3⟩ := h
    obtain ⟨k1, k2⟩ := fits_of_wellFormed bs h3
    refine ⟨fun x hx => ?_, k2⟩
    rcases List.mem_cons.1 hx with rfl | hx
    · exact ⟨h1, h2 M rfl⟩
    · exact k1 x hx

/-- one side of the recut -/
inductive Plain : Piece → Prop
  | play (b : Buf) (bs : List Buf) : Plain (.play b bs)
  | reset : Plain (.other .reset)
  | clear : Plain (.other .clear)

omit [Arith] in
theorem wellFormed_fits {N M : ℕ} {G : Convolver → Prop} : ∀ (ps : List (List (Held Convolver) × Piece)), (∀ q ∈ ps, Plain q.2) → WellFormed N G (some M) (pieced ps) → ∀ q ∈ ps, FitsIn N M q.2
  | [], _, _ => by simp
  | (batch, x) :: ps, hp, h => by
    have hx := hp _ (List.mem_cons_self ..)
    have e : pieced ((batch, x) :: ps) = x.calls batch ++ pieced ps := List.flatMap_cons
    rw [e] at h
    suffices hh : FitsIn N M x ∧ WellFormed N G (some M) (pieced ps) by
      intro q hq
      rcases List.mem_cons.1 hq with rfl | hq
      · exact hh.1
      · exact wellFormed_fits ps (fun q hq => hp q (List.mem_cons_of_mem _ hq)) hh.2 q hq
    cases hx with
    | play b bs =>
      obtain ⟨_, _, h1, h2, h3⟩ := h
      obtain ⟨k1, k2⟩ := fits_of_wellFormed bs h3
      refine ⟨fun y hy => ?_, k2⟩
      rcases List.mem_cons.1 hy with rfl | hy
      · exact ⟨h1, h2 M rfl⟩
      · exact k1 y hy
    | reset => exact ⟨trivial, h.2.2⟩
    | clear => exact ⟨trivial, h.2.2⟩

theorem arrivals (hZ : ExactOnZeros) {F : RealFFT} (A : GainArith) {N M : ℕ} {irs : ℕ → Buf} {maxBs : ℕ → ℕ} {specs : ℕ → ConvolverSpec}
    {Bs : ℕ → ℕ} {p : ProcSpec} {r : ℕ} (hr : p.sampleRate = r) (hr0 : 0 < r) (hr1 : r ≤ 200000) {Z : ℕ → Prop} {ps qs : List (List (Held Convolver) × Piece)}
    (hone : OneAtATime irs specs r ps) (hC : CreatedIn F N irs maxBs specs Bs ps) (hC' : CreatedIn F N irs maxBs specs Bs qs)
    (fits : ∀ q ∈ ps, FitsIn N M q.2) (fits' : ∀ q ∈ qs, FitsIn N M q.2) (hz : ∀ q ∈ ps, ∀ g ∈ q.1, Z (Bs g.id)) (hcut : RecutsBits N Z ps qs) :
    List.Forall₂ (fun x y => FitsIn N M x.2 ∧ FitsIn N M y.2 ∧
      Arrives (convolverOpsR F A) p (fun v => ∃ i, Tied F N irs maxBs specs Bs i v v) (TiedIn F N irs maxBs specs Bs Z) x.2 x.1 y.1 ∧ RecutBits N Z x.2 y.2) ps qs := by
  induction hcut with
  | nil => exact .nil
  | @cons x y ps qs hxy _ ih =>
    have m0 : ∀ {q}, q ∈ ps → q ∈ x :: ps := List.mem_cons_of_mem _
    have m0' : ∀ {q}, q ∈ qs → q ∈ y :: qs := List.mem_cons_of_mem _
    refine .cons ⟨fits x (List.mem_cons_self ..), fits' y (List.mem_cons_self ..), ?_, hxy.2⟩
      (ih (fun q hq => hone q (m0 hq)) (fun q hq => hC q (m0 hq)) (fun q hq => hC' q (m0' hq)) (fun q hq => fits q (m0 hq)) (fun q hq => fits' q (m0' hq)) fun q hq => hz q (m0 hq))
    have hb : x.1.map Held.id = y.1.map Held.id := hxy.1
    have c1 := hC x (List.mem_cons_self ..)
    have c2 := hC' y (List.mem_cons_self ..)
    have z1 := hz x (List.mem_cons_self ..)
    rcases hone x (List.mem_cons_self ..) with h0 | ⟨f, b, bs, h0, h1, h2⟩
    · rw [h0] at hb ⊢
      rw [List.map_eq_nil_iff.1 hb.symm]
      exact .nothing
    · rw [h0] at hb c1 z1 ⊢
      obtain ⟨f', hf'⟩ : ∃ f', y.1 = [f'] := by
        cases hy : y.1 with
        | nil => rw [hy] at hb; simp at hb
        | cons f' l =>
          rw [hy] at hb
          cases l with
          | nil => exact ⟨f', rfl⟩
          | cons _ _ => simp at hb
      rw [hf'] at hb c2 ⊢
      have hid : f.id = f'.id := by simpa using hb
      obtain ⟨hU, hB, e⟩ := c1 f (List.mem_singleton_self _)
      obtain ⟨-, -, e'⟩ := c2 f' (List.mem_singleton_self _)
      have e2 := e'
      rw [← hid] at e2
      have hv := createR_fixed e.choose_spec.choose_spec
      refine .response h1 hid ⟨f.id, z1 f (List.mem_singleton_self _), Tied.create hZ hU hB e e2⟩ ⟨f.id, Tied.create hZ hU hB e e⟩ ⟨f.id, Tied.create hZ hU hB e2 e2⟩ fun c hc => ?_
      have key := fade_choice_set (ops := convolverOpsR F A) hc hr hr0 hr1 f.obj
      have hn : (convolverOpsR F A).numSamples f.obj = (irs f.id).n := hv.1
      have hst : (convolverOpsR F A).strategy f.obj = (specs f.id).fadeStrategy := by show f.obj.spec.fadeStrategy = _; rw [hv.2]
      rw [hn, hst] at key
      unfold CrossfadeWithin at h2
      rw [← key] at h2
      exact h2

/-- **C105.** Two hosts prepare an engine for the same format and play the same signals, each in blocks of his own lengths; the same responses arrive with the first blocks of the same signals, each being
crossfaded to while its signal is played, and both hosts may reset or clear the engine in between. If for every response that arrives the blocks are cut into the same pieces of its internal block
size, then the two engines put out the same samples — whatever the arithmetic rounds to and whatever memory the engines and responses were made from. -/
theorem C105_pieces_matter (hZ : ExactOnZeros) {F : RealFFT} (hF : HalfSpectrum F) {A : GainArith} (hA : CleanGains A) {N : ℕ} {irs : ℕ → Buf} {maxBs : ℕ → ℕ} {specs : ℕ → ConvolverSpec}
    {Bs : ℕ → ℕ} {p : ProcSpec} {r : ℕ} (hr : p.sampleRate = r) (hr0 : 0 < r) (hr1 : r ≤ 200000) (m m' : ℕ → ℕ → ℝ) {ps qs : List (List (Held Convolver) × Piece)}
    (hone : OneAtATime irs specs r ps) (hC : CreatedIn F N irs maxBs specs Bs ps) (hC' : CreatedIn F N irs maxBs specs Bs qs)
    (hcut : RecutsBits N (fun B => ∃ q ∈ ps, ∃ g ∈ q.1, Bs g.id = B) ps qs)
    (hw : WellFormed N (fun _ => True) none (([], .prepare p m) :: pieced ps)) (hw' : WellFormed N (fun _ => True) none (([], .prepare p m') :: pieced qs)) :
    ∃ c outs c' outs', perform (convolverOpsR F A) {} (([], .prepare p m) :: pieced ps) = some (c, outs) ∧
      perform (convolverOpsR F A) {} (([], .prepare p m') :: pieced qs) = some (c', outs') ∧ SameSignal N outs outs' := by
  have hacc := tied_accepts (N := N) (irs := irs) (maxBs := maxBs) (specs := specs) (Bs := Bs) hZ hF A
  have hlaw := tied_law (N := N) (irs := irs) (maxBs := maxBs) (specs := specs) (Bs := Bs) hZ hF hA (fun B => ∃ q ∈ ps, ∃ g ∈ q.1, Bs g.id = B)
  have hp : ValidFormat N p := hw.2.2.1
  obtain ⟨c, e, hst, ha⟩ := prepared_steady hacc hp m
  obtain ⟨c', e', hst', ha'⟩ := prepared_steady hacc hp m'
  have plain : (∀ q ∈ ps, Plain q.2) ∧ ∀ q ∈ qs, Plain q.2 := by
    clear hone hC hC' hw hw' hlaw
    generalize (fun B => ∃ q ∈ ps, ∃ g ∈ q.1, Bs g.id = B) = Z at hcut
    induction hcut with
    | nil => exact ⟨by simp, by simp⟩
    | @cons x y ps qs hxy _ ih =>
      obtain ⟨_, hxy⟩ := hxy
      have : Plain x.2 ∧ Plain y.2 := by
        obtain ⟨_, x⟩ := x
        obtain ⟨_, y⟩ := y
        cases hxy with
        | play => exact ⟨.play _ _, .play _ _⟩
        | reset => exact ⟨.reset, .reset⟩
        | clear => exact ⟨.clear, .clear⟩
      exact ⟨fun q hq => (List.mem_cons.1 hq).elim (fun h => h ▸ this.1) (ih.1 q), fun q hq => (List.mem_cons.1 hq).elim (fun h => h ▸ this.2) (ih.2 q)⟩
  have fits := wellFormed_fits ps plain.1 hw.2.2.2
  have fits' := wellFormed_fits qs plain.2 hw'.2.2.2
  have hpairs : List.Forall₂ (fun x y => FitsIn N p.maximumBlockSize x.2 ∧ FitsIn N p.maximumBlockSize y.2 ∧
      Arrives (convolverOpsR F A) p (fun v => ∃ i, Tied F N irs maxBs specs Bs i v v) (TiedIn F N irs maxBs specs Bs fun B => ∃ q ∈ ps, ∃ g ∈ q.1, Bs g.id = B) x.2 x.1 y.1 ∧
      RecutBits N (fun B => ∃ q ∈ ps, ∃ g ∈ q.1, Bs g.id = B) x.2 y.2) ps qs := by
    exact arrivals hZ A hr hr0 hr1 hone hC hC' fits fits' (fun q hq g hg => ⟨q, hq, g, hg, rfl⟩) hcut
  obtain ⟨d, o, d', o', f, f', hs⟩ := pieces_recut hacc hp.2.1 hlaw hpairs hst hst' (by rw [ha, ha']; trivial)
  refine ⟨d, o, d', o', ?_, ?_, hs⟩
  · have := perform_append (convolverOpsR F A) (pieced ps) [([], Call.prepare p m)] {}
    rw [e, Option.bind_some, f] at this
    exact this
  · have := perform_append (convolverOpsR F A) (pieced qs) [([], Call.prepare p m')] {}
    rw [e', Option.bind_some, f'] at this
    exact this

/-- **C105** for block lengths that are multiples of the internal block sizes of the responses: which multiples they are does not matter to a single bit. -/
theorem C105_multiples (hZ : ExactOnZeros) {F : RealFFT} (hF : HalfSpectrum F) {A : GainArith} (hA : CleanGains A) {N : ℕ} {irs : ℕ → Buf} {maxBs : ℕ → ℕ} {specs : ℕ → ConvolverSpec}
    {Bs : ℕ → ℕ} {p : ProcSpec} {r : ℕ} (hr : p.sampleRate = r) (hr0 : 0 < r) (hr1 : r ≤ 200000) (m m' : ℕ → ℕ → ℝ) {ps qs : List (List (Held Convolver) × Piece)}
    (hone : OneAtATime irs specs r ps) (hC : CreatedIn F N irs maxBs specs Bs ps) (hC' : CreatedIn F N irs maxBs specs Bs qs)
    (hsame : RecutsBits N (fun _ => False) ps qs)
    (hmul : ∀ q ∈ ps ++ qs, ∀ b bs, q.2 = .play b bs → ∀ x ∈ b :: bs, ∀ s ∈ ps, ∀ g ∈ s.1, Bs g.id ∣ x.n)
    (hw : WellFormed N (fun _ => True) none (([], .prepare p m) :: pieced ps)) (hw' : WellFormed N (fun _ => True) none (([], .prepare p m') :: pieced qs)) :
    ∃ c outs c' outs', perform (convolverOpsR F A) {} (([], .prepare p m) :: pieced ps) = some (c, outs) ∧
      perform (convolverOpsR F A) {} (([], .prepare p m') :: pieced qs) = some (c', outs') ∧ SameSignal N outs outs' := by
  refine C105_pieces_matter hZ hF hA hr hr0 hr1 m m' hone hC hC' ?_ hw hw'
  have pos : ∀ s ∈ ps, ∀ g ∈ s.1, 0 < Bs g.id := fun s hs g hg => (usable_scheme hZ (hC s hs g hg).1 (hC s hs g hg).2.1).1
  have key : ∀ {us vs : List (List (Held Convolver) × Piece)}, RecutsBits N (fun _ => False) us vs → (∀ q ∈ us ++ vs, ∀ b bs, q.2 = .play b bs → ∀ x ∈ b :: bs, ∀ s ∈ ps, ∀ g ∈ s.1, Bs g.id ∣ x.n) →
      RecutsBits N (fun B => ∃ q ∈ ps, ∃ g ∈ q.1, Bs g.id = B) us vs := by
    intro us vs h
    induction h with
    | nil => intro _; exact .nil
    | @cons x y us vs hxy _ ih =>
      intro hm
      refine .cons ⟨hxy.1, ?_⟩ (ih fun q hq => hm q (by
        rcases List.mem_append.1 hq with hq | hq
        · exact List.mem_append_left _ (List.mem_cons_of_mem _ hq)
        · exact List.mem_append_right _ (List.mem_cons_of_mem _ hq)))
      have h1 := hm x (List.mem_append_left _ (List.mem_cons_self ..))
      have h2 := hm y (List.mem_append_right _ (List.mem_cons_self ..))
      obtain ⟨_, x⟩ := x
      obtain ⟨_, y⟩ := y
      obtain ⟨_, hxy⟩ := hxy
      cases hxy with
      | play same _ =>
        refine .play same ?_
        rintro B ⟨s, hs, g, hg, rfl⟩
        rw [cuts_multiples (pos s hs g hg) (fun z hz => h1 _ _ rfl z hz s hs g hg), cuts_multiples (pos s hs g hg) (fun z hz => h2 _ _ rfl z hz s hs g hg), same.1]
      | reset => exact .reset
      | clear => exact .clear
  exact key hsame hmul

omit [Arith] in
/-- Rounding to some set of numbers: gains of 0 and 1 are exact. -/
theorem cleanGains_rounded {r : ℝ → ℝ} (h0 : r 0 = 0) (hi : ∀ x, r (r x) = r x) (twF twI : ℕ → ℕ → ℂ) : @CleanGains (Arith.rounded r twF twI) (.rounded r) :=
  @CleanGains.mk (Arith.rounded r twF twI) (.rounded r) (fun a => by show r (a * 0) = 0; rw [mul_zero, h0]) (by show r (0 * 1) = 0; rw [zero_mul, h0])
    (fun a b => by show r (r (a + b) * 1) = r (a + b); rw [mul_one, hi]) (by show r (0 + 0) = 0; rw [zero_add, h0]) (fun a b => by show r (0 + r (a + b)) = r (a + b); rw [zero_add, hi])

end Zones.Props
