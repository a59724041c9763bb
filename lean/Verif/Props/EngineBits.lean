import Verif.Proofs.EngineTwin
import Verif.Props.FiniteMemory
import Verif.Props.EngineLevel

/-!
# The engine's output is reproducible bit for bit (C94)

`[Arith]` is arbitrary, except that operations on zeros give zero; of the library's transforms only `HalfSpectrum` is assumed; the
arithmetic `A` of the fades is arbitrary.
-/

open Finset Zones.Spec Zones.Model Zones.Proofs Zones.Proofs.R

namespace Zones.Props

variable [Arith]

/-- Every response of a history is a convolver just created for the impulse response and specification that `irs`, `specs` assign to it,
in memory with any contents; its internal block size is `Bs` and its transforms have at most `2^L` points. -/
def CreatedFor (F : RealFFT) (N L : ℕ) (irs : ℕ → Buf) (maxBs : ℕ → ℕ) (specs : ℕ → ConvolverSpec) (Bs : ℕ → ℕ)
    (hist : List (List (Held Convolver) × Call)) : Prop :=
  ∀ b ∈ hist, ∀ g ∈ b.1, Usable (irs g.id) (maxBs g.id) (specs g.id) N ∧
    internalBlockSize Convolver.po2Fuel (maxBs g.id) (specs g.id).internalBlockSize = some (Bs g.id) ∧
    (∀ sch, getPartitionScheme kGarciaResults (Bs g.id) (irs g.id).n = some sch → ∀ l ∈ sch, 2 * (l.psb * Bs g.id) ≤ 2 ^ L) ∧
    ∃ m r0, Convolver.createR F (irs g.id) (maxBs g.id) (specs g.id) m r0 = some g.obj

section
variable {F : RealFFT} {N L : ℕ} {irs : ℕ → Buf} {maxBs : ℕ → ℕ} {specs : ℕ → ConvolverSpec} {Bs : ℕ → ℕ}

/-- a pair of convolvers that are fed blocks of the same shape -/
theorem twin_feed (hF : HalfSpectrum F) {ir : Buf} {maxB N W : ℕ} {spec : ConvolverSpec}
    (h : Usable ir maxB spec N) {c c' : Convolver} {n0 B : ℕ} {rest : List Layout}
    (hc : ∀ x x', C3Inv W ir (channelAt spec.inputRouting) (channelAt spec.outputRouting) B n0 rest x x' 0 c c') {blocks blocks' : List Buf}
    (hsh : SameShape blocks blocks') (hN : ∀ b ∈ blocks, b.ch = N) :
    ∃ d outs d' outs', Spec.feed (Convolver.processR F) c blocks = some (d, outs) ∧ Spec.feed (Convolver.processR F) c' blocks' = some (d', outs') ∧
      SameShape blocks outs ∧ SameShape blocks' outs' ∧
      (∀ o < N, ∀ n < totalLen blocks,
        (∀ ch < N, ∀ m, n < m + W → stream blocks ch m = stream blocks' ch m) → stream outs o n = stream outs' o n) ∧
      ∃ x x' t, C3Inv W ir (channelAt spec.inputRouting) (channelAt spec.outputRouting) B n0 rest x x' t d d' := by
  obtain ⟨d, outs, d', outs', e, e', sh, sh', hd, hi⟩ := feed_rel2 (process := Convolver.processR F) (N := N)
    (Inv := fun t s s' => C3Inv W ir (channelAt spec.inputRouting) (channelAt spec.outputRouting) B n0 rest (stream blocks) (stream blocks') t s s')
    (x := stream blocks) (x' := stream blocks')
    (R := fun o n v v' => (∀ c < ir.ch, channelAt spec.outputRouting c = o → ∀ m, n < m + W → m < n + B →
          stream blocks (channelAt spec.inputRouting c) m = stream blocks' (channelAt spec.inputRouting c) m) → v = v')
    (by
      intro t s s' blk blk' hs hch hch' hnn hin hin'
      obtain ⟨s1, b1, s1', b1', e, e', n, cc, n', cc', d, h'⟩ := hs.step hF (blk := blk) (blk' := blk') hnn (by rw [hch, hch'])
        (fun c hc => ⟨by rw [hch]; exact (route_of_valid h.inputs c hc).2,
          by rw [hch]; exact (route_of_valid h.outputs c hc).2⟩)
        (fun c hc i hi => hin _ (route_of_valid h.inputs c hc).2 i hi)
        (fun c hc i hi => hin' _ (route_of_valid h.inputs c hc).2 i hi)
      exact ⟨s1, b1, s1', b1', e, e', n, by rw [cc, hch], n', by rw [cc', hch], fun o ho i hi => d o (by rw [hch]; exact ho) i hi, h'⟩)
    hsh 0 c c' (hc _ _) hN (fun ch _ i _ => by rw [zero_add]) (fun ch _ i _ => by rw [zero_add])
  refine ⟨d, outs, d', outs', e, e', sh, sh', fun o ho n hn ha => ?_, _, _, _, hi⟩
  have := hd o ho n hn
  rw [zero_add] at this
  exact this fun c hc _ m hm _ => ha _ (route_of_valid h.inputs c hc).2 m hm

/-- How many of the latest samples the output of response `i` depends on. -/
def memoryOf (L : ℕ) (irs : ℕ → Buf) (Bs : ℕ → ℕ) (i : ℕ) : ℕ := (irs i).n + 2 ^ L + Bs i

/-- Two convolvers for response `i` that have heard blocks of the same sizes, the last `n` samples being the same. -/
def Pair (F : RealFFT) (N L : ℕ) (irs : ℕ → Buf) (maxBs : ℕ → ℕ) (specs : ℕ → ConvolverSpec) (Bs : ℕ → ℕ) (n i : ℕ) (v v' : Convolver) : Prop :=
  Usable (irs i) (maxBs i) (specs i) N ∧ (v.numSamples = (irs i).n ∧ v.spec = specs i) ∧ (v'.numSamples = (irs i).n ∧ v'.spec = specs i) ∧
  ∃ n0 rest c c' past past' outs outs',
    (∀ x x', C3Inv (memoryOf L irs Bs i) (irs i) (channelAt (specs i).inputRouting) (channelAt (specs i).outputRouting) (Bs i) n0 rest x x' 0 c c') ∧
    SameShape past past' ∧ (∀ b ∈ past, b.ch = N) ∧
    Spec.feed (Convolver.processR F) c past = some (v, outs) ∧ Spec.feed (Convolver.processR F) c' past' = some (v', outs') ∧
    ∀ ch < N, ∀ m, totalLen past ≤ m + n → stream past ch m = stream past' ch m

theorem Pair.mono {n m i : ℕ} (h : n ≤ m) {v v' : Convolver} (hp : Pair F N L irs maxBs specs Bs m i v v') : Pair F N L irs maxBs specs Bs n i v v' := by
  obtain ⟨h1, h2, h3, n0, rest, c, c', past, past', outs, outs', h4, h5, h6, h7, h8, h9⟩ := hp
  exact ⟨h1, h2, h3, n0, rest, c, c', past, past', outs, outs', h4, h5, h6, h7, h8, fun ch hc k hk => h9 ch hc k (by omega)⟩

theorem sameShape_snoc {xs ys : List Buf} {a b : Buf} (h : SameShape xs ys) (hc : a.ch = b.ch) (hn : a.n = b.n) : SameShape (xs ++ [a]) (ys ++ [b]) :=
  List.rel_append h (.cons ⟨hc, hn⟩ .nil)

omit [Arith] in
theorem sameShape_len {xs ys : List Buf} (h : SameShape xs ys) : totalLen xs = totalLen ys := by
  induction h with
  | nil => rfl
  | cons hb _ ih => simp only [totalLen]; rw [hb.2, ih]

/-- a step of a pair -/
theorem Pair.process (hF : HalfSpectrum F) {n i : ℕ} {v v' : Convolver} (hp : Pair F N L irs maxBs specs Bs n i v v') {blk blk' : Buf} (hb : blk.ch = N) (hb' : blk'.ch = N)
    (hn : blk'.n = blk.n) : ∃ w w' o o', v.processR F blk = some (w, o) ∧ v'.processR F blk' = some (w', o') ∧ (o.ch = N ∧ o.n = blk.n) ∧ (o'.ch = N ∧ o'.n = blk.n) ∧
      Pair F N L irs maxBs specs Bs 0 i w w' ∧
      (SameBlock N blk blk' → Pair F N L irs maxBs specs Bs (n + blk.n) i w w' ∧ (memoryOf L irs Bs i ≤ n + 1 → SameBlock N o o')) := by
  obtain ⟨hU, hv, hv', n0, rest, c, c', past, past', outs, outs', hC, sh, hN, e, e', hr⟩ := hp
  have hbb : ∀ b ∈ past ++ [blk], b.ch = N := fun b hm => by
    rcases List.mem_append.1 hm with h | h
    · exact hN b h
    · rw [List.mem_singleton.1 h]; exact hb
  have shb := sameShape_snoc sh (hb.trans hb'.symm) hn.symm
  obtain ⟨d, os, d', os', f, f', s1, s1', hd, -⟩ := twin_feed hF hU hC shb hbb
  obtain ⟨d0, os0, d0', os0', f0, f0', s0, s0', -, -⟩ := twin_feed hF hU hC sh hN
  rw [e] at f0; cases f0
  rw [e'] at f0'; cases f0'
  rw [feed_append, e] at f
  rw [feed_append, e'] at f'
  obtain ⟨q, f1, f2⟩ := Option.map_eq_some_iff.mp f
  obtain ⟨q', f1', f2'⟩ := Option.map_eq_some_iff.mp f'
  unfold Spec.feed at f1 f1'
  obtain ⟨⟨w, o⟩, g1, g2⟩ := Option.bind_eq_some_iff.mp f1
  obtain ⟨⟨w', o'⟩, g1', g2'⟩ := Option.bind_eq_some_iff.mp f1'
  cases g2; cases g2'; cases f2; cases f2'
  have l0 : past.length = outs.length := s0.length_eq
  have l0' : past'.length = outs'.length := s0'.length_eq
  have so := List.forall₂_drop past.length s1
  have so' := List.forall₂_drop past'.length s1'
  rw [List.drop_left] at so so'
  rw [l0, List.drop_left] at so
  rw [l0', List.drop_left] at so'
  obtain ⟨so1, so2⟩ := (List.forall₂_cons.mp so).1
  obtain ⟨so1', so2'⟩ := (List.forall₂_cons.mp so').1
  have t0 : totalLen outs = totalLen past := (sameShape_len s0).symm
  have tp : totalLen past' = totalLen past := (sameShape_len sh).symm
  have t0' : totalLen outs' = totalLen past := (sameShape_len s0').symm.trans tp
  have tb : totalLen (past ++ [blk]) = totalLen past + blk.n := by rw [totalLen_append]; simp [totalLen]
  have ew : Spec.feed (Convolver.processR F) c (past ++ [blk]) = some (w, outs ++ [o]) := by
    rw [feed_append, e]; simp [Spec.feed, g1]
  have ew' : Spec.feed (Convolver.processR F) c' (past' ++ [blk']) = some (w', outs' ++ [o']) := by
    rw [feed_append, e']; simp [Spec.feed, g1']
  obtain ⟨x1, x2⟩ := processR_fixed g1
  obtain ⟨x1', x2'⟩ := processR_fixed g1'
  have mk : ∀ k, (∀ ch < N, ∀ m, totalLen (past ++ [blk]) ≤ m + k → stream (past ++ [blk]) ch m = stream (past' ++ [blk']) ch m) → Pair F N L irs maxBs specs Bs k i w w' :=
    fun k hk => ⟨hU, ⟨x2.trans hv.1, x1.trans hv.2⟩, ⟨x2'.trans hv'.1, x1'.trans hv'.2⟩, n0, rest, c, c', _, _, _, _, hC, shb, hbb, ew, ew', hk⟩
  have last : ∀ ch m, totalLen (past ++ [blk]) ≤ m → stream (past ++ [blk]) ch m = stream (past' ++ [blk']) ch m := fun ch m hm => by
    rw [stream_beyond _ _ _ hm, stream_beyond _ _ _ (by rw [← sameShape_len shb]; exact hm)]
  have recent : SameBlock N blk blk' → ∀ ch < N, ∀ m, totalLen past ≤ m + n → stream (past ++ [blk]) ch m = stream (past' ++ [blk']) ch m := by
    intro hS ch hc m hm
    by_cases h1 : m < totalLen past
    · rw [stream_append_left _ _ h1, stream_append_left _ _ (by rw [tp]; exact h1)]
      exact hr ch hc m hm
    · by_cases h2 : m < totalLen past + blk.n
      · obtain ⟨j, rfl⟩ := Nat.exists_eq_add_of_le (Nat.le_of_not_lt h1)
        rw [stream_append_right]
        rw [show totalLen past = totalLen past' from tp.symm, stream_append_right]
        have hj : j < blk.n := by omega
        unfold stream
        rw [if_pos hj, if_pos (by rw [hn]; exact hj)]
        exact hS.2.2.2 ch hc j hj
      · exact last ch m (by rw [tb]; omega)
  refine ⟨w, w', o, o', g1, g1', ⟨so1.symm.trans hb, so2.symm⟩, ⟨so1'.symm.trans hb', so2'.symm.trans hn⟩, mk 0 fun ch hc m hm => last ch m (by omega), fun hS =>
    ⟨mk _ fun ch hc m hm => recent hS ch hc m (by rw [tb] at hm; omega), fun hm => ?_⟩⟩
  refine ⟨so1.symm.trans hb, so1'.symm.trans hb', by rw [← so2, ← so2', hn], fun ch hc j hj => ?_⟩
  rw [← so2] at hj
  have := hd ch hc (totalLen past + j) (by rw [tb]; omega) (fun ch' hc' m hm' => recent hS ch' hc' m (by omega))
  rw [← t0, stream_append_right, t0, ← t0', stream_append_right] at this
  unfold stream at this
  rwa [if_pos (by rw [← so2]; exact hj), if_pos (by rw [← so2', hn]; exact hj)] at this

theorem Pair.reset (hZ : ∀ i, ZeroSafe L (irs i)) {n i : ℕ} {v v' : Convolver} (hp : Pair F N L irs maxBs specs Bs n i v v') (hF : HalfSpectrum F) (m : ℕ) :
    Pair F N L irs maxBs specs Bs m i v.reset v'.reset := by
  have := (hZ 0).base
  obtain ⟨hU, hv, hv', n0, rest, c, c', past, past', outs, outs', hC, sh, hN, e, e', hr⟩ := hp
  obtain ⟨d, os, d', os', f, f', -, -, -, x, x', t, hi⟩ := twin_feed hF hU hC sh hN
  rw [e] at f; cases f
  rw [e'] at f'; cases f'
  exact ⟨hU, hv, hv', n0, rest, v.reset, v'.reset, [], [], [], [], fun y y' => hi.reset y y', .nil, by simp, rfl, rfl, fun _ _ _ _ => rfl⟩

/-- Two convolvers created for the same response are a pair. -/
theorem Pair.create (hZ : ∀ i, ZeroSafe L (irs i)) {i : ℕ} {v v' : Convolver} (hU : Usable (irs i) (maxBs i) (specs i) N)
    (hB : internalBlockSize Convolver.po2Fuel (maxBs i) (specs i).internalBlockSize = some (Bs i))
    (hL : ∀ sch, getPartitionScheme kGarciaResults (Bs i) (irs i).n = some sch → ∀ l ∈ sch, 2 * (l.psb * Bs i) ≤ 2 ^ L)
    (e : ∃ m r0, Convolver.createR F (irs i) (maxBs i) (specs i) m r0 = some v) (e' : ∃ m r0, Convolver.createR F (irs i) (maxBs i) (specs i) m r0 = some v') (n : ℕ) :
    Pair F N L irs maxBs specs Bs n i v v' := by
  obtain ⟨m, r0, e⟩ := e
  obtain ⟨m', r0', e'⟩ := e'
  have := (hZ 0).base
  obtain ⟨-, -, b, n0, rest, -, -, eB, esch, -, -, -⟩ := C3Inv.create (E := F) (requested_le hU.blockSize) hU.nonempty
    hU.size (fun c hc => (route_of_valid hU.inputs c hc).1) (fun c hc => (route_of_valid hU.outputs c hc).1) m m' r0 r0'
  rw [hB] at eB
  rw [← Option.some.inj eB] at esch
  obtain ⟨c, c', n1, rest1, f, f', -, hC⟩ := usable_create2 (hZ i) (F := F) hU hB esch (hL _ esch) m m' r0 r0'
  rw [e] at f; cases f
  rw [e'] at f'; cases f'
  exact ⟨hU, createR_fixed e, createR_fixed e', n1, rest1, v, v', [], [], [], [], hC, .nil, by simp, rfl, rfl, fun _ _ _ _ => rfl⟩

/-! ## The two runs -/

theorem pair_twins (hZ : ∀ i, ZeroSafe L (irs i)) (hF : HalfSpectrum F) (A : GainArith) (W : ℕ) :
    Twins (convolverOpsR F A) N 1 (SameBlock N)
      (fun n i v v' => (∀ m, Pair F N L irs maxBs specs Bs m i v v') ∨ (memoryOf L irs Bs i ≤ W + 1 ∧ Pair F N L irs maxBs specs Bs n i v v')) := by
  have one : ∀ n i v v', ((∀ m, Pair F N L irs maxBs specs Bs m i v v') ∨ (memoryOf L irs Bs i ≤ W + 1 ∧ Pair F N L irs maxBs specs Bs n i v v')) →
      Pair F N L irs maxBs specs Bs n i v v' := fun n i v v' h => h.elim (fun h => h n) And.right
  refine ⟨fun a b a' b' h1 h2 h => SameBlock.trans (SameBlock.symm h1) (SameBlock.trans h h2), fun n i v v' h => ?_, ?_, fun n i v v' h m => Or.inl fun k => (one n i v v' h).reset hZ hF k⟩
  · obtain ⟨hU, hv, hv', -⟩ := one n i v v' h
    exact ⟨hv'.1.trans hv.1.symm, by show v'.spec.fadeStrategy = v.spec.fadeStrategy; rw [hv'.2, hv.2]⟩
  · intro n _ i v v' blk blk' w w' o o' h hb hb' hn hS e e'
    have key : ∀ k, Pair F N L irs maxBs specs Bs k i v v' → (Pair F N L irs maxBs specs Bs (k + blk.n) i w w') ∧ (o.ch = N ∧ o.n = blk.n) ∧ o'.ch = N ∧ o'.n = blk.n := by
      intro k hk
      obtain ⟨x, x', y, y', e1, e1', h1, h2, -, h3⟩ := hk.process hF hb hb' hn
      have e2 := e1.symm.trans e
      have e2' := e1'.symm.trans e'
      cases e2; cases e2'
      exact ⟨(h3 hS).1, h1, h2⟩
    refine ⟨?_, (key n (one n i v v' h)).2⟩
    rcases h with h | ⟨hm, h⟩
    · exact Or.inl fun m => ((key m (h m)).1).mono (by omega)
    · right
      rw [Nat.one_mul]
      exact ⟨hm, (key n h).1⟩

theorem pair_twins_loud (hZ : ∀ i, ZeroSafe L (irs i)) (hF : HalfSpectrum F) (A : GainArith) (K : ℕ → Prop) :
    Twins (convolverOpsR F A) N 0 (fun _ _ => True) (fun n i v v' => K i ∧ Pair F N L irs maxBs specs Bs n i v v') := by
  refine ⟨fun a b a' b' _ _ _ => trivial, fun n i v v' h => ?_, ?_, fun n i v v' h m => ⟨h.1, h.2.reset hZ hF m⟩⟩
  · obtain ⟨-, hU, hv, hv', -⟩ := h
    exact ⟨hv'.1.trans hv.1.symm, by show v'.spec.fadeStrategy = v.spec.fadeStrategy; rw [hv'.2, hv.2]⟩
  · intro n h0 i v v' blk blk' w w' o o' h hb hb' hn _ e e'
    obtain ⟨x, x', y, y', e1, e1', h1, h2, h3, -⟩ := h.2.process hF hb hb' hn
    have e2 := e1.symm.trans e
    have e2' := e1'.symm.trans e'
    cases e2; cases e2'
    rw [h0 rfl, Nat.zero_mul]
    exact ⟨⟨h.1, h3⟩, h1, h2⟩

theorem pair_settles (hF : HalfSpectrum F) (A : GainArith) (W : ℕ) :
    Settles (convolverOpsR F A) N W
      (fun n i v v' => (∀ m, Pair F N L irs maxBs specs Bs m i v v') ∨ (memoryOf L irs Bs i ≤ W + 1 ∧ Pair F N L irs maxBs specs Bs n i v v')) := by
  intro i v v' blk blk' w w' o o' h hS e e'
  have key : ∀ k, memoryOf L irs Bs i ≤ k + 1 → Pair F N L irs maxBs specs Bs k i v v' → SameBlock N o o' := by
    intro k hm hk
    obtain ⟨x, x', y, y', e1, e1', -, -, -, h3⟩ := hk.process hF hS.1 hS.2.1 hS.2.2.1.symm
    have e2 := e1.symm.trans e
    have e2' := e1'.symm.trans e'
    cases e2; cases e2'
    exact (h3 hS).2 hm
  rcases h with h | ⟨hm, h⟩
  · exact key _ (Nat.le_succ _) (h (memoryOf L irs Bs i))
  · exact key W hm h

/-- The convolvers of the histories. -/
def Twin1 (F : RealFFT) (N L : ℕ) (irs : ℕ → Buf) (maxBs : ℕ → ℕ) (specs : ℕ → ConvolverSpec) (Bs : ℕ → ℕ) (v : Convolver) : Prop :=
  ∃ i, Pair F N L irs maxBs specs Bs 0 i v v

theorem twin1_accepts (hZ : ∀ i, ZeroSafe L (irs i)) (hF : HalfSpectrum F) (A : GainArith) : Accepts (convolverOpsR F A) N (Twin1 F N L irs maxBs specs Bs) := by
  constructor
  · rintro v blk ⟨i, h⟩ hb
    obtain ⟨w, w', o, o', e, e', h1, -, h2, -⟩ := h.process hF hb hb rfl
    rw [e] at e'; cases e'
    obtain ⟨x1, x2⟩ := processR_fixed e
    exact ⟨w, o, e, h1.1, h1.2, ⟨i, h2⟩, x2, by show w.spec.fadeStrategy = v.spec.fadeStrategy; rw [x1]⟩
  · rintro v ⟨i, h⟩
    exact ⟨⟨i, h.reset hZ hF 0⟩, rfl, rfl⟩

theorem created_good (hZ : ∀ i, ZeroSafe L (irs i)) : ∀ {hist : List (List (Held Convolver) × Call)} {M : Option ℕ}, WellFormed N (fun _ => True) M hist →
    CreatedFor F N L irs maxBs specs Bs hist → WellFormed N (Twin1 F N L irs maxBs specs Bs) M hist
  | [], _, _, _ => trivial
  | (batch, k) :: rest, M, hw, hC => by
    have h1 : ∀ g ∈ batch, Twin1 F N L irs maxBs specs Bs g.obj := fun g hg => by
      obtain ⟨hU, hB, hL, e⟩ := hC _ (List.mem_cons_self ..) g hg
      exact ⟨g.id, Pair.create hZ hU hB hL e e 0⟩
    have h2 : CreatedFor F N L irs maxBs specs Bs rest := fun b hb => hC b (List.mem_cons_of_mem _ hb)
    cases k with
    | process blk => exact ⟨h1, hw.2.1, hw.2.2.1, hw.2.2.2.1, created_good hZ hw.2.2.2.2 h2⟩
    | reset => exact ⟨h1, hw.2.1, created_good hZ hw.2.2 h2⟩
    | clear => exact ⟨h1, hw.2.1, created_good hZ hw.2.2 h2⟩
    | prepare p g => exact ⟨h1, hw.2.1, hw.2.2.1, created_good hZ hw.2.2.2 h2⟩

omit [Arith] in
/-- what the host may do does not depend on the samples -/
theorem wellFormed_same {R : Buf → Buf → Prop} (hR : ∀ a b, R a b → a.ch = b.ch ∧ a.n = b.n) {hist hist' : List (List (Held Convolver) × Call)} (hs : SameCalls R hist hist') :
    ∀ {M : Option ℕ}, WellFormed N (fun _ => True) M hist → WellFormed N (fun _ => True) M hist' := by
  induction hs with
  | nil => intro M _; trivial
  | @cons a a' hist hist' hh _ ih =>
    intro M hw
    obtain ⟨batch, k⟩ := a
    obtain ⟨batch', k'⟩ := a'
    obtain ⟨hb, hk⟩ := hh
    have hb2 : batch = [] → batch' = [] := by
      rintro rfl
      have : batch'.map Held.id = [] := hb.symm
      exact List.map_eq_nil_iff.mp this
    cases hk with
    | @process blk blk' hr =>
      obtain ⟨r1, r2⟩ := hR _ _ hr
      exact ⟨fun _ _ => trivial, fun hM hk => hb2 (hw.2.1 hM fun p g hc => by cases hc), r1.symm.trans hw.2.2.1, fun m hm => by rw [← r2]; exact hw.2.2.2.1 m hm, ih hw.2.2.2.2⟩
    | reset => exact ⟨fun _ _ => trivial, fun hM hk => hb2 (hw.2.1 hM fun p g hc => by cases hc), ih hw.2.2⟩
    | clear => exact ⟨fun _ _ => trivial, fun hM hk => hb2 (hw.2.1 hM fun p g hc => by cases hc), ih hw.2.2⟩
    | prepare p g g' => exact ⟨fun _ _ => trivial, fun hM hk => absurd rfl (hk p g'), hw.2.2.1, ih hw.2.2.2⟩

omit [Arith] in
theorem batch_pairs {X Y : Held Convolver → Prop} : ∀ {b b' : List (Held Convolver)}, SameBatch b b' → (∀ g ∈ b, X g) → (∀ g ∈ b', Y g) →
    List.Forall₂ (fun g g' => g.id = g'.id ∧ X g ∧ Y g') b b'
  | [], [], _, _, _ => .nil
  | g :: gs, g' :: gs', h, h1, h2 => by
    obtain ⟨e1, e2⟩ := List.cons_eq_cons.mp h
    exact .cons ⟨e1, h1 g (List.mem_cons_self ..), h2 g' (List.mem_cons_self ..)⟩
      (batch_pairs e2 (fun x hx => h1 x (List.mem_cons_of_mem _ hx)) fun x hx => h2 x (List.mem_cons_of_mem _ hx))
  | [], _ :: _, h, _, _ => by cases h
  | _ :: _, [], h, _, _ => by cases h

/-- the convolvers that are delivered -/
theorem created_pairs (hZ : ∀ i, ZeroSafe L (irs i)) {R : Buf → Buf → Prop} {hist hist' : List (List (Held Convolver) × Call)} (hs : SameCalls R hist hist')
    (hC : CreatedFor F N L irs maxBs specs Bs hist) (hC' : CreatedFor F N L irs maxBs specs Bs hist') {P : ℕ → ℕ → Convolver → Convolver → Prop}
    (hP : ∀ b ∈ hist, ∀ g ∈ b.1, ∀ v', (∀ m, Pair F N L irs maxBs specs Bs m g.id g.obj v') → ∀ m, P m g.id g.obj v') :
    List.Forall₂ (fun a b : List (Held Convolver) × Call => List.Forall₂ (fun g g' => g.id = g'.id ∧ ∀ m, P m g.id g.obj g'.obj) a.1 b.1) hist hist' := by
  induction hs with
  | nil => exact .nil
  | @cons a a' hist hist' hh _ ih =>
    refine .cons ?_ (ih (fun b hb => hC b (List.mem_cons_of_mem _ hb)) (fun b hb => hC' b (List.mem_cons_of_mem _ hb)) fun b hb => hP b (List.mem_cons_of_mem _ hb))
    have k1 : ∀ g ∈ a.1, ((∀ v', (∀ m, Pair F N L irs maxBs specs Bs m g.id g.obj v') → ∀ m, P m g.id g.obj v') ∧
        Usable (irs g.id) (maxBs g.id) (specs g.id) N ∧ internalBlockSize Convolver.po2Fuel (maxBs g.id) (specs g.id).internalBlockSize = some (Bs g.id) ∧
        (∀ sch, getPartitionScheme kGarciaResults (Bs g.id) (irs g.id).n = some sch → ∀ l ∈ sch, 2 * (l.psb * Bs g.id) ≤ 2 ^ L) ∧
        ∃ m r0, Convolver.createR F (irs g.id) (maxBs g.id) (specs g.id) m r0 = some g.obj) :=
      fun g hg => ⟨hP a (List.mem_cons_self ..) g hg, hC _ (List.mem_cons_self ..) g hg⟩
    have k2 : ∀ g ∈ a'.1, ∃ m r0, Convolver.createR F (irs g.id) (maxBs g.id) (specs g.id) m r0 = some g.obj :=
      fun g hg => (hC' _ (List.mem_cons_self ..) g hg).2.2.2
    refine (batch_pairs hh.1 k1 k2).imp fun g g' ⟨h0, ⟨h1, hU, hB, hL, e⟩, e'⟩ => ⟨h0, h1 _ fun m => ?_⟩
    rw [← h0] at e'
    exact Pair.create hZ hU hB hL e e' m

omit [Arith] in
theorem last_twin {V : Type} {R : Buf → Buf → Prop} {post post' : List (List (Held V) × Call)} {a a' : List (Held V) × Call} (h : SameCalls R (post ++ [a]) (post' ++ [a'])) :
    SameCalls R post post' ∧ SameBatch a.1 a'.1 ∧ SameKind R a.2 a'.2 := by
  have hl : post.length = post'.length := by simpa using h.length_eq
  have h1 := List.forall₂_take post.length h
  have h2 := List.forall₂_drop post.length h
  rw [List.take_left] at h1
  rw [List.drop_left] at h2
  rw [hl, List.take_left] at h1
  rw [hl, List.drop_left] at h2
  exact ⟨h1, (List.forall₂_cons.mp h2).1⟩

omit [Arith] in
theorem sameKind_mono {R S : Buf → Buf → Prop} (h : ∀ a b, R a b → S a b) {k k' : Call} (hk : SameKind R k k') : SameKind S k k' := by
  cases hk with
  | process hr => exact .process (h _ _ hr)
  | reset => exact .reset
  | clear => exact .clear
  | prepare p g g' => exact .prepare p g g'

/-- The part after the boundary. -/
theorem bits_after (hZ : ∀ i, ZeroSafe L (irs i)) (hF : HalfSpectrum F) (A : GainArith) {post post' : List (List (Held Convolver) × Call)} {batch batch' : List (Held Convolver)} {blk blk' : Buf}
    {M M' : Option ℕ} {c c' : Core Convolver} (hk : Known N (Twin1 F N L irs maxBs specs Bs) M c) (hk' : Known N (Twin1 F N L irs maxBs specs Bs) M' c')
    (ht : Twin (fun n i v v' => (∀ m, Pair F N L irs maxBs specs Bs m i v v') ∨ (memoryOf L irs Bs i ≤ samplesIn post + 1 ∧ Pair F N L irs maxBs specs Bs n i v v')) 0 c c')
    (hw : WellFormed N (Twin1 F N L irs maxBs specs Bs) M (post ++ [(batch, .process blk)])) (hw' : WellFormed N (Twin1 F N L irs maxBs specs Bs) M' (post' ++ [(batch', .process blk')]))
    (hC : CreatedFor F N L irs maxBs specs Bs (post ++ [(batch, .process blk)])) (hC' : CreatedFor F N L irs maxBs specs Bs (post' ++ [(batch', .process blk')]))
    (hs : SameInput N (post ++ [(batch, .process blk)]) (post' ++ [(batch', .process blk')])) :
    ∃ d d' r r' e e' out out', c.calls (convolverOpsR F A) post = some d ∧ c'.calls (convolverOpsR F A) post' = some d' ∧
      d.call (convolverOpsR F A) batch (.process blk) = some (r, e) ∧ d'.call (convolverOpsR F A) batch' (.process blk') = some (r', e') ∧
      e.out = some out ∧ e'.out = some out' ∧ out.n = blk.n ∧ SameBlock N out out' := by
  obtain ⟨hs1, hs2⟩ := last_twin hs
  have hd := created_pairs hZ hs hC hC' (P := fun n i v v' => (∀ m, Pair F N L irs maxBs specs Bs m i v v') ∨ (memoryOf L irs Bs i ≤ samplesIn post + 1 ∧ Pair F N L irs maxBs specs Bs n i v v'))
    (fun _ _ _ _ _ h m => Or.inl h)
  have hl : post.length = post'.length := hs1.length_eq
  have hd1 := List.forall₂_take post.length hd
  have hd2 := List.forall₂_drop post.length hd
  rw [List.take_left] at hd1
  rw [List.drop_left] at hd2
  rw [hl, List.take_left] at hd1
  rw [hl, List.drop_left] at hd2
  have hA := pair_twins (N := N) (L := L) (irs := irs) (maxBs := maxBs) (specs := specs) (Bs := Bs) hZ hF A (samplesIn post)
  obtain ⟨d, d', D, D', e1, e1', k1, k1', h1, w1, w1'⟩ := calls_twin (twin1_accepts hZ hF A) hA (R := SameBlock N) (fun a b h => h.2.2.1) (fun a b _ _ h => h)
    [(batch, .process blk)] [(batch', .process blk')] hs1 (n := 0) (fun h => absurd h one_ne_zero) hk hk' ht hw hw' hd1
  rw [Nat.one_mul, Nat.zero_add] at h1
  obtain ⟨⟨r, e⟩, -, f, -⟩ := call_known (twin1_accepts hZ hF A) k1 w1
  obtain ⟨⟨r', e'⟩, -, f', -⟩ := call_known (twin1_accepts hZ hF A) k1' w1'
  obtain ⟨-, h2⟩ := call_twin hA k1 k1' w1 w1' (fun h => absurd h one_ne_zero) h1 (List.forall₂_cons.mp hd2).1 hs2.2 (fun a b h => h.2.2.1) (fun a b _ _ h => h) f f'
  obtain ⟨b2, o, o', hb, g1, g2, g3⟩ := h2 blk rfl
  cases hb
  cases hs2.2 with
  | process hS => exact ⟨d, d', r, r', e, e', o, o', e1, e1', f, f', g1, g2, g3.len, g3.same (pair_settles hF A _) hS⟩

end

theorem bits_depend_on_recent_input {F : RealFFT} (hF : HalfSpectrum F) (A : GainArith) {N L : ℕ} {irs : ℕ → Buf} (hZ : ∀ i, ZeroSafe L (irs i)) {maxBs : ℕ → ℕ}
    {specs : ℕ → ConvolverSpec} {Bs : ℕ → ℕ} {pre pre' post post' : List (List (Held Convolver) × Call)} {batch batch' : List (Held Convolver)} {blk blk' : Buf}
    (hw : WellFormed N (fun _ => True) none (pre ++ (post ++ [(batch, .process blk)])))
    (hC : CreatedFor F N L irs maxBs specs Bs (pre ++ (post ++ [(batch, .process blk)])))
    (hC' : CreatedFor F N L irs maxBs specs Bs (pre' ++ (post' ++ [(batch', .process blk')])))
    (hpre : SameSizes pre pre') (hpost : SameInput N (post ++ [(batch, .process blk)]) (post' ++ [(batch', .process blk')]))
    (hL : ∀ b ∈ pre, ∀ g ∈ b.1, (irs g.id).n + 2 ^ L + Bs g.id ≤ samplesIn post + 1) :
    ∃ c c' d d' e e' out out', ({} : Core Convolver).calls (convolverOpsR F A) (pre ++ post) = some c ∧ ({} : Core Convolver).calls (convolverOpsR F A) (pre' ++ post') = some c' ∧
      c.call (convolverOpsR F A) batch (.process blk) = some (d, e) ∧ c'.call (convolverOpsR F A) batch' (.process blk') = some (d', e') ∧
      e.out = some out ∧ e'.out = some out' ∧ out.n = blk.n ∧ SameBlock N out out' := by
  have hsz : SameCalls (fun a b : Buf => a.ch = b.ch ∧ a.n = b.n) (pre ++ (post ++ [(batch, .process blk)])) (pre' ++ (post' ++ [(batch', .process blk')])) := by
    exact List.rel_append hpre (hpost.imp fun a b h => ⟨h.1, sameKind_mono (fun a b h => ⟨h.1.trans h.2.1.symm, h.2.2.1⟩) h.2⟩)
  have hw' := created_good hZ (wellFormed_same (fun _ _ h => h) hsz hw) hC'
  have hw1 := created_good hZ hw hC
  have c1 : CreatedFor F N L irs maxBs specs Bs pre := fun b hb => hC b (List.mem_append_left _ hb)
  have c1' : CreatedFor F N L irs maxBs specs Bs pre' := fun b hb => hC' b (List.mem_append_left _ hb)
  obtain ⟨d, d', D, D', e1, e1', k1, k1', h1, w1, w1'⟩ := calls_twin (twin1_accepts hZ hF A)
    (pair_twins_loud (N := N) (L := L) (irs := irs) (maxBs := maxBs) (specs := specs) (Bs := Bs) hZ hF A (fun i => memoryOf L irs Bs i ≤ samplesIn post + 1))
    (R := fun a b => a.ch = b.ch ∧ a.n = b.n) (fun a b h => h.2) (fun _ _ _ _ _ => trivial) (post ++ [(batch, .process blk)]) (post' ++ [(batch', .process blk')]) hpre (n := 0)
    (fun _ => rfl) (start_known N _) (start_known N _) Twin.start hw1 hw' (created_pairs hZ hpre c1 c1' (P := fun n i v v' => memoryOf L irs Bs i ≤ samplesIn post + 1 ∧ Pair F N L irs maxBs specs Bs n i v v') fun b hb g hg v' h m => ⟨hL b hb g hg, h m⟩)
  rw [Nat.zero_mul] at h1
  obtain ⟨x, x', r, r', e, e', o, o', f1, f1', f2, f2', f3⟩ := bits_after hZ hF A k1 k1' (h1.mono fun n i v v' h => Or.inr h) w1 w1'
    (fun b hb => hC b (List.mem_append_right _ hb)) (fun b hb => hC' b (List.mem_append_right _ hb)) hpost
  exact ⟨x, x', r, r', e, e', o, o', by rw [calls_append, e1]; exact f1, by rw [calls_append, e1']; exact f1', f2, f2', f3⟩

theorem reset_forgets {F : RealFFT} (hF : HalfSpectrum F) (A : GainArith) {N L : ℕ} {irs : ℕ → Buf} (hZ : ∀ i, ZeroSafe L (irs i)) {maxBs : ℕ → ℕ}
    {specs : ℕ → ConvolverSpec} {Bs : ℕ → ℕ} {pre pre' post post' : List (List (Held Convolver) × Call)} {b0 b0' batch batch' : List (Held Convolver)} {k0 k0' : Call} {blk blk' : Buf}
    (hw : WellFormed N (fun _ => True) none (pre ++ ((b0, k0) :: (post ++ [(batch, .process blk)]))))
    (hC : CreatedFor F N L irs maxBs specs Bs (pre ++ ((b0, k0) :: (post ++ [(batch, .process blk)]))))
    (hC' : CreatedFor F N L irs maxBs specs Bs (pre' ++ ((b0', k0') :: (post' ++ [(batch', .process blk')]))))
    (hk : ∀ b, k0 ≠ .process b) (hq : ∀ c, ({} : Core Convolver).calls (convolverOpsR F A) pre = some c → ((c.callHead k0).service (convolverOpsR F A) b0).pending = none)
    (hpre : SameSizes pre pre') (hpost : SameInput N ((b0, k0) :: (post ++ [(batch, .process blk)])) ((b0', k0') :: (post' ++ [(batch', .process blk')]))) :
    ∃ c c' d d' e e' out out', ({} : Core Convolver).calls (convolverOpsR F A) (pre ++ ((b0, k0) :: post)) = some c ∧
      ({} : Core Convolver).calls (convolverOpsR F A) (pre' ++ ((b0', k0') :: post')) = some c' ∧
      c.call (convolverOpsR F A) batch (.process blk) = some (d, e) ∧ c'.call (convolverOpsR F A) batch' (.process blk') = some (d', e') ∧
      e.out = some out ∧ e'.out = some out' ∧ out.n = blk.n ∧ SameBlock N out out' := by
  have hsz : SameCalls (fun a b : Buf => a.ch = b.ch ∧ a.n = b.n) (pre ++ ((b0, k0) :: (post ++ [(batch, .process blk)]))) (pre' ++ ((b0', k0') :: (post' ++ [(batch', .process blk')]))) := by
    exact List.rel_append hpre (hpost.imp fun a b h => ⟨h.1, sameKind_mono (fun a b h => ⟨h.1.trans h.2.1.symm, h.2.2.1⟩) h.2⟩)
  have hw' := created_good hZ (wellFormed_same (fun _ _ h => h) hsz hw) hC'
  have hw1 := created_good hZ hw hC
  have c1 : CreatedFor F N L irs maxBs specs Bs pre := fun b hb => hC b (List.mem_append_left _ hb)
  have c1' : CreatedFor F N L irs maxBs specs Bs pre' := fun b hb => hC' b (List.mem_append_left _ hb)
  have hA := pair_twins_loud (N := N) (L := L) (irs := irs) (maxBs := maxBs) (specs := specs) (Bs := Bs) hZ hF A (fun _ => True)
  obtain ⟨d, d', D, D', e1, e1', k1, k1', h1, w1, w1'⟩ := calls_twin (twin1_accepts hZ hF A) hA
    (R := fun a b => a.ch = b.ch ∧ a.n = b.n) (fun a b h => h.2) (fun _ _ _ _ _ => trivial) ((b0, k0) :: (post ++ [(batch, .process blk)]))
    ((b0', k0') :: (post' ++ [(batch', .process blk')])) hpre (n := 0)
    (fun _ => rfl) (start_known N _) (start_known N _) Twin.start hw1 hw' (created_pairs hZ hpre c1 c1' (P := fun n i v v' => True ∧ Pair F N L irs maxBs specs Bs n i v v') fun b hb g hg v' h m => ⟨trivial, h m⟩)
  obtain ⟨q1, q2⟩ := List.forall₂_cons.mp hpost
  obtain ⟨s1, D1, f, kr, wr, -⟩ := call_known (twin1_accepts hZ hF A) k1 w1
  obtain ⟨s1', D1', f', kr', wr', -⟩ := call_known (twin1_accepts hZ hF A) k1' w1'
  have c2 : CreatedFor F N L irs maxBs specs Bs ((b0, k0) :: (post ++ [(batch, .process blk)])) := fun b hb => hC b (List.mem_append_right _ hb)
  have c2' : CreatedFor F N L irs maxBs specs Bs ((b0', k0') :: (post' ++ [(batch', .process blk')])) := fun b hb => hC' b (List.mem_append_right _ hb)
  have hd := created_pairs hZ hpost c2 c2' (P := fun n i v v' => True ∧ Pair F N L irs maxBs specs Bs n i v v') (fun _ _ _ _ _ h m => ⟨trivial, h m⟩)
  have h2 := Twin.all (n := 0) (call_twin_quiet hA h1 (List.forall₂_cons.mp hd).1 q1.2 hk (hq d e1) f f')
  obtain ⟨x, x', r, r', e, e', o, o', f1, f1', f2, f2', f3⟩ := bits_after hZ hF A kr kr' (h2.mono fun n i v v' h => Or.inl fun m => (h m).2) wr wr'
    (fun b hb => c2 b (List.mem_cons_of_mem _ hb)) (fun b hb => c2' b (List.mem_cons_of_mem _ hb)) q2
  refine ⟨x, x', r, r', e, e', o, o', ?_, ?_, f2, f2', f3⟩
  · rw [calls_append, e1, Option.bind_some, Core.calls, f]; exact f1
  · rw [calls_append, e1', Option.bind_some, Core.calls, f']; exact f1'

/-- **C94.** Every bit of the output is determined by the calls and by the recent input. Two engines get the same calls in the same order,
with blocks of the same sizes, and convolvers for the same responses at the same times; the convolvers, and the engine's own buffer, were
made in memory with any contents. In `pre` and `pre'` the samples of the input may differ as they like; in `post` and `post'` and in the
last block they are the same. If in `post` at least as many samples are processed as every response delivered in `pre` remembers (its
length, its largest transform and its block size, less one), then the last block comes out the same in both, sample for sample — with any
arithmetic that is exact on zeros, any transforms, and any arithmetic in the fades, wherever fades, resets, prepares and clears occur. -/
theorem C94_bits_depend_on_recent_input (hZ : ExactOnZeros) {F : RealFFT} (hF : HalfSpectrum F) (A : GainArith) {N L : ℕ} {irs : ℕ → Buf} {maxBs : ℕ → ℕ}
    {specs : ℕ → ConvolverSpec} {Bs : ℕ → ℕ} {pre pre' post post' : List (List (Held Convolver) × Call)} {batch batch' : List (Held Convolver)} {blk blk' : Buf}
    (hw : WellFormed N (fun _ => True) none (pre ++ (post ++ [(batch, .process blk)])))
    (hC : CreatedFor F N L irs maxBs specs Bs (pre ++ (post ++ [(batch, .process blk)])))
    (hC' : CreatedFor F N L irs maxBs specs Bs (pre' ++ (post' ++ [(batch', .process blk')])))
    (hpre : SameSizes pre pre') (hpost : SameInput N (post ++ [(batch, .process blk)]) (post' ++ [(batch', .process blk')]))
    (hL : ∀ b ∈ pre, ∀ g ∈ b.1, (irs g.id).n + 2 ^ L + Bs g.id ≤ samplesIn post + 1) :
    ∃ c c' d d' e e' out out', ({} : Core Convolver).calls (convolverOpsR F A) (pre ++ post) = some c ∧ ({} : Core Convolver).calls (convolverOpsR F A) (pre' ++ post') = some c' ∧
      c.call (convolverOpsR F A) batch (.process blk) = some (d, e) ∧ c'.call (convolverOpsR F A) batch' (.process blk') = some (d', e') ∧
      e.out = some out ∧ e'.out = some out' ∧ out.n = blk.n ∧ SameBlock N out out' :=
  bits_depend_on_recent_input hF A (fun i => hZ.safe L (irs i)) hw hC hC' hpre hpost hL

/-- **C94, reproducibility.** Two engines that get the same calls with the same input give the same output, sample for sample, whatever the
memory contained that their buffers were made of. -/
theorem C94_reproducible (hZ : ExactOnZeros) {F : RealFFT} (hF : HalfSpectrum F) (A : GainArith) {N L : ℕ} {irs : ℕ → Buf} {maxBs : ℕ → ℕ}
    {specs : ℕ → ConvolverSpec} {Bs : ℕ → ℕ} {hist hist' : List (List (Held Convolver) × Call)} {batch batch' : List (Held Convolver)} {blk blk' : Buf}
    (hw : WellFormed N (fun _ => True) none (hist ++ [(batch, .process blk)]))
    (hC : CreatedFor F N L irs maxBs specs Bs (hist ++ [(batch, .process blk)])) (hC' : CreatedFor F N L irs maxBs specs Bs (hist' ++ [(batch', .process blk')]))
    (hs : SameInput N (hist ++ [(batch, .process blk)]) (hist' ++ [(batch', .process blk')])) :
    ∃ c c' d d' e e' out out', ({} : Core Convolver).calls (convolverOpsR F A) hist = some c ∧ ({} : Core Convolver).calls (convolverOpsR F A) hist' = some c' ∧
      c.call (convolverOpsR F A) batch (.process blk) = some (d, e) ∧ c'.call (convolverOpsR F A) batch' (.process blk') = some (d', e') ∧
      e.out = some out ∧ e'.out = some out' ∧ out.n = blk.n ∧ SameBlock N out out' :=
  C94_bits_depend_on_recent_input hZ hF A (pre := []) (pre' := []) hw hC hC' .nil hs (by simp)

/-- **C94, reset.** A `Reset` (or `Prepare`, or `Clear`) that finds no response waiting behind a fade erases the input heard so far from every
later bit of the output: two engines that got the same calls before it, with blocks of the same sizes but with any samples in them, and the
same calls and the same input after it, give the same output from then on, sample for sample. -/
theorem C94_reset_forgets (hZ : ExactOnZeros) {F : RealFFT} (hF : HalfSpectrum F) (A : GainArith) {N L : ℕ} {irs : ℕ → Buf} {maxBs : ℕ → ℕ}
    {specs : ℕ → ConvolverSpec} {Bs : ℕ → ℕ} {pre pre' post post' : List (List (Held Convolver) × Call)} {b0 b0' batch batch' : List (Held Convolver)} {k0 k0' : Call} {blk blk' : Buf}
    (hw : WellFormed N (fun _ => True) none (pre ++ ((b0, k0) :: (post ++ [(batch, .process blk)]))))
    (hC : CreatedFor F N L irs maxBs specs Bs (pre ++ ((b0, k0) :: (post ++ [(batch, .process blk)]))))
    (hC' : CreatedFor F N L irs maxBs specs Bs (pre' ++ ((b0', k0') :: (post' ++ [(batch', .process blk')]))))
    (hk : ∀ b, k0 ≠ .process b) (hq : ∀ c, ({} : Core Convolver).calls (convolverOpsR F A) pre = some c → ((c.callHead k0).service (convolverOpsR F A) b0).pending = none)
    (hpre : SameSizes pre pre') (hpost : SameInput N ((b0, k0) :: (post ++ [(batch, .process blk)])) ((b0', k0') :: (post' ++ [(batch', .process blk')]))) :
    ∃ c c' d d' e e' out out', ({} : Core Convolver).calls (convolverOpsR F A) (pre ++ ((b0, k0) :: post)) = some c ∧
      ({} : Core Convolver).calls (convolverOpsR F A) (pre' ++ ((b0', k0') :: post')) = some c' ∧
      c.call (convolverOpsR F A) batch (.process blk) = some (d, e) ∧ c'.call (convolverOpsR F A) batch' (.process blk') = some (d', e') ∧
      e.out = some out ∧ e'.out = some out' ∧ out.n = blk.n ∧ SameBlock N out out' :=
  reset_forgets hF A (fun i => hZ.safe L (irs i)) hw hC hC' hk hq hpre hpost

end Zones.Props
