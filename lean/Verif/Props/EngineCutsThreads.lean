import Verif.Props.EngineCuts
import Verif.Props.SplittingThreads

/-!
# C105 in the concurrent system
-/

open Zones.Spec Zones.Model Zones.Proofs Zones.Proofs.R

namespace Zones.Props

/-- A history whose numbers are those of pieces consists of pieces. -/
theorem lift_pieces {V : Type} : ∀ (ps : List (List ℕ × Piece)) {hist : List (List (Held V) × Call)}, numbered hist = pieced ps →
    ∃ PS : List (List (Held V) × Piece), pieced PS = hist ∧ numberedPieces PS = ps
  | [], hist, h => by
    have : hist = [] := List.map_eq_nil_iff.1 h
    exact ⟨[], by rw [this]; rfl, rfl⟩
  | (batch, x) :: ps, hist, h => by
    have e : pieced ((batch, x) :: ps) = x.calls batch ++ pieced ps := List.flatMap_cons
    rw [e] at h
    obtain ⟨h1, h2, rfl, e1, e2⟩ := List.map_eq_append_iff.1 h
    obtain ⟨PS, f1, f2⟩ := lift_pieces ps e2
    suffices hh : ∃ B : List (Held V), x.calls B = h1 ∧ B.map Held.id = batch by
      obtain ⟨B, g1, g2⟩ := hh
      refine ⟨(B, x) :: PS, ?_, ?_⟩
      · show (((B, x) :: PS).flatMap fun p => p.2.calls p.1) = _
        rw [List.flatMap_cons, g1]
        exact congrArg (h1 ++ ·) f1
      · show (B.map Held.id, x) :: numberedPieces PS = _
        rw [g2, f2]
    cases x with
    | play b bs =>
      obtain ⟨⟨B, k⟩, t, rfl, e3, e4⟩ := List.map_eq_cons_iff.1 e1
      simp only [Prod.mk.injEq] at e3
      obtain ⟨e3, rfl⟩ := e3
      refine ⟨B, ?_, e3⟩
      show (B, Call.process b) :: _ = _
      congr 1
      clear e1 h e
      induction bs generalizing t with
      | nil => exact (List.map_eq_nil_iff.1 e4).symm
      | cons c bs ih =>
        obtain ⟨⟨B', k'⟩, t', rfl, e5, e6⟩ := List.map_eq_cons_iff.1 e4
        simp only [Prod.mk.injEq] at e5
        obtain ⟨e5, rfl⟩ := e5
        rw [List.map_eq_nil_iff.1 e5]
        exact congrArg _ (ih t' e6)
    | other k =>
      obtain ⟨⟨B, k'⟩, t, rfl, e3, e4⟩ := List.map_eq_cons_iff.1 e1
      simp only [Prod.mk.injEq] at e3
      obtain ⟨e3, rfl⟩ := e3
      have := List.map_eq_nil_iff.1 e4
      exact ⟨B, by rw [this]; rfl, e3⟩

variable [Arith]

/-- A constructor of convolvers, in any arithmetic: for usable requests it returns what `Convolver`'s constructor returns in memory with some contents. -/
def CreatesR (F : RealFFT) (N : ℕ) (build : Buf × ConvolverSpec → ProcSpec → Convolver) : Prop :=
  ∀ ir cs p, Usable ir p.maximumBlockSize cs N → ∃ m r0, Convolver.createR F ir p.maximumBlockSize cs m r0 = some (build (ir, cs) p)

/-- The internal block size of the `i`-th response asked for, for blocks of at most `M` samples. -/
def requestedBlock (M : ℕ) (ls : List (Label (Buf × ConvolverSpec))) (i : ℕ) : ℕ :=
  (internalBlockSize Convolver.po2Fuel M (requestedSpec ls i).internalBlockSize).getD 0

variable {F : RealFFT} {A : GainArith} {N e : ℕ} {build build' : Buf × ConvolverSpec → ProcSpec → Convolver} {ls ls' : List (Label (Buf × ConvolverSpec))}
  {s s' : Sys Convolver (Buf × ConvolverSpec)}

omit [Arith] in
theorem usable_block {ir : Buf} {M : ℕ} {cs : ConvolverSpec} (h : Usable ir M cs N) :
    internalBlockSize Convolver.po2Fuel M cs.internalBlockSize = some ((internalBlockSize Convolver.po2Fuel M cs.internalBlockSize).getD 0) := by
  obtain ⟨b, _, _, h, _⟩ := internalBlockSize_eq (fuel := Convolver.po2Fuel) (by decide) (requested_le h.blockSize)
  rw [h]; rfl

omit [Arith] in
theorem pieces_formats {p : ProcSpec} {m : ℕ → ℕ → ℝ} {V : Type} {s : Sys V (Buf × ConvolverSpec)} {ps : List (List ℕ × Piece)} (hp : Plays e ls s (([], .prepare p m) :: pieced ps))
    (ho : ∀ q ∈ ps, Plain q.2) : ∀ p' ∈ formatsIn e ls, p' = p := by
  intro p' hp'
  unfold formatsIn at hp'
  rw [hp.calls, List.map_cons, List.filterMap_cons] at hp'
  rcases List.mem_cons.1 hp' with rfl | hp'
  · rfl
  · obtain ⟨k, hk, hk'⟩ := List.mem_filterMap.1 hp'
    obtain ⟨x, hx, rfl⟩ := List.mem_map.1 hk
    obtain ⟨q, hq, hx⟩ := List.mem_flatMap.1 hx
    obtain ⟨b, y⟩ := q
    have := ho _ hq
    cases this with
    | play =>
      simp only [Piece.calls, List.mem_cons, List.mem_map] at hx
      rcases hx with rfl | ⟨_, _, rfl⟩ <;> cases hk'
    | reset => rw [List.mem_singleton.1 hx] at hk'; cases hk'
    | clear => rw [List.mem_singleton.1 hx] at hk'; cases hk'

/-- What the engine does is what happens in the sequential world. -/
theorem plays_created (hB : CreatesR F N build) (h : Exec (convolverOpsR F A) build ls s) (ha : (s.engs e).status = .alive) (hi : (s.engs e).pc = .idle)
    (hH : HostBehaves N none (callsIn e ls)) (hU : UsableLoads N e ls) {p : ProcSpec} {m : ℕ → ℕ → ℝ} {ps : List (List ℕ × Piece)}
    (hp : Plays e ls s (([], .prepare p m) :: pieced ps)) (ho : ∀ q ∈ ps, Plain q.2) {other : List (Label (Buf × ConvolverSpec))}
    (hq : ∀ d ∈ (s.engs e).delivered, (loadsIn other)[d.id]? = (loadsIn ls)[d.id]?) :
    ∃ PS, numberedPieces PS = ps ∧ perform (convolverOpsR F A) {} (([], .prepare p m) :: pieced PS) = some ((s.engs e).core, (s.engs e).outs) ∧
      WellFormed N (fun _ => True) none (([], .prepare p m) :: pieced PS) ∧
      CreatedIn F N (requestedIR other) (fun _ => p.maximumBlockSize) (requestedSpec other) (requestedBlock p.maximumBlockSize other) PS := by
  obtain ⟨hist, h1, h2, h3, h4, h5⟩ := C52_sequential h ha hi
  have hR := h5 N (fun _ => True) hH (fun _ _ _ _ _ => trivial)
  have hn := plays_numbered hp h1 h2 h3
  obtain ⟨⟨b0, k0⟩, t, rfl, e1, e2⟩ := List.map_eq_cons_iff.1 hn
  simp only [Prod.mk.injEq] at e1
  obtain ⟨e1, rfl⟩ := e1
  rw [List.map_eq_nil_iff.1 e1] at *
  obtain ⟨PS, rfl, f2⟩ := lift_pieces ps e2
  refine ⟨PS, f2, h4, hR.1, ?_⟩
  intro q hqm g hg
  have hmem : g ∈ (s.engs e).delivered := by
    rw [← h2]
    refine List.mem_append_left _ (List.mem_flatMap.2 ?_)
    obtain ⟨c, hc⟩ : ∃ c, (q.1, c) ∈ pieced PS := by
      obtain ⟨b, x⟩ := q
      cases x with
      | play b bs => exact ⟨_, List.mem_flatMap.2 ⟨_, hqm, List.mem_cons_self ..⟩⟩
      | other k => exact ⟨_, List.mem_flatMap.2 ⟨_, hqm, List.mem_singleton_self _⟩⟩
    exact ⟨_, List.mem_cons_of_mem _ hc, hg⟩
  obtain ⟨⟨ir, cs⟩, p', g1, g2, g3⟩ := (exec_known h).origins.got e g hmem
  have hp' := pieces_formats hp ho p' g2
  subst hp'
  have hu := hU _ _ _ g1 p' g2
  have g4 : (loadsIn other)[g.id]? = some (e, (ir, cs)) := (hq g hmem).trans g1
  have e1 : requestedIR other g.id = ir := by unfold requestedIR; rw [g4]
  have e2 : requestedSpec other g.id = cs := by unfold requestedSpec; rw [g4]
  rw [e1, e2]
  refine ⟨hu, ?_, ?_⟩
  · unfold requestedBlock
    rw [e2]
    exact usable_block hu
  · rw [g3]
    exact hB ir cs p' hu

/-- **C105** in the concurrent system. Two hosts prepare the engine for the same format and play the same signals in blocks of their own lengths; the same responses arrive, each with the first block of
a signal during which the crossfade to it is over. If the blocks are cut into the same pieces of each of these responses' internal block size, the samples put out are the same in any arithmetic,
whatever all threads do otherwise and whatever memory the engines and responses were made from. -/
theorem C105_concurrent (hZ : ExactOnZeros) (hF : HalfSpectrum F) (hA : CleanGains A) (hB : CreatesR F N build) (hB' : CreatesR F N build') (h : Exec (convolverOpsR F A) build ls s)
    (h' : Exec (convolverOpsR F A) build' ls' s') (ha : (s.engs e).status = .alive) (hi : (s.engs e).pc = .idle) (ha' : (s'.engs e).status = .alive) (hi' : (s'.engs e).pc = .idle)
    (hH : HostBehaves N none (callsIn e ls)) (hH' : HostBehaves N none (callsIn e ls')) (hU : UsableLoads N e ls) (hU' : UsableLoads N e ls')
    {p : ProcSpec} {m m' : ℕ → ℕ → ℝ} {r : ℕ} (hr : p.sampleRate = r) (hr0 : 0 < r) (hr1 : r ≤ 200000)
    {ps qs : List (List ℕ × Piece)} (hp : Plays e ls s (([], .prepare p m) :: pieced ps)) (hp' : Plays e ls' s' (([], .prepare p m') :: pieced qs))
    (hcut : List.Forall₂ (fun x y => x.1 = y.1 ∧ RecutBits N (fun B => ∃ q ∈ ps, ∃ i ∈ q.1, requestedBlock p.maximumBlockSize ls i = B) x.2 y.2) ps qs)
    (hq : ∀ d ∈ (s'.engs e).delivered, (loadsIn ls)[d.id]? = (loadsIn ls')[d.id]?)
    (hone : ∀ q ∈ ps, q.1 = [] ∨ ∃ i b bs, q.1 = [i] ∧ q.2 = .play b bs ∧ CrossfadeWithin (requestedIR ls) (requestedSpec ls) r (totalLen (b :: bs)) i) :
    SameSignal N (s.engs e).outs (s'.engs e).outs := by
  have plain : (∀ q ∈ ps, Plain q.2) ∧ ∀ q ∈ qs, Plain q.2 := by
    generalize (fun B => ∃ q ∈ ps, ∃ i ∈ q.1, requestedBlock p.maximumBlockSize ls i = B) = Z at hcut
    clear hone hp hp'
    induction hcut with
    | nil => exact ⟨by simp, by simp⟩
    | @cons x y ps qs hxy _ ih =>
      obtain ⟨_, hxy⟩ := hxy
      have : Plain x.2 ∧ Plain y.2 := by
        obtain ⟨_, x⟩ := x
        obtain ⟨_, y⟩ := y
        cases hxy with
        | play => exact ⟨.play _ _, .play _ _⟩
        | reset => exact ⟨.reset, .reset⟩
        | clear => exact ⟨.clear, .clear⟩
      exact ⟨fun q hq => (List.mem_cons.1 hq).elim (fun h => h ▸ this.1) (ih.1 q), fun q hq => (List.mem_cons.1 hq).elim (fun h => h ▸ this.2) (ih.2 q)⟩
  obtain ⟨PS, rfl, f1, f2, f3⟩ := plays_created hB h ha hi hH hU hp plain.1 (other := ls) (fun _ _ => rfl)
  obtain ⟨QS, rfl, g1, g2, g3⟩ := plays_created hB' h' ha' hi' hH' hU' hp' plain.2 hq
  have hz : (fun B => ∃ q ∈ numberedPieces PS, ∃ i ∈ q.1, requestedBlock p.maximumBlockSize ls i = B) =
      fun B => ∃ q ∈ PS, ∃ g ∈ q.1, requestedBlock p.maximumBlockSize ls g.id = B := by
    funext B
    refine propext ⟨?_, ?_⟩
    · rintro ⟨q, hq, i, hi, e⟩
      obtain ⟨q', hq', rfl⟩ := List.mem_map.1 hq
      obtain ⟨g, hg, rfl⟩ := List.mem_map.1 hi
      exact ⟨q', hq', g, hg, e⟩
    · rintro ⟨q, hq, g, hg, e⟩
      exact ⟨_, List.mem_map_of_mem hq, _, List.mem_map_of_mem hg, e⟩
  rw [hz] at hcut
  have hcut2 : RecutsBits N (fun B => ∃ q ∈ PS, ∃ g ∈ q.1, requestedBlock p.maximumBlockSize ls g.id = B) PS QS := by
    unfold numberedPieces at hcut
    rw [List.forall₂_map_left_iff, List.forall₂_map_right_iff] at hcut
    exact hcut
  have hone2 : OneAtATime (requestedIR ls) (requestedSpec ls) r PS := by
    intro q hq
    rcases hone _ (List.mem_map_of_mem hq) with h0 | ⟨i, b, bs, h0, h1, h2⟩
    · exact .inl (List.map_eq_nil_iff.1 h0)
    · obtain ⟨f, hf, rfl⟩ := List.map_eq_singleton_iff.1 h0
      exact .inr ⟨f, b, bs, hf, h1, h2⟩
  obtain ⟨c, o, c', o', k, k', hs⟩ := C105_pieces_matter hZ hF hA hr hr0 hr1 m m' hone2 f3 g3 hcut2 f2 g2
  rw [f1] at k; cases k
  rw [g1] at k'; cases k'
  exact hs

end Zones.Props
