import Verif.Spec.SplittingThreads
import Verif.Props.Splitting

/-!
# C103 in the concurrent system
-/

open Zones.Spec Zones.Model Zones.Proofs

namespace Zones.Props

/-- What has been said determines the history. -/
theorem plays_numbered {V R : Type} {e : ℕ} {ls : List (Label R)} {s : Sys V R} {ps : List (List ℕ × Call)} (h : Plays e ls s ps) {hist : List (List (Held V) × Call)}
    (h1 : hist.map Prod.snd = callsIn e ls) (h2 : hist.flatMap Prod.fst ++ (s.engs e).cmd = (s.engs e).delivered) (h3 : hist.map (fun b => b.1.length) = takenBy e ls) :
    numbered hist = ps := by
  have hlen : (hist.map (fun b => b.1.map Held.id)).map List.length = (ps.map Prod.fst).map List.length := by
    simp only [List.map_map]
    have e1 : (List.length ∘ fun b : List (Held V) × Call => b.1.map Held.id) = fun b => b.1.length := by
      funext b; simp
    rw [e1, h3, h.taken]
    rfl
  have hids : hist.map (fun b => b.1.map Held.id) = ps.map Prod.fst := by
    rw [List.eq_iff_flatten_eq]
    refine ⟨?_, hlen⟩
    have f1 : (hist.map (fun b => b.1.map Held.id)).flatten = (hist.flatMap Prod.fst).map Held.id := by
      rw [← List.flatMap_def, List.map_flatMap]
    have hl : (hist.map (fun b => b.1.map Held.id)).flatten.length = (ps.map Prod.fst).flatten.length := by
      rw [List.length_flatten, List.length_flatten, hlen]
    obtain ⟨t, ht⟩ := h.found
    rw [← h2, List.map_append, ← f1, List.flatMap_def] at ht
    exact (List.append_inj ht hl.symm).1.symm
  rw [numbered_zip, hids, h1, h.calls, List.zip_map', show (fun a : List ℕ × Call => (a.1, a.2)) = id from rfl, List.map_id]

variable {F : RealFFT} {N e : ℕ} {build build' : Buf × ConvolverSpec → ProcSpec → Convolver} {ls ls' : List (Label (Buf × ConvolverSpec))}
  {s s' : Sys Convolver (Buf × ConvolverSpec)}

/-- The engine has put out what the reference engine renders for what it has been told. `other` is another execution that asked for the same. -/
theorem plays_rendered (hF : Lawful F) (hB : Constructs F N build) (h : Exec (convolverOps F) build ls s) (ha : (s.engs e).status = .alive) (hi : (s.engs e).pc = .idle)
    (hH : HostBehaves N none (callsIn e ls)) (hU : UsableLoads N e ls) (hr : ∀ p ∈ formatsIn e ls, ∃ r : ℕ, p.sampleRate = r ∧ r ≤ 200000)
    {ps : List (List ℕ × Call)} (hp : Plays e ls s ps) {other : List (Label (Buf × ConvolverSpec))} (hq : ∀ d ∈ (s.engs e).delivered, (loadsIn other)[d.id]? = (loadsIn ls)[d.id]?) :
    (∀ q ∈ ps, ∀ i ∈ q.1, ValidRouting (requestedSpec other i).inputRouting (requestedIR other i).ch N) ∧
      SameSamples N (s.engs e).outs (rendered (requestedIR other) (requestedSpec other) (Reference.run (requestedIR other) (requestedSpec other) {} ps).2) := by
  obtain ⟨hist, m, a1, a2, a3, a4, a5, a6, a7⟩ := concurrent_history hB h ha hi hH hU hr
  have hBuilt : BuiltFor F N (requestedIR other) m (requestedSpec other) hist := by
    intro b hb g hg
    have hmem : g ∈ (s.engs e).delivered := by
      rw [← a2]
      exact List.mem_append_left _ (List.mem_flatMap.mpr ⟨b, hb, hg⟩)
    have hq := hq g hmem
    have e1 : requestedIR other g.id = requestedIR ls g.id := by unfold requestedIR; rw [hq]
    have e2 : requestedSpec other g.id = requestedSpec ls g.id := by unfold requestedSpec; rw [hq]
    rw [e1, e2]
    exact a5 b hb g hg
  obtain ⟨c, outs, ep, _, r⟩ := C85_reference hF hBuilt a6 a7
  rw [a4] at ep; cases ep
  have hn := plays_numbered hp a1 a2 a3
  rw [hn] at r
  refine ⟨?_, r⟩
  rw [← hn]
  intro q hq i hi
  obtain ⟨q', hq', rfl⟩ := List.mem_map.1 hq
  obtain ⟨g, hg, rfl⟩ := List.mem_map.1 hi
  exact (hBuilt q' hq' g hg).1.inputs

/-- **C103** in the concurrent system. Two hosts play the same signals in blocks of their own lengths, the same responses arriving with the first block of each signal. If the signals they cut
differently are cuttable (see `C103_splitting`), the outputs are the same, whatever all threads do otherwise. -/
theorem C103_concurrent (hF : Lawful F) (hB : Constructs F N build) (hB' : Constructs F N build') (h : Exec (convolverOps F) build ls s) (h' : Exec (convolverOps F) build' ls' s')
    (ha : (s.engs e).status = .alive) (hi : (s.engs e).pc = .idle) (ha' : (s'.engs e).status = .alive) (hi' : (s'.engs e).pc = .idle)
    (hH : HostBehaves N none (callsIn e ls)) (hH' : HostBehaves N none (callsIn e ls')) (hU : UsableLoads N e ls) (hU' : UsableLoads N e ls')
    (hr : ∀ p ∈ formatsIn e ls, ∃ r : ℕ, p.sampleRate = r ∧ r ≤ 200000) (hr' : ∀ p ∈ formatsIn e ls', ∃ r : ℕ, p.sampleRate = r ∧ r ≤ 200000)
    {ps qs : List (List ℕ × Piece)} (hp : Plays e ls s (pieced ps)) (hp' : Plays e ls' s' (pieced qs)) (hcut : Recuts N ps qs)
    (hq : ∀ d ∈ (s'.engs e).delivered, (loadsIn ls)[d.id]? = (loadsIn ls')[d.id]?) (hu : Unhurried (requestedIR ls) (requestedSpec ls) {} ps) :
    SameSignal N (s.engs e).outs (s'.engs e).outs := by
  obtain ⟨v, r⟩ := plays_rendered hF hB h ha hi hH hU hr hp (other := ls) (fun _ _ => rfl)
  obtain ⟨_, r'⟩ := plays_rendered hF hB' h' ha' hi' hH' hU' hr' hp' hq
  refine SameSignal.trans (sameSamples_signal r) (SameSignal.trans ?_ (SameSignal.symm (sameSamples_signal r')))
  refine reference_recut (N := N) _ _ hcut (fun p hp i hi => ?_) _ _ 0 (.steady .none false) hu
  obtain ⟨batch, p⟩ := p
  cases p with
  | play b bs => exact v (batch, .process b) (List.mem_flatMap.2 ⟨_, hp, by simp [Piece.calls]⟩) i hi
  | other k => exact v (batch, k) (List.mem_flatMap.2 ⟨_, hp, by simp [Piece.calls]⟩) i hi

/-- **C103** (crossfades) in the concurrent system. Both hosts prepare the engine for the same format; then responses arrive one at a time, each with a crossfade that is over before the next one
arrives. Then the block lengths are inaudible, whatever all threads do. -/
theorem C103_concurrent_crossfades (hF : Lawful F) (hB : Constructs F N build) (hB' : Constructs F N build') (h : Exec (convolverOps F) build ls s) (h' : Exec (convolverOps F) build' ls' s')
    (ha : (s.engs e).status = .alive) (hi : (s.engs e).pc = .idle) (ha' : (s'.engs e).status = .alive) (hi' : (s'.engs e).pc = .idle)
    (hH : HostBehaves N none (callsIn e ls)) (hH' : HostBehaves N none (callsIn e ls')) (hU : UsableLoads N e ls) (hU' : UsableLoads N e ls')
    {p : ProcSpec} {m m' : ℕ → ℕ → ℝ} {r : ℕ} (hr : p.sampleRate = r) (hr0 : 0 < r) (hr1 : r ≤ 200000)
    {ps qs : List (List ℕ × Piece)} (hp : Plays e ls s (([], .prepare p m) :: pieced ps)) (hp' : Plays e ls' s' (([], .prepare p m') :: pieced qs)) (hcut : Recuts N ps qs)
    (hq : ∀ d ∈ (s'.engs e).delivered, (loadsIn ls)[d.id]? = (loadsIn ls')[d.id]?)
    (hone : ∀ q ∈ ps, q.1.length ≤ 1 ∧ ∃ b bs, q.2 = .play b bs ∧ ∀ i ∈ q.1, CrossfadeWithin (requestedIR ls) (requestedSpec ls) r (totalLen (b :: bs)) i) :
    SameSignal N (s.engs e).outs (s'.engs e).outs := by
  have hfm : ∀ {ls : List (Label (Buf × ConvolverSpec))} {s : Sys Convolver (Buf × ConvolverSpec)} {m : ℕ → ℕ → ℝ} {ps : List (List ℕ × Piece)},
      Plays e ls s (([], .prepare p m) :: pieced ps) → (∀ q ∈ ps, ∃ b bs, q.2 = .play b bs) → ∀ p' ∈ formatsIn e ls, ∃ r : ℕ, p'.sampleRate = r ∧ r ≤ 200000 := by
    intro ls s m ps hp ho p' hp'
    unfold formatsIn at hp'
    rw [hp.calls, List.map_cons, List.filterMap_cons] at hp'
    rcases List.mem_cons.1 hp' with rfl | hp'
    · exact ⟨r, hr, hr1⟩
    · obtain ⟨k, hk, hk'⟩ := List.mem_filterMap.1 hp'
      obtain ⟨x, hx, rfl⟩ := List.mem_map.1 hk
      obtain ⟨q, hq, hx⟩ := List.mem_flatMap.1 hx
      obtain ⟨b, bs, e'⟩ := ho q hq
      rw [e'] at hx
      simp only [Piece.calls, List.mem_cons, List.mem_map] at hx
      rcases hx with rfl | ⟨_, _, rfl⟩ <;> cases hk'
  have hone' : ∀ q ∈ qs, ∃ b bs, q.2 = .play b bs := by
    intro q hm
    obtain ⟨i, hi, rfl⟩ := List.getElem_of_mem hm
    have h1 := (List.forall₂_iff_get.1 hcut).2 i (by rw [hcut.length_eq]; exact hi) hi
    obtain ⟨_, b, bs, e1, _⟩ := hone _ (List.getElem_mem (l := ps) (n := i) (by rw [hcut.length_eq]; exact hi))
    have h2 := h1.2
    simp only [List.get_eq_getElem] at h2
    rw [e1] at h2
    generalize qs[i].2 = z at h2 ⊢
    cases h2 with
    | play => exact ⟨_, _, rfl⟩
  obtain ⟨v, x⟩ := plays_rendered hF hB h ha hi hH hU (hfm hp fun q hq => (by obtain ⟨_, b, bs, e1, _⟩ := hone q hq; exact ⟨b, bs, e1⟩)) hp (other := ls) (fun _ _ => rfl)
  obtain ⟨_, x'⟩ := plays_rendered hF hB' h' ha' hi' hH' hU' (hfm hp' hone') hp' hq
  have hv : ∀ p ∈ ps, ∀ i ∈ p.1, ValidRouting (requestedSpec ls i).inputRouting (requestedIR ls i).ch N := by
    intro p hp i hi
    obtain ⟨batch, p⟩ := p
    cases p with
    | play b bs => exact v (batch, .process b) (List.mem_cons_of_mem _ (List.mem_flatMap.2 ⟨_, hp, by simp [Piece.calls]⟩)) i hi
    | other k => exact v (batch, k) (List.mem_cons_of_mem _ (List.mem_flatMap.2 ⟨_, hp, by simp [Piece.calls]⟩)) i hi
  refine SameSignal.trans (sameSamples_signal x) (SameSignal.trans ?_ (SameSignal.symm (sameSamples_signal x')))
  have hfl : ⌊p.sampleRate⌋₊ = r := by rw [hr, Nat.floor_natCast]
  show SameSignal N (rendered _ _ (Reference.run (requestedIR ls) (requestedSpec ls) ⟨.steady none false, ⌊p.sampleRate⌋₊⟩ (pieced ps)).2)
    (rendered _ _ (Reference.run (requestedIR ls) (requestedSpec ls) ⟨.steady none false, ⌊p.sampleRate⌋₊⟩ (pieced qs)).2)
  rw [hfl]
  refine reference_recut (N := N) _ _ hcut hv _ _ r (.steady .none false) (unhurried_crossfades (N := N) hr0 _ hv (fun q hq => ?_) .none)
  obtain ⟨h1, b, bs, e1, h2⟩ := hone q hq
  refine ⟨h1, b, bs, e1, ?_, h2⟩
  have : ∃ q', Recut N q.2 q' := by
    obtain ⟨i, hi, rfl⟩ := List.getElem_of_mem hq
    exact ⟨_, ((List.forall₂_iff_get.1 hcut).2 i hi (by rw [← hcut.length_eq]; exact hi)).2⟩
  obtain ⟨q', hq'⟩ := this
  rw [e1] at hq'
  cases hq' with
  | play _ pos _ => exact pos

end Zones.Props
