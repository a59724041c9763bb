import Verif.Spec.EngineLinearThreads
import Verif.Props.EngineLinear

/-!
# C102 in the concurrent system
-/

open Zones.Spec Zones.Model Zones.Proofs

namespace Zones.Props

theorem alike_numbered {V : Type} {hist hist' : List (List (Held V) × Call)} (h1 : List.Forall₂ LikeCall (hist.map Prod.snd) (hist'.map Prod.snd))
    (h2 : hist'.map (fun b => b.1.map Held.id) = hist.map (fun b => b.1.map Held.id)) : LikeCalls (numbered hist) (numbered hist') := by
  induction hist generalizing hist' with
  | nil =>
    cases hist' with
    | nil => exact .nil
    | cons b bs => cases h1
  | cons a as ih =>
    cases hist' with
    | nil => cases h1
    | cons b bs =>
      cases h1 with
      | cons k1 k2 =>
        rw [List.map_cons, List.map_cons, List.cons.injEq] at h2
        exact .cons ⟨h2.1.symm, k1⟩ (ih k2 h2.2)

theorem inputsIn_inputs {V R : Type} {e : ℕ} {ls : List (Label R)} {hist : List (List (Held V) × Call)} (h : hist.map Prod.snd = callsIn e ls) : inputs (numbered hist) = inputsIn e ls := by
  rw [inputs_numbered]
  unfold inputsIn inputs
  rw [← h, List.filterMap_map]
  rfl

section
variable {F : RealFFT} {N e : ℕ} {build build1 build2 build3 : Buf × ConvolverSpec → ProcSpec → Convolver} {ls ls1 ls2 ls3 : List (Label (Buf × ConvolverSpec))}
  {s s1 s2 s3 : Sys Convolver (Buf × ConvolverSpec)}

/-- The rate hypothesis of `C85_concurrent`. -/
def WholeFormats (e : ℕ) (ls : List (Label (Buf × ConvolverSpec))) : Prop := ∀ p ∈ formatsIn e ls, ∃ r : ℕ, p.sampleRate = r ∧ r ≤ 200000

theorem likeCall_host : ∀ {ks ks' : List Call}, List.Forall₂ LikeCall ks ks' → ∀ {M : Option ℕ}, HostBehaves N M ks → HostBehaves N M ks' := by
  intro ks ks' h
  induction h with
  | nil => intro M _; trivial
  | @cons k k' ks ks' hk _ ih =>
    intro M hh
    cases hk with
    | process ch n => exact ⟨by rw [ch]; exact hh.1, by rw [n]; exact hh.2.1, ih hh.2.2⟩
    | reset => exact ih hh
    | clear => exact ih hh
    | prepare p g g' => exact ⟨hh.1, ih hh.2⟩

theorem likeCall_formats (h : List.Forall₂ LikeCall (callsIn e ls) (callsIn e ls1)) : formatsIn e ls1 = formatsIn e ls := by
  unfold formatsIn
  generalize callsIn e ls = ks at h ⊢
  generalize callsIn e ls1 = ks' at h ⊢
  induction h with
  | nil => rfl
  | @cons k k' ks ks' hk _ ih =>
    cases hk <;> simp only [List.filterMap_cons, ih]

/-- What the engine has done in an execution like the first one, in terms of the requests of the first one. -/
theorem alike_rendered (hF : Lawful F) (hB : Constructs F N build) (hB1 : Constructs F N build1) (h : Exec (convolverOps F) build ls s) (h1 : Exec (convolverOps F) build1 ls1 s1)
    (ha : (s.engs e).status = .alive) (hi : (s.engs e).pc = .idle) (ha1 : (s1.engs e).status = .alive) (hi1 : (s1.engs e).pc = .idle)
    (hH : HostBehaves N none (callsIn e ls)) (hU : UsableLoads N e ls) (hU1 : UsableLoads N e ls1) (hr : WholeFormats e ls) (hs : AlikeFor e ls s ls1 s1) :
    ∃ hist hist1 : List (List (Held Convolver) × Call), LikeCalls (numbered hist) (numbered hist1) ∧ inputs (numbered hist) = inputsIn e ls ∧ inputs (numbered hist1) = inputsIn e ls1 ∧
      numbered hist = ((hist.map fun b => b.1.map Held.id).zip (callsIn e ls)) ∧
      hist.flatMap Prod.fst ++ (s.engs e).cmd = (s.engs e).delivered ∧ hist.map (fun b => b.1.length) = takenBy e ls ∧
      (∀ q ∈ numbered hist, ∀ i ∈ q.1, ValidRouting (requestedSpec ls i).inputRouting (requestedIR ls i).ch N) ∧
      SameSamples N (s.engs e).outs (rendered (requestedIR ls) (requestedSpec ls) (Reference.run (requestedIR ls) (requestedSpec ls) {} (numbered hist)).2) ∧
      SameSamples N (s1.engs e).outs (rendered (requestedIR ls) (requestedSpec ls) (Reference.run (requestedIR ls) (requestedSpec ls) {} (numbered hist1)).2) := by
  obtain ⟨hist, m, a1, a2, a3, a4, a5, a6, a7⟩ := concurrent_history hB h ha hi hH hU hr
  have hr1 : WholeFormats e ls1 := by
    intro p hp
    refine hr p ?_
    rwa [likeCall_formats hs.calls] at hp
  obtain ⟨hist1, m1, b1, b2, b3, b4, b5, b6, b7⟩ := concurrent_history hB1 h1 ha1 hi1 (likeCall_host hs.calls hH) hU1 hr1
  have hids : hist1.map (fun b => b.1.map Held.id) = hist.map (fun b => b.1.map Held.id) := by
    have hlen : (hist1.map (fun b => b.1.map Held.id)).map List.length = (hist.map (fun b => b.1.map Held.id)).map List.length := by
      simp only [List.map_map]
      have e1 : (List.length ∘ fun b : List (Held Convolver) × Call => b.1.map Held.id) = fun b => b.1.length := by
        funext b; simp
      rw [e1, a3, b3, hs.taken]
    rw [List.eq_iff_flatten_eq]
    refine ⟨?_, hlen⟩
    have f1 : ∀ hh : List (List (Held Convolver) × Call), (hh.map (fun b => b.1.map Held.id)).flatten = (hh.flatMap Prod.fst).map Held.id := by
      intro hh
      rw [← List.flatMap_def, List.map_flatMap]
    have hl : (hist1.map (fun b => b.1.map Held.id)).flatten.length = (hist.map (fun b => b.1.map Held.id)).flatten.length := by
      rw [List.length_flatten, List.length_flatten, hlen]
    have hd := hs.delivered
    rw [← a2, ← b2, List.map_append, List.map_append, ← f1, ← f1] at hd
    exact (List.append_inj hd hl).1
  have hlike : LikeCalls (numbered hist) (numbered hist1) := alike_numbered (by rw [a1, b1]; exact hs.calls) hids
  have hBuilt : BuiltFor F N (requestedIR ls) m1 (requestedSpec ls) hist1 := by
    intro b hb g hg
    have hmem : g.id ∈ (s.engs e).delivered.map Held.id := by
      rw [← hs.delivered, ← b2]
      exact List.mem_map_of_mem (List.mem_append_left _ (List.mem_flatMap.mpr ⟨b, hb, hg⟩))
    obtain ⟨d, hd, hdi⟩ := List.mem_map.mp hmem
    have hq := hs.requests d hd
    rw [hdi] at hq
    have e1 : requestedIR ls g.id = requestedIR ls1 g.id := by unfold requestedIR; rw [hq]
    have e2 : requestedSpec ls g.id = requestedSpec ls1 g.id := by unfold requestedSpec; rw [hq]
    rw [e1, e2]
    exact b5 b hb g hg
  obtain ⟨c, outs, ep, _, r⟩ := C85_reference hF a5 a6 a7
  rw [a4] at ep; cases ep
  obtain ⟨c1, outs1, ep1, _, r1⟩ := C85_reference hF hBuilt b6 b7
  rw [b4] at ep1; cases ep1
  refine ⟨hist, hist1, hlike, inputsIn_inputs a1, inputsIn_inputs b1, by rw [numbered_zip, a1], a2, a3, ?_, r, r1⟩
  intro q hq i hi
  obtain ⟨q', hq', rfl⟩ := List.mem_map.1 hq
  obtain ⟨g, hg, rfl⟩ := List.mem_map.1 hi
  exact (a5 q' hq' g hg).1.inputs

theorem sameSamples_stream {xs ys : List Buf} (h : SameSamples N xs ys) {o : ℕ} (ho : o < N) (t : ℕ) : stream xs o t = stream ys o t := by
  by_cases ht : t < totalLen xs
  · exact (Proofs.SameSamples.stream h o ho t ht).symm
  · rw [stream_beyond _ _ _ (by omega), stream_beyond _ _ _ (by rw [Proofs.SameSamples.totalLen h]; omega)]

/-- **C102** in the concurrent system. Three executions that do the same for engine `e`, with other samples (`AlikeFor`), whatever the threads do otherwise, and whatever memory the convolvers were
made from: if up to sample `t` the third input is `x` times the first plus `y` times the second, then so is the third output at sample `t`. -/
theorem C102_concurrent (hF : Lawful F) (hB1 : Constructs F N build1) (hB2 : Constructs F N build2) (hB3 : Constructs F N build3)
    (h1 : Exec (convolverOps F) build1 ls1 s1) (h2 : Exec (convolverOps F) build2 ls2 s2) (h3 : Exec (convolverOps F) build3 ls3 s3)
    (ha1 : (s1.engs e).status = .alive) (hi1 : (s1.engs e).pc = .idle) (ha2 : (s2.engs e).status = .alive) (hi2 : (s2.engs e).pc = .idle)
    (ha3 : (s3.engs e).status = .alive) (hi3 : (s3.engs e).pc = .idle)
    (hH : HostBehaves N none (callsIn e ls1)) (hU1 : UsableLoads N e ls1) (hU2 : UsableLoads N e ls2) (hU3 : UsableLoads N e ls3)
    (hr : ∀ p ∈ formatsIn e ls1, ∃ r : ℕ, p.sampleRate = r ∧ r ≤ 200000) (a2 : AlikeFor e ls1 s1 ls2 s2) (a3 : AlikeFor e ls1 s1 ls3 s3)
    {x y : ℝ} {t : ℕ} (hin : ∀ ch < N, ∀ m ≤ t, stream (inputsIn e ls3) ch m = x * stream (inputsIn e ls1) ch m + y * stream (inputsIn e ls2) ch m) {o : ℕ} (ho : o < N) :
    stream (s3.engs e).outs o t = x * stream (s1.engs e).outs o t + y * stream (s2.engs e).outs o t := by
  obtain ⟨hist, hist2, k1, k2, k3, k4, k5, k6, k7, r1, r2⟩ := alike_rendered hF hB1 hB2 h1 h2 ha1 hi1 ha2 hi2 hH hU1 hU2 hr a2
  obtain ⟨hist', hist3, l1, l2, l3, l4, l5, l6, _, _, r3⟩ := alike_rendered hF hB1 hB3 h1 h3 ha1 hi1 ha3 hi3 hH hU1 hU3 hr a3
  have hsame : numbered hist' = numbered hist := by
    rw [k4, l4]
    congr 1
    have e1 : (List.length ∘ fun b : List (Held Convolver) × Call => b.1.map Held.id) = fun b => b.1.length := by
      funext b; simp
    have hlen : (hist'.map (fun b => b.1.map Held.id)).map List.length = (hist.map (fun b => b.1.map Held.id)).map List.length := by
      rw [List.map_map, List.map_map, e1, l6, k6]
    rw [List.eq_iff_flatten_eq]
    refine ⟨?_, hlen⟩
    have f1 : ∀ hh : List (List (Held Convolver) × Call), (hh.map (fun b => b.1.map Held.id)).flatten = (hh.flatMap Prod.fst).map Held.id := by
      intro hh
      rw [← List.flatMap_def, List.map_flatMap]
    have hl : (hist'.map (fun b => b.1.map Held.id)).flatten.length = (hist.map (fun b => b.1.map Held.id)).flatten.length := by
      rw [List.length_flatten, List.length_flatten, hlen]
    have hd := congrArg (List.map Held.id) (l5.trans k5.symm)
    rw [List.map_append, List.map_append, ← f1, ← f1] at hd
    exact (List.append_inj hd hl).1
  rw [hsame] at l1
  rw [sameSamples_stream r1 ho, sameSamples_stream r2 ho, sameSamples_stream r3 ho]
  exact reference_linear (N := N) (a := x) (b := y) _ _ _ k1 l1 k7 _ _ _ 0 (.steady .none false) t (by rw [k2, k3, l3]; exact hin) o ho

/-- **C102** (causality) in the concurrent system. Two executions that do the same for engine `e` (`AlikeFor`), with inputs that are the same up to sample `t`, have the same output up to sample
`t`. In particular neither the interleaving of the threads nor what other engines do is audible, beyond which call finds which responses. -/
theorem C102_concurrent_causal (hF : Lawful F) (hB1 : Constructs F N build1) (hB2 : Constructs F N build2)
    (h1 : Exec (convolverOps F) build1 ls1 s1) (h2 : Exec (convolverOps F) build2 ls2 s2)
    (ha1 : (s1.engs e).status = .alive) (hi1 : (s1.engs e).pc = .idle) (ha2 : (s2.engs e).status = .alive) (hi2 : (s2.engs e).pc = .idle)
    (hH : HostBehaves N none (callsIn e ls1)) (hU1 : UsableLoads N e ls1) (hU2 : UsableLoads N e ls2)
    (hr : ∀ p ∈ formatsIn e ls1, ∃ r : ℕ, p.sampleRate = r ∧ r ≤ 200000) (a2 : AlikeFor e ls1 s1 ls2 s2)
    {t : ℕ} (hin : ∀ ch < N, ∀ m ≤ t, stream (inputsIn e ls2) ch m = stream (inputsIn e ls1) ch m) {o : ℕ} (ho : o < N) {m : ℕ} (hm : m ≤ t) :
    stream (s2.engs e).outs o m = stream (s1.engs e).outs o m := by
  have := C102_concurrent hF hB1 hB2 hB2 h1 h2 h2 ha1 hi1 ha2 hi2 ha2 hi2 hH hU1 hU2 hU2 hr a2 a2 (x := 1) (y := 0) (t := m)
    (fun ch hc k hk => by rw [hin ch hc k (by omega)]; ring) ho
  rw [this]
  ring

end

end Zones.Props
