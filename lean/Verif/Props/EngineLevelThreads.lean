import Verif.Spec.EngineLinearThreads
import Verif.Props.EngineLevel
import Verif.Props.Reference

/-!
# C78 and C80 in the concurrent system
-/

open Zones.Spec Zones.Model Zones.Proofs

namespace Zones.Props

/-- The output of the last part of a history. -/
theorem tail_outs {F : RealFFT} (hF : Lawful F) {N : ℕ} {irs : ℕ → Buf} {maxBs : ℕ → ℕ} {specs : ℕ → ConvolverSpec} {X G : ℝ} (hX : 0 ≤ X)
    {pre post : List (List (Held Convolver) × Call)} {q : Core Convolver × List Buf} (hq : perform (convolverOps F) {} (pre ++ post) = some q)
    (hL : ∀ b ∈ pre, ∀ g ∈ b.1, (irs g.id).n ≤ samplesIn post + 1) (rest : List (List (Held Convolver) × Call)) : ∀ {r : Core Convolver × List Buf},
    WellFormed N (Serves F N) none (pre ++ (post ++ rest)) → BuiltFor F N irs maxBs specs (pre ++ (post ++ rest)) → InputAtMost X (post ++ rest) →
    (∀ b ∈ pre ++ (post ++ rest), ∀ g ∈ b.1, ∀ o < N, responseGain (irs g.id) (specs g.id).outputRouting o ≤ G) →
    perform (convolverOps F) {} (pre ++ (post ++ rest)) = some r → ∃ os, r.2 = q.2 ++ os ∧ ∀ b ∈ os, AtMost (max 1 G * X) b := by
  induction rest using List.reverseRecOn with
  | nil =>
    intro r _ _ _ _ h
    rw [List.append_nil, hq] at h
    cases h
    exact ⟨[], by simp, by simp⟩
  | append_singleton rest y ih =>
    intro r hw hB hI hG h
    have e : pre ++ (post ++ (rest ++ [y])) = pre ++ (post ++ rest) ++ [y] := by simp
    rw [e] at hw hB hG h
    rw [← List.append_assoc] at hI
    have sub : ∀ b ∈ pre ++ (post ++ rest), b ∈ pre ++ (post ++ rest) ++ [y] := fun b hb => List.mem_append_left _ hb
    rw [perform_append, Option.bind_eq_some_iff] at h
    obtain ⟨p, h1, h2⟩ := h
    obtain ⟨os, e1, e2⟩ := ih (wellFormed_prefix _ _ _ hw) (fun b hb => hB b (sub b hb)) (fun b hb => hI b (List.mem_append_left _ hb)) (fun b hb => hG b (sub b hb)) h1
    simp only [perform, Option.map_eq_some_iff, Option.bind_eq_some_iff] at h2
    obtain ⟨z, ⟨x, h3, y', hy, rfl⟩, rfl⟩ := h2
    cases hy
    refine ⟨os ++ x.2.out.toList, by simp only [← List.append_assoc, ← e1, List.append_nil], fun b hb => ?_⟩
    rcases List.mem_append.1 hb with hb | hb
    · exact e2 b hb
    · obtain ⟨batch, k⟩ := y
      rw [Option.mem_toList] at hb
      cases k with
      | process blk =>
        have hs : ∀ xs ys : List (List (Held Convolver) × Call), samplesIn xs ≤ samplesIn (xs ++ ys) := by
          intro xs ys
          induction xs with
          | nil => exact Nat.zero_le _
          | cons a as ih =>
            obtain ⟨b, k⟩ := a
            cases k <;> simp only [List.cons_append, samplesIn] <;> omega
        have hw' : WellFormed N (Serves F N) none (pre ++ (post ++ rest) ++ [(batch, .process blk)]) := hw
        obtain ⟨c, c', ef, out, g1, g2, g3, -, -, g4⟩ := C80_past_is_forgotten hF hX (pre := pre) (post := post ++ rest) hw' hB hI
          (fun b hb g hg => (hL b hb g hg).trans (by have := hs post rest; omega)) hG
        have e3 : ({} : Core Convolver).calls (convolverOps F) (pre ++ (post ++ rest)) = some p.1 := by rw [← perform_calls, h1]; rfl
        rw [e3] at g1; cases g1
        rw [h3] at g2; cases g2
        rw [hb] at g3; cases g3
        exact g4
      | reset => unfold Core.call at h3; simp only [Core.callBody, Option.some.injEq] at h3; subst h3; cases hb
      | clear => unfold Core.call at h3; simp only [Core.callBody, Option.some.injEq] at h3; subst h3; cases hb
      | prepare p g => unfold Core.call at h3; simp only [Core.callBody, Option.some.injEq] at h3; subst h3; cases hb

theorem hist_eq {V : Type} {xs ys : List (List (Held V) × Call)} {cmd : List (Held V)} (h1 : xs.map Prod.snd = ys.map Prod.snd)
    (h2 : xs.map (fun b => b.1.length) = ys.map (fun b => b.1.length)) (h3 : xs.flatMap Prod.fst ++ cmd = ys.flatMap Prod.fst ++ cmd) : xs = ys := by
  have h4 := List.append_cancel_right h3
  have h5 : xs.map Prod.fst = ys.map Prod.fst := by
    rw [List.eq_iff_flatten_eq]
    refine ⟨?_, ?_⟩
    · rwa [← List.flatMap_def, ← List.flatMap_def]
    · rw [List.map_map, List.map_map]; exact h2
  clear h2 h3 h4
  induction xs generalizing ys with
  | nil => exact (List.map_eq_nil_iff.1 h1.symm).symm
  | cons x xs ih =>
    cases ys with
    | nil => cases h1
    | cons y ys =>
      rw [List.map_cons, List.map_cons, List.cons.injEq] at h1 h5
      rw [ih h1.2 h5.2, Prod.ext h5.1 h1.1]

theorem idle_hist {V R : Type} {ops : ConvOps V} {build : R → ProcSpec → V} {ls : List (Label R)} {s : Sys V R} {e : ℕ} (h : Exec ops build ls s) (hd : (s.engs e).status ≠ .dead)
    (hi : (s.engs e).pc = .idle) : (s.engs e).hist.map Prod.snd = callsIn e ls ∧ (s.engs e).hist.flatMap Prod.fst ++ (s.engs e).cmd = (s.engs e).delivered ∧
      (s.engs e).hist.map (fun b => b.1.length) = takenBy e ls := by
  have hk := exec_known h
  have hc := (hk.traced e).calls
  have hf := (hk.inv.flow e).flow hd
  have ht := taken_hist h e
  rw [hi] at hc hf ht
  exact ⟨by simpa [APc.calling] using hc, by simpa [APc.visited] using hf, by simpa [takenNow] using ht⟩

theorem samplesIn_inputs {V R : Type} {e : ℕ} {ls : List (Label R)} {hist : List (List (Held V) × Call)} (h : hist.map Prod.snd = callsIn e ls) :
    samplesIn hist = totalLen (inputsIn e ls) := by
  unfold inputsIn
  rw [← h]
  clear h
  induction hist with
  | nil => rfl
  | cons a as ih =>
    obtain ⟨b, k⟩ := a
    cases k
    · exact congrArg (_ + ·) ih
    · exact ih
    · exact ih
    · exact ih

theorem inputs_atMost {V R : Type} {e : ℕ} {ls : List (Label R)} {hist : List (List (Held V) × Call)} {X : ℝ} (h : hist.map Prod.snd = callsIn e ls)
    (hI : ∀ b ∈ inputsIn e ls, AtMost X b) : InputAtMost X hist := by
  intro b hb blk hk
  refine hI blk ?_
  unfold inputsIn
  rw [← h]
  exact List.mem_filterMap.2 ⟨b.2, List.mem_map_of_mem hb, by rw [hk]; rfl⟩

section
variable {F : RealFFT} {N e : ℕ} {build : Buf × ConvolverSpec → ProcSpec → Convolver} {ls ls1 ls2 ls3 : List (Label (Buf × ConvolverSpec))}
  {s s1 s2 s3 : Sys Convolver (Buf × ConvolverSpec)}

/-- **C78** in the concurrent system. Whatever the threads do: if no sample given to an engine exceeds `X`, and no response delivered to it raises the level by more than `G`, no sample it has put out
exceeds `max 1 G * X`. -/
theorem C78_concurrent (hF : Lawful F) (hB : Constructs F N build) (h : Exec (convolverOps F) build ls s) (ha : (s.engs e).status = .alive) (hi : (s.engs e).pc = .idle)
    (hH : HostBehaves N none (callsIn e ls)) (hU : UsableLoads N e ls) {X G : ℝ} (hX : 0 ≤ X)
    (hI : ∀ b ∈ inputsIn e ls, AtMost X b) (hG : ∀ d ∈ (s.engs e).delivered, ∀ o < N, responseGain (requestedIR ls d.id) (requestedSpec ls d.id).outputRouting o ≤ G) :
    ∀ b ∈ (s.engs e).outs, AtMost (max 1 G * X) b := by
  obtain ⟨hist, m, h1, h2, ht, h3, hBuilt, hw⟩ := concurrent_built hB h ha hi hH hU
  obtain ⟨os, e1, e2⟩ := tail_outs hF hX (pre := []) (post := []) rfl (by simp) hist hw hBuilt (inputs_atMost h1 hI) (fun b hb g hg => hG g (by
    rw [← h2]; exact List.mem_append_left _ (List.mem_flatMap.mpr ⟨b, hb, hg⟩))) h3
  rw [show (s.engs e).outs = os from e1]
  exact e2

/-- **C80** in the concurrent system. Whatever the threads do: if from some moment on no sample given to an engine exceeds `X`, then from the moment at which it has been given as many samples as the
responses delivered before are long (less one), no sample it puts out exceeds `max 1 G * X`, `G` being the gain of the strongest response. -/
theorem C80_concurrent (hF : Lawful F) (hB : Constructs F N build) (h : Exec (convolverOps F) build ls1 s1) (h2 : Run (convolverOps F) build s1 ls2 s2) (h3 : Run (convolverOps F) build s2 ls3 s3)
    (hi1 : (s1.engs e).pc = .idle) (hi2 : (s2.engs e).pc = .idle) (ha : (s3.engs e).status = .alive) (hi : (s3.engs e).pc = .idle)
    (hH : HostBehaves N none (callsIn e (ls1 ++ ls2 ++ ls3))) (hU : UsableLoads N e (ls1 ++ ls2 ++ ls3)) {X G : ℝ} (hX : 0 ≤ X)
    (hI : ∀ b ∈ inputsIn e (ls2 ++ ls3), AtMost X b) (hL : ∀ d ∈ (s1.engs e).delivered, (requestedIR (ls1 ++ ls2 ++ ls3) d.id).n ≤ totalLen (inputsIn e ls2) + 1)
    (hG : ∀ d ∈ (s3.engs e).delivered, ∀ o < N, responseGain (requestedIR (ls1 ++ ls2 ++ ls3) d.id) (requestedSpec (ls1 ++ ls2 ++ ls3) d.id).outputRouting o ≤ G) :
    ∃ outs, (s3.engs e).outs = (s2.engs e).outs ++ outs ∧ ∀ b ∈ outs, AtMost (max 1 G * X) b := by
  have hx2 := exec_append h h2
  have hx3 := exec_append hx2 h3
  have hd3 : (s3.engs e).status ≠ .dead := by rw [ha]; simp
  have hd2 := not_dead_before h3 hd3
  have hd1 := not_dead_before h2 hd2
  obtain ⟨hist, m, a1, a2, at', a3, hBuilt, hw⟩ := concurrent_built hB hx3 ha hi hH hU
  obtain ⟨b1, b2, bt⟩ := idle_hist hx3 hd3 hi
  obtain ⟨c1, c2, ct⟩ := idle_hist hx2 hd2 hi2
  obtain ⟨d1, d2, dt⟩ := idle_hist h hd1 hi1
  have eh : hist = (s3.engs e).hist := hist_eq (a1.trans b1.symm) (at'.trans bt.symm) (a2.trans b2.symm)
  obtain ⟨rest, e3⟩ := hist_grows h3 e
  obtain ⟨post, e2⟩ := hist_grows h2 e
  rw [e2, List.append_assoc] at e3
  rw [eh, e3] at a1 a2 a3 hBuilt hw
  obtain ⟨c0, hp⟩ := exec_outs hx2 e hd2
  rw [e2] at hp c1
  have k2 : post.map Prod.snd = callsIn e ls2 := by
    rw [List.map_append, d1, callsIn_append] at c1
    exact List.append_cancel_left c1
  have k3 : (post ++ rest).map Prod.snd = callsIn e (ls2 ++ ls3) := by
    rw [List.map_append, d1, List.append_assoc ls1, callsIn_append] at a1
    exact List.append_cancel_left a1
  refine tail_outs hF hX hp (fun b hb g hg => ?_) rest hw hBuilt (inputs_atMost k3 hI) (fun b hb g hg => hG g ?_) a3
  · rw [samplesIn_inputs k2]
    exact hL g (by rw [← d2]; exact List.mem_append_left _ (List.mem_flatMap.mpr ⟨b, hb, hg⟩))
  · rw [← a2]; exact List.mem_append_left _ (List.mem_flatMap.mpr ⟨b, hb, hg⟩)

/-- **C80** in the concurrent system: the output falls silent. -/
theorem C80_silence_concurrent (hF : Lawful F) (hB : Constructs F N build) (h : Exec (convolverOps F) build ls1 s1) (h2 : Run (convolverOps F) build s1 ls2 s2) (h3 : Run (convolverOps F) build s2 ls3 s3)
    (hi1 : (s1.engs e).pc = .idle) (hi2 : (s2.engs e).pc = .idle) (ha : (s3.engs e).status = .alive) (hi : (s3.engs e).pc = .idle)
    (hH : HostBehaves N none (callsIn e (ls1 ++ ls2 ++ ls3))) (hU : UsableLoads N e (ls1 ++ ls2 ++ ls3))
    (hI : ∀ b ∈ inputsIn e (ls2 ++ ls3), AtMost 0 b) (hL : ∀ d ∈ (s1.engs e).delivered, (requestedIR (ls1 ++ ls2 ++ ls3) d.id).n ≤ totalLen (inputsIn e ls2) + 1) :
    ∃ outs, (s3.engs e).outs = (s2.engs e).outs ++ outs ∧ ∀ b ∈ outs, AtMost 0 b := by
  obtain ⟨G, hG⟩ := strongest (fun i o => responseGain (requestedIR (ls1 ++ ls2 ++ ls3) i) (requestedSpec (ls1 ++ ls2 ++ ls3) i).outputRouting o) N [((s3.engs e).delivered, .reset)]
  have := C80_concurrent hF hB h h2 h3 hi1 hi2 ha hi hH hU le_rfl hI hL (fun d hd => hG _ (List.mem_singleton_self _) d hd)
  rwa [mul_zero] at this
end

end Zones.Props
