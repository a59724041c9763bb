import Verif.Props.EngineLevelThreads
import Verif.Props.ReferenceFloat

/-!
# C79 and C81 in the concurrent system: the levels in floating point
-/

open Zones.Spec Zones.Model Zones.Proofs Zones.Proofs.R

namespace Zones.Props

variable [Arith]

/-- The gain of response `i` to output `o`, with the worst rounding errors of its convolver. -/
noncomputable def LoudestR (u τ ε : ℝ) (L : ℕ) (irs : ℕ → Buf) (specs : ℕ → ConvolverSpec) (Ks Bs : ℕ → ℕ) (schs : ℕ → List Layout) (i o : ℕ) : ℝ :=
  responseGain (irs i) (specs i).outputRouting o + errorFactor u τ ε L (Ks i) (schs i).length (irs i).ch *
    outputWeight (Bs i) (irs i) (schs i) (specs i).outputRouting (fun _ => 1) o

/-- The output of the last part of a history. -/
theorem tail_outsR {u τ ε : ℝ} {L : ℕ} (hA : Accurate u τ L) {F : RealFFT} (hF : Approx F ε) {A : GainArith} {v : ℝ} (hv : AccurateGains A v) {N R : ℕ} (hR : R ≤ 2 ^ 22)
    {irs : ℕ → Buf} {maxBs : ℕ → ℕ} {specs : ℕ → ConvolverSpec} {Ks Bs : ℕ → ℕ} {schs : ℕ → List Layout} {X G : ℝ} (hX : 0 ≤ X)
    {pre post : List (List (Held Convolver) × Call)} {q : Core Convolver × List Buf} (hq : perform (convolverOpsR F A) {} (pre ++ post) = some q)
    (hL : ∀ b ∈ pre, ∀ g ∈ b.1, (irs g.id).n + 2 ^ L + Bs g.id ≤ samplesIn post + 1) (rest : List (List (Held Convolver) × Call)) : ∀ {r : Core Convolver × List Buf},
    WellFormed N (ServesR F N L) none (pre ++ (post ++ rest)) → BuiltForR F N L irs maxBs specs Ks Bs schs (pre ++ (post ++ rest)) → InputAtMost X (post ++ rest) →
    (∀ b ∈ pre ++ (post ++ rest), ∀ g ∈ b.1, ∀ o < N, LoudestR u τ ε L irs specs Ks Bs schs g.id o ≤ G) →
    (∀ b ∈ pre ++ (post ++ rest), ∀ p m, b.2 = .prepare p m → ∃ r : ℕ, p.sampleRate = r ∧ r ≤ R) →
    perform (convolverOpsR F A) {} (pre ++ (post ++ rest)) = some r → ∃ os, r.2 = q.2 ++ os ∧ ∀ b ∈ os, AtMost ((1 + v) ^ (8 * R + 6) * (max 1 G * X)) b := by
  induction rest using List.reverseRecOn with
  | nil =>
    intro r _ _ _ _ _ h
    rw [List.append_nil, hq] at h
    cases h
    exact ⟨[], by simp, by simp⟩
  | append_singleton rest y ih =>
    intro r hw hB hI hG hr h
    have e : pre ++ (post ++ (rest ++ [y])) = pre ++ (post ++ rest) ++ [y] := by simp
    rw [e] at hw hB hG hr h
    rw [← List.append_assoc] at hI
    have sub : ∀ b ∈ pre ++ (post ++ rest), b ∈ pre ++ (post ++ rest) ++ [y] := fun b hb => List.mem_append_left _ hb
    rw [perform_append, Option.bind_eq_some_iff] at h
    obtain ⟨p, h1, h2⟩ := h
    obtain ⟨os, e1, e2⟩ := ih (wellFormed_prefix _ _ _ hw) (fun b hb => hB b (sub b hb)) (fun b hb => hI b (List.mem_append_left _ hb)) (fun b hb => hG b (sub b hb)) (fun b hb => hr b (sub b hb)) h1
    simp only [perform, Option.map_eq_some_iff, Option.bind_eq_some_iff] at h2
    obtain ⟨z, ⟨x, h3, y', hy, rfl⟩, rfl⟩ := h2
    cases hy
    refine ⟨os ++ x.2.out.toList, by simp only [← List.append_assoc, ← e1, List.append_nil], fun b hb => ?_⟩
    rcases List.mem_append.1 hb with hb | hb
    · exact e2 b hb
    · obtain ⟨batch, k⟩ := y
      rw [Option.mem_toList] at hb
      cases k with
      | process blk =>
        have hs : ∀ xs ys : List (List (Held Convolver) × Call), samplesIn xs ≤ samplesIn (xs ++ ys) := by
          intro xs ys
          induction xs with
          | nil => exact Nat.zero_le _
          | cons a as ih =>
            obtain ⟨b, k⟩ := a
            cases k <;> simp only [List.cons_append, samplesIn] <;> omega
        have hw' : WellFormed N (ServesR F N L) none (pre ++ (post ++ rest) ++ [(batch, .process blk)]) := hw
        obtain ⟨c, c', ef, out, g1, g2, g3, -, -, g4⟩ := C81_past_is_forgotten_in_float hA hF hv hR hX (pre := pre) (post := post ++ rest) hw' hB hI
          (fun b hb g hg => (hL b hb g hg).trans (by have := hs post rest; omega)) (fun b hb => hr b (sub b hb)) hG
        have e3 : ({} : Core Convolver).calls (convolverOpsR F A) (pre ++ (post ++ rest)) = some p.1 := by rw [← perform_calls, h1]; rfl
        rw [e3] at g1; cases g1
        rw [h3] at g2; cases g2
        rw [hb] at g3; cases g3
        exact g4
      | reset => unfold Core.call at h3; simp only [Core.callBody, Option.some.injEq] at h3; subst h3; cases hb
      | clear => unfold Core.call at h3; simp only [Core.callBody, Option.some.injEq] at h3; subst h3; cases hb
      | prepare p g => unfold Core.call at h3; simp only [Core.callBody, Option.some.injEq] at h3; subst h3; cases hb

section
variable {u τ ε : ℝ} {L : ℕ} {F : RealFFT} {A : GainArith} {v : ℝ} {N R e : ℕ} {build : Buf × ConvolverSpec → ProcSpec → Convolver}
  {ls ls1 ls2 ls3 : List (Label (Buf × ConvolverSpec))} {s s1 s2 s3 : Sys Convolver (Buf × ConvolverSpec)} {Ks Bs : ℕ → ℕ} {schs : ℕ → List Layout}

/-- The response of every request handed to the thread pool for engine `e` is cut as `Ks`, `Bs` and `schs` say: for the format the engine had last been prepared for when it was handed over. -/
def CutAs (L e : ℕ) (ls : List (Label (Buf × ConvolverSpec))) (Ks Bs : ℕ → ℕ) (schs : ℕ → List Layout) : Prop :=
  ∀ i p, HandedOver e i (requestedIR ls i, requestedSpec ls i) p ls → Cut (requestedIR ls i) p.maximumBlockSize (requestedSpec ls i) L (Ks i) (Bs i) (schs i)

theorem concurrent_builtR (hB : ConstructsR F N L build)
    (h : Exec (convolverOpsR F A) build ls s) (ha : (s.engs e).status = .alive) (hi : (s.engs e).pc = .idle)
    (hH : HostBehaves N none (callsIn e ls)) (hU : UsableLoadsR N L e ls) (hCut : CutAs L e ls Ks Bs schs) :
    ∃ hist m, hist.map Prod.snd = callsIn e ls ∧ hist.flatMap Prod.fst ++ (s.engs e).cmd = (s.engs e).delivered ∧ hist.map (fun b => b.1.length) = takenBy e ls ∧
      perform (convolverOpsR F A) {} hist = some ((s.engs e).core, (s.engs e).outs) ∧ BuiltForR F N L (requestedIR ls) m (requestedSpec ls) Ks Bs schs hist ∧
      WellFormed N (ServesR F N L) none hist := by
  obtain ⟨hist, h1, h2, ht, h3, h4⟩ := C52_sequential h ha hi
  have hReach := h4 N (ServesR F N L) hH (usable_goodR hB hU)
  have hgot := (exec_sourced h).got e
  have hsorted := (exec_inv h).order.sorted e
  have huniq : ∀ d ∈ (s.engs e).delivered, ∀ d' ∈ (s.engs e).delivered, d.id = d'.id → d = d' := by
    intro d hd d' hd' hid
    rw [List.pairwise_iff_getElem] at hsorted
    obtain ⟨a, ha, rfl⟩ := List.getElem_of_mem hd
    obtain ⟨b, hb, rfl⟩ := List.getElem_of_mem hd'
    rcases Nat.lt_trichotomy a b with hab | hab | hab
    · have := hsorted a b ha hb hab; omega
    · subst hab; rfl
    · have := hsorted b a hb ha hab; omega
  have hex : ∀ k : ℕ, ∃ p : ProcSpec, ∀ d ∈ (s.engs e).delivered, d.id = k → Usable (requestedIR ls k) p.maximumBlockSize (requestedSpec ls k) N ∧
      Cut (requestedIR ls k) p.maximumBlockSize (requestedSpec ls k) L (Ks k) (Bs k) (schs k) ∧
      FreshR F (requestedIR ls k) p.maximumBlockSize (requestedSpec ls k) N d.obj := by
    intro k
    by_cases hk : ∃ d ∈ (s.engs e).delivered, d.id = k
    · obtain ⟨d, hdm, hdk⟩ := hk
      obtain ⟨⟨ir, cs⟩, q, g0, g3⟩ := hgot d hdm
      have g1 := handedOver_lt g0
      have g2 := handedOver_format g0
      obtain ⟨hu, hc⟩ := hU _ _ _ g1 q g2
      refine ⟨q, fun d' hd' hk' => ?_⟩
      have : d' = d := huniq d' hd' d hdm (hk'.trans hdk.symm)
      subst this
      rw [hdk] at g0 g1
      have e1 : requestedIR ls k = ir := by unfold requestedIR; rw [g1]
      have e2 : requestedSpec ls k = cs := by unfold requestedSpec; rw [g1]
      have hCk := hCut k q
      rw [e1, e2] at hCk
      rw [e1, e2, g3]
      exact ⟨hu, hCk g0, hB ir cs q hu hc⟩
    · exact ⟨⟨0, 0, 0⟩, fun d hd hk' => absurd ⟨d, hd, hk'⟩ hk⟩
  choose q hm using hex
  refine ⟨hist, fun k => (q k).maximumBlockSize, h1, h2, ht, h3, fun b hb g hg => ?_, hReach.1⟩
  exact hm g.id g (by rw [← h2]; exact List.mem_append_left _ (List.mem_flatMap.mpr ⟨b, hb, hg⟩)) rfl

theorem rates_hist {V Q : Type} {ls : List (Label Q)} {hist : List (List (Held V) × Call)} (h1 : hist.map Prod.snd = callsIn e ls)
    (hr : ∀ p ∈ formatsIn e ls, ∃ r : ℕ, p.sampleRate = r ∧ r ≤ R) : ∀ b ∈ hist, ∀ p m, b.2 = .prepare p m → ∃ r : ℕ, p.sampleRate = r ∧ r ≤ R := by
  intro b hb p g hk
  refine hr p ?_
  unfold formatsIn
  rw [List.mem_filterMap]
  exact ⟨b.2, by rw [← h1]; exact List.mem_map_of_mem hb, by rw [hk]⟩

/-- **C79** in the concurrent system. Whatever the threads do: if no sample given to an engine exceeds `X`, and no response delivered to it
raises the level by more than `G`, rounding errors included, no sample it has put out exceeds `max 1 G * X`, times `(1 + v) ^ (8 * R + 6)` for the rounding of the gains during fades; `R` is the highest
sample rate. The bound does not depend on how long the engine has been running. -/
theorem C79_concurrent (hA : Accurate u τ L) (hF : Approx F ε) (hv : AccurateGains A v) (hR : R ≤ 2 ^ 22) (hB : ConstructsR F N L build)
    (h : Exec (convolverOpsR F A) build ls s) (ha : (s.engs e).status = .alive) (hi : (s.engs e).pc = .idle)
    (hH : HostBehaves N none (callsIn e ls)) (hU : UsableLoadsR N L e ls) (hCut : CutAs L e ls Ks Bs schs)
    (hr : ∀ p ∈ formatsIn e ls, ∃ r : ℕ, p.sampleRate = r ∧ r ≤ R) {X G : ℝ} (hX : 0 ≤ X)
    (hI : ∀ b ∈ inputsIn e ls, AtMost X b) (hG : ∀ d ∈ (s.engs e).delivered, ∀ o < N, LoudestR u τ ε L (requestedIR ls) (requestedSpec ls) Ks Bs schs d.id o ≤ G) :
    ∀ b ∈ (s.engs e).outs, AtMost ((1 + v) ^ (8 * R + 6) * (max 1 G * X)) b := by
  obtain ⟨hist, m, h1, h2, ht, h3, hBuilt, hw⟩ := concurrent_builtR hB h ha hi hH hU hCut
  obtain ⟨os, e1, e2⟩ := tail_outsR hA hF hv hR hX (pre := []) (post := []) rfl (by simp) hist hw hBuilt (inputs_atMost h1 hI) (fun b hb g hg => hG g (by
    rw [← h2]; exact List.mem_append_left _ (List.mem_flatMap.mpr ⟨b, hb, hg⟩))) (rates_hist h1 hr) h3
  rw [show (s.engs e).outs = os from e1]
  exact e2

/-- **C81** in the concurrent system. Whatever the threads do: if from some moment on no sample given to an engine exceeds `X`, then from the moment at which it has been given as many samples as the
responses delivered before are long, plus the largest transform (`2^L`) and a partition block, less one, no sample it puts out exceeds `max 1 G * X` times the factor of C79. -/
theorem C81_concurrent (hA : Accurate u τ L) (hF : Approx F ε) (hv : AccurateGains A v) (hR : R ≤ 2 ^ 22) (hB : ConstructsR F N L build)
    (h : Exec (convolverOpsR F A) build ls1 s1) (h2 : Run (convolverOpsR F A) build s1 ls2 s2) (h3 : Run (convolverOpsR F A) build s2 ls3 s3)
    (hi1 : (s1.engs e).pc = .idle) (hi2 : (s2.engs e).pc = .idle) (ha : (s3.engs e).status = .alive) (hi : (s3.engs e).pc = .idle)
    (hH : HostBehaves N none (callsIn e (ls1 ++ ls2 ++ ls3))) (hU : UsableLoadsR N L e (ls1 ++ ls2 ++ ls3)) (hCut : CutAs L e (ls1 ++ ls2 ++ ls3) Ks Bs schs)
    (hr : ∀ p ∈ formatsIn e (ls1 ++ ls2 ++ ls3), ∃ r : ℕ, p.sampleRate = r ∧ r ≤ R) {X G : ℝ} (hX : 0 ≤ X)
    (hI : ∀ b ∈ inputsIn e (ls2 ++ ls3), AtMost X b) (hL : ∀ d ∈ (s1.engs e).delivered, (requestedIR (ls1 ++ ls2 ++ ls3) d.id).n + 2 ^ L + Bs d.id ≤ totalLen (inputsIn e ls2) + 1)
    (hG : ∀ d ∈ (s3.engs e).delivered, ∀ o < N, LoudestR u τ ε L (requestedIR (ls1 ++ ls2 ++ ls3)) (requestedSpec (ls1 ++ ls2 ++ ls3)) Ks Bs schs d.id o ≤ G) :
    ∃ outs, (s3.engs e).outs = (s2.engs e).outs ++ outs ∧ ∀ b ∈ outs, AtMost ((1 + v) ^ (8 * R + 6) * (max 1 G * X)) b := by
  have hx2 := exec_append h h2
  have hx3 := exec_append hx2 h3
  have hd3 : (s3.engs e).status ≠ .dead := by rw [ha]; simp
  have hd2 := not_dead_before h3 hd3
  have hd1 := not_dead_before h2 hd2
  obtain ⟨hist, m, a1, a2, at', a3, hBuilt, hw⟩ := concurrent_builtR hB hx3 ha hi hH hU hCut
  obtain ⟨b1, b2, bt⟩ := idle_hist hx3 hd3 hi
  obtain ⟨c1, c2, ct⟩ := idle_hist hx2 hd2 hi2
  obtain ⟨d1, d2, dt⟩ := idle_hist h hd1 hi1
  have eh : hist = (s3.engs e).hist := hist_eq (a1.trans b1.symm) (at'.trans bt.symm) (a2.trans b2.symm)
  obtain ⟨rest, e3⟩ := hist_grows h3 e
  obtain ⟨post, e2⟩ := hist_grows h2 e
  rw [e2, List.append_assoc] at e3
  rw [eh, e3] at a1 a2 a3 hBuilt hw
  obtain ⟨c0, hp⟩ := exec_outs hx2 e hd2
  rw [e2] at hp c1
  have k2 : post.map Prod.snd = callsIn e ls2 := by
    rw [List.map_append, d1, callsIn_append] at c1
    exact List.append_cancel_left c1
  have k3 : (post ++ rest).map Prod.snd = callsIn e (ls2 ++ ls3) := by
    rw [List.map_append, d1, List.append_assoc ls1, callsIn_append] at a1
    exact List.append_cancel_left a1
  refine tail_outsR hA hF hv hR hX hp (fun b hb g hg => ?_) rest hw hBuilt (inputs_atMost k3 hI) (fun b hb g hg => hG g ?_) (rates_hist a1 hr) a3
  · rw [samplesIn_inputs k2]
    exact hL g (by rw [← d2]; exact List.mem_append_left _ (List.mem_flatMap.mpr ⟨b, hb, hg⟩))
  · rw [← a2]; exact List.mem_append_left _ (List.mem_flatMap.mpr ⟨b, hb, hg⟩)

/-- **C81** in the concurrent system: the output falls silent, exactly: no residue of rounding errors. -/
theorem C81_silence_concurrent (hA : Accurate u τ L) (hF : Approx F ε) (hv : AccurateGains A v) (hR : R ≤ 2 ^ 22) (hB : ConstructsR F N L build)
    (h : Exec (convolverOpsR F A) build ls1 s1) (h2 : Run (convolverOpsR F A) build s1 ls2 s2) (h3 : Run (convolverOpsR F A) build s2 ls3 s3)
    (hi1 : (s1.engs e).pc = .idle) (hi2 : (s2.engs e).pc = .idle) (ha : (s3.engs e).status = .alive) (hi : (s3.engs e).pc = .idle)
    (hH : HostBehaves N none (callsIn e (ls1 ++ ls2 ++ ls3))) (hU : UsableLoadsR N L e (ls1 ++ ls2 ++ ls3)) (hCut : CutAs L e (ls1 ++ ls2 ++ ls3) Ks Bs schs)
    (hr : ∀ p ∈ formatsIn e (ls1 ++ ls2 ++ ls3), ∃ r : ℕ, p.sampleRate = r ∧ r ≤ R)
    (hI : ∀ b ∈ inputsIn e (ls2 ++ ls3), AtMost 0 b) (hL : ∀ d ∈ (s1.engs e).delivered, (requestedIR (ls1 ++ ls2 ++ ls3) d.id).n + 2 ^ L + Bs d.id ≤ totalLen (inputsIn e ls2) + 1) :
    ∃ outs, (s3.engs e).outs = (s2.engs e).outs ++ outs ∧ ∀ b ∈ outs, AtMost 0 b := by
  obtain ⟨G, hG⟩ := strongest (LoudestR u τ ε L (requestedIR (ls1 ++ ls2 ++ ls3)) (requestedSpec (ls1 ++ ls2 ++ ls3)) Ks Bs schs) N [((s3.engs e).delivered, .reset)]
  have := C81_concurrent hA hF hv hR hB h h2 h3 hi1 hi2 ha hi hH hU hCut hr le_rfl hI hL (fun d hd => hG _ (List.mem_singleton_self _) d hd)
  rwa [mul_zero, mul_zero] at this
end

end Zones.Props
