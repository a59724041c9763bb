import Verif.Props.EngineLevelFloatThreads
import Verif.Props.EngineLevelThreadsExamples

/-!
# Executions in binary32 for which the hypotheses of C79 and C81 in the concurrent system hold
-/

open Zones.Spec Zones.Model Zones.Proofs Zones.Proofs.R

namespace Zones.Props

noncomputable local instance levelThreadsArith : Arith := single

/-- In binary32: an execution for which the hypotheses hold: while other threads are at work an engine gets a block of 64 samples as loud as 1 and a response of 5000 samples, and
then 100 silent blocks; then all samples of the next 5 blocks it puts out are exactly 0. -/
example : ∃ (build : Buf × ConvolverSpec → ProcSpec → Convolver) (s1 s2 s3 : Sys Convolver (Buf × ConvolverSpec)) (ls1 ls2 ls3 : List (Label (Buf × ConvolverSpec))),
    ConstructsR singleFFT 2 9 build ∧ Exec singleOps build ls1 s1 ∧ Run singleOps build s1 ls2 s2 ∧ Run singleOps build s2 ls3 s3 ∧
    inputsIn 0 ls1 = [⟨2, 64, fun _ _ => 1⟩] ∧ inputsIn 0 ls2 = List.replicate 100 hush ∧ inputsIn 0 ls3 = List.replicate 5 hush ∧ takenBy 0 ls1 = [0, 1] ∧
    (∀ b ∈ inputsIn 0 (ls1 ++ ls2 ++ ls3), AtMost 1 b) ∧ (∃ G, ∀ b ∈ (s3.engs 0).outs, AtMost ((1 + 2⁻¹ ^ 24) ^ (8 * 48000 + 6) * (max 1 G * 1)) b) ∧
    ∃ outs, (s3.engs 0).outs = (s2.engs 0).outs ++ outs ∧ ∀ b ∈ outs, AtMost 0 b := by
  obtain ⟨v0, _⟩ := example_convolverR
  obtain ⟨build, hB⟩ := constructsR_exists (single_accurate 9) singleFFT_approx 2 v0
  let b : Buf := ⟨2, 64, fun _ _ => 1⟩
  obtain ⟨s0, d, h, hp, hd, hc⟩ := firstBlockBusy_exec (ops := singleOps) (build := build) (exampleIR, exampleSpec) b
  have hA := accepts_convolverR (single_accurate 9) singleFFT_approx (.rounded round24) 2
  have hbeh : ∀ m, HostBehaves 2 none ((.prepare exampleFormat fun _ _ => 0) :: .process b :: List.replicate m (.process hush)) := by
    intro m
    refine ⟨exampleFormat_valid, rfl, fun j hj => (by cases hj; exact le_rfl), ?_⟩
    induction m with
    | zero => trivial
    | succ m ih => exact ⟨rfl, fun j hj => (by cases hj; exact le_rfl), ih⟩
  have hU : ∀ ls : List (Label (Buf × ConvolverSpec)), loadsIn ls = [(0, (exampleIR, exampleSpec))] → formatsIn 0 ls = [exampleFormat] → UsableLoadsR 2 9 0 ls := by
    intro ls e1 e2 i ir cs hi p hp
    rw [e1] at hi
    rw [e2] at hp
    rw [List.mem_singleton.1 hp]
    have e : (0, (ir, cs)) = (0, (exampleIR, exampleSpec)) := List.mem_singleton.1 (List.mem_of_getElem? hi)
    simp only [Prod.mk.injEq, true_and] at e
    obtain ⟨rfl, rfl⟩ := e
    exact ⟨exampleUsable, _, _, _, example_cut⟩
  obtain ⟨s1, x1, x2, x3, x4, x5, -⟩ := ends_block hA h hp (hbeh 0) (usable_goodR hB (hU _ rfl rfl))
  obtain ⟨s2, y1, y2, y3, y4, y5, y6, y7, -, y9, y10⟩ := quiet_calls hA (b := hush) 100 x1 x2 x3 (x5.trans hc) (fun m _ => hbeh m) (usable_goodR hB (hU _ rfl rfl))
  have hl : loadsIn (firstBlockBusy (exampleIR, exampleSpec) b ++ [.body 0]) = [(0, (exampleIR, exampleSpec))] := rfl
  have hf : formatsIn 0 (firstBlockBusy (exampleIR, exampleSpec) b ++ [.body 0]) = [exampleFormat] := rfl
  have hk : callsIn 0 (firstBlockBusy (exampleIR, exampleSpec) b ++ [.body 0]) = [.prepare exampleFormat fun _ _ => 0, .process b] := rfl
  have hi1 : inputsIn 0 (firstBlockBusy (exampleIR, exampleSpec) b ++ [.body 0]) = [b] := rfl
  have ht1 : takenBy 0 (firstBlockBusy (exampleIR, exampleSpec) b ++ [.body 0]) = [0, 1] := rfl
  generalize firstBlockBusy (exampleIR, exampleSpec) b ++ [.body 0] = ls1 at x1 y1 y5 y6 y7 hl hf hk hi1 ht1
  rw [hl] at y6
  rw [hf] at y7
  rw [hk] at y5
  have hrep : ∀ m n, HostBehaves 2 none ([.prepare exampleFormat fun _ _ => 0, .process b] ++ List.replicate m (.process hush) ++ List.replicate n (.process hush)) := by
    intro m n
    rw [List.append_assoc, ← List.replicate_add]
    exact hbeh _
  obtain ⟨s3, z1, z2, z3, z4, z5, z6, z7, -, -, z10⟩ := quiet_calls hA (b := hush) 5 y1 y2 y3 y9 (fun m _ => by rw [y5]; exact hrep 100 m) (usable_goodR hB (hU _ y6 y7))
  rw [y5] at z5
  rw [y6] at z6
  rw [y7] at z7
  have hin : inputsIn 0 (ls1 ++ quietCalls 100 hush ++ quietCalls 5 hush) = [b] ++ List.replicate 100 hush ++ List.replicate 5 hush := by
    unfold inputsIn
    rw [callsIn_append, callsIn_append, List.filterMap_append, List.filterMap_append]
    exact congrArg₂ _ (congrArg₂ _ hi1 (quietCalls_inputs 100 hush)) (quietCalls_inputs 5 hush)
  have hin2 : inputsIn 0 (quietCalls 100 hush ++ quietCalls 5 hush : List (Label (Buf × ConvolverSpec))) = List.replicate 100 hush ++ List.replicate 5 hush := by
    unfold inputsIn
    rw [callsIn_append, List.filterMap_append]
    exact congrArg₂ _ (quietCalls_inputs 100 hush) (quietCalls_inputs 5 hush)
  have h0 : ∀ x ∈ List.replicate 100 hush ++ List.replicate 5 hush, AtMost 0 x := by
    intro x hx
    have : x = hush := by
      rcases List.mem_append.1 hx with hx | hx <;> exact List.eq_of_mem_replicate hx
    rw [this]
    intro ch _ i _
    show |(0 : ℝ)| ≤ 0
    rw [abs_zero]
  have hI : ∀ x ∈ inputsIn 0 (ls1 ++ quietCalls 100 hush ++ quietCalls 5 hush), AtMost 1 x := by
    intro x hx
    rw [hin, List.append_assoc] at hx
    rcases List.mem_append.1 hx with hx | hx
    · rw [List.mem_singleton.1 hx]
      intro ch _ i _
      show |(1 : ℝ)| ≤ 1
      rw [abs_one]
    · exact fun ch hc i hi => (h0 x hx ch hc i hi).trans zero_le_one
  have hH : HostBehaves 2 none (callsIn 0 (ls1 ++ quietCalls 100 hush ++ quietCalls 5 hush)) := by rw [z5]; exact hrep 100 5
  have hu := hU _ z6 z7
  have hC : CutAs 9 0 (ls1 ++ quietCalls 100 hush ++ quietCalls 5 hush) (fun _ => 18) (fun _ => 64) (fun _ => [⟨1, 9⟩, ⟨4, 18⟩]) := by
    intro i p hp
    have g1 := handedOver_lt hp
    have g2 := handedOver_format hp
    rw [z6] at g1
    rw [z7] at g2
    rw [List.mem_singleton.1 g2]
    have e : (0, (requestedIR (ls1 ++ quietCalls 100 hush ++ quietCalls 5 hush) i, requestedSpec (ls1 ++ quietCalls 100 hush ++ quietCalls 5 hush) i)) = (0, (exampleIR, exampleSpec)) :=
      List.mem_singleton.1 (List.mem_of_getElem? g1)
    simp only [Prod.mk.injEq, true_and] at e
    rw [e.1, e.2]
    exact example_cut
  have hr : ∀ p ∈ formatsIn 0 (ls1 ++ quietCalls 100 hush ++ quietCalls 5 hush), ∃ r : ℕ, p.sampleRate = r ∧ r ≤ 48000 := by
    intro p hp
    rw [z7] at hp
    rw [List.mem_singleton.1 hp]
    exact ⟨48000, by norm_num [exampleFormat], le_rfl⟩
  refine ⟨build, s1, s2, s3, ls1, _, _, hB, x1, y10, z10, hi1, quietCalls_inputs 100 hush, quietCalls_inputs 5 hush, ht1, hI, ?_, ?_⟩
  · obtain ⟨G, hG⟩ := strongest (LoudestR _ _ _ 9 (requestedIR (ls1 ++ quietCalls 100 hush ++ quietCalls 5 hush))
      (requestedSpec (ls1 ++ quietCalls 100 hush ++ quietCalls 5 hush)) (fun _ => 18) (fun _ => 64) (fun _ => [⟨1, 9⟩, ⟨4, 18⟩])) 2 [((s3.engs 0).delivered, .reset)]
    exact ⟨G, C79_concurrent (single_accurate 9) singleFFT_approx accurateGains_single (by norm_num) hB z1 z2 z3 hH hu hC hr zero_le_one hI (fun d hd => hG _ (List.mem_singleton_self _) d hd)⟩
  · refine C81_silence_concurrent (single_accurate 9) singleFFT_approx accurateGains_single (R := 48000) (by norm_num) hB x1 y10 z10 x3 y3 z2 z3 hH hu hC hr (by rw [hin2]; exact h0) (fun d hdm => ?_)
    have hid : d.id = 0 := by
      rw [x4, hd, List.mem_singleton] at hdm
      rw [hdm]
    have : requestedIR (ls1 ++ quietCalls 100 hush ++ quietCalls 5 hush) d.id = exampleIR := by
      unfold requestedIR
      rw [z6, hid]; rfl
    rw [this, quietCalls_inputs]
    have hlen : ∀ n, totalLen (List.replicate n hush) = n * 64 := by
      intro n
      induction n with
      | zero => rfl
      | succ n ih =>
        rw [List.replicate_succ, Nat.succ_mul, ← ih, Nat.add_comm]
        rfl
    rw [hlen]
    norm_num [exampleIR]

end Zones.Props
