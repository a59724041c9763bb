import Verif.Props.SplittingThreads
import Verif.Props.EngineLinearThreadsExamples

/-!
# Executions for which the hypotheses of C103 in the concurrent system hold
-/

open Zones.Spec Zones.Model Zones.Proofs

namespace Zones.Props

variable {build : Buf × ConvolverSpec → ProcSpec → Convolver}

/-- Another block, which finds nothing in the queue. -/
theorem another_block (hB : Constructs referenceFFT 2 build) {ls : List (Label (Buf × ConvolverSpec))} {s : Sys Convolver (Buf × ConvolverSpec)} (h : Exec (convolverOps referenceFFT) build ls s)
    (ha : (s.engs 0).status = .alive) (hi : (s.engs 0).pc = .idle) (hc : (s.engs 0).cmd = []) {b : Buf} (hH : HostBehaves 2 none (callsIn 0 ls ++ [.process b])) (hU : UsableLoads 2 0 ls) :
    ∃ s', Exec (convolverOps referenceFFT) build (ls ++ emptyCall 0 (.process b)) s' ∧ (s'.engs 0).status = .alive ∧ (s'.engs 0).pc = .idle ∧
      (s'.engs 0).delivered = (s.engs 0).delivered := by
  have hr : ∃ s1, Run (convolverOps referenceFFT) build s [.call 0 (.process b), .service 0, .serviced 0] s1 ∧ (s1.engs 0).pc = .served (.process b) [] ∧
      (s1.engs 0).status = .alive ∧ (s1.engs 0).delivered = (s.engs 0).delivered := by
    have h2 : ((s.setEng 0 { s.engs 0 with
          core := (s.engs 0).core.callHead (.process b)
          loading := if Call.resets (.process b) then false else (s.engs 0).loading
          pc := .entered (.process b) }).engs 0).pc = .entered (.process b) := by simp [setEng_engs]
    refine ⟨_, .cons (.call ha hi) (.cons (.service h2) (.cons (.serviced (k := .process b) (done := []) ?_) (.nil _))), ?_, ?_, ?_⟩
    · simp [setEng_engs, hc]
    · simp [setEng_engs]
    · simp [setEng_engs, ha]
    · simp [setEng_engs]
  obtain ⟨s1, r1, p1, a1, d1⟩ := hr
  have hx := exec_append h r1
  have e1 : callsIn 0 (ls ++ [.call 0 (.process b), .service 0, .serviced 0]) = callsIn 0 ls ++ [.process b] := by rw [callsIn_append]; rfl
  have e2 : loadsIn (ls ++ [.call 0 (.process b), .service 0, .serviced 0]) = loadsIn ls := by rw [loadsIn_append]; exact List.append_nil _
  have e3 : formatsIn 0 (ls ++ [.call 0 (.process b), .service 0, .serviced 0]) = formatsIn 0 ls := by
    unfold formatsIn; rw [e1, List.filterMap_append]; exact List.append_nil _
  obtain ⟨r, hr⟩ := body_defined (accepts_convolver referenceFFT_lawful 2) hx (e := 0) (by rw [e1]; exact hH)
    (usable_good hB fun i ir cs hi p hp => hU i ir cs (by rw [← e2]; exact hi) p (by rw [← e3]; exact hp)) p1
  have hx2 := exec_append hx (Run.single (.body p1 hr))
  rw [List.append_assoc] at hx2
  refine ⟨_, hx2, ?_, ?_, ?_⟩
  · simp [setEng_engs, finish_eq, a1]
  · simp [setEng_engs, finish_eq]
  · simp [setEng_engs, finish_eq, d1]

/-- The hypotheses of `C103_concurrent` hold for one block of 64 samples, and for two of 32 samples while other threads are at work. -/
example : ∃ (build : Buf × ConvolverSpec → ProcSpec → Convolver) (s s' : Sys Convolver (Buf × ConvolverSpec)) (ls ls' : List (Label (Buf × ConvolverSpec))),
    Exec (convolverOps referenceFFT) build ls s ∧ Exec (convolverOps referenceFFT) build ls' s' ∧
    callsIn 0 ls = [.prepare exampleFormat fun _ _ => 0, .process (ones 64)] ∧ callsIn 0 ls' = [.prepare exampleFormat fun _ _ => 0, .process (ones 32), .process (ones 32)] ∧
    takenBy 0 ls = [0, 1] ∧ takenBy 0 ls' = [0, 1, 0] ∧ SameSignal 2 (s.engs 0).outs (s'.engs 0).outs := by
  obtain ⟨v0, _⟩ := example_convolver
  obtain ⟨build, hB⟩ := constructs_exists referenceFFT_lawful 2 v0
  obtain ⟨s, d, h, hp, hd, _⟩ := oneBlock_exec (build := build) (ones 64)
  obtain ⟨t, d', h', hp', hd', hc'⟩ := oneBlockBusy_exec (build := build) (ones 32)
  obtain ⟨s1, q1, q2, q3, q4, _, q5, q6, q7⟩ := oneBlock_done hB (b := ones 64) rfl le_rfl h hp rfl rfl
  obtain ⟨t1, w1, w2, w3, w4, w5, w6, w7, w8⟩ := oneBlock_done hB (b := ones 32) rfl (by norm_num [ones]) h' hp' rfl rfl
  have hH2 : HostBehaves 2 none [.prepare exampleFormat fun _ _ => 0, .process (ones 32), .process (ones 32)] := by
    have : (32 : ℕ) ≤ exampleFormat.maximumBlockSize := by decide
    exact ⟨exampleFormat_valid, rfl, fun m hm => (by cases hm; exact this), rfl, fun m hm => (by cases hm; exact this), trivial⟩
  obtain ⟨t2, x1, x2, x3, x4⟩ := another_block hB w1 w2 w3 (w5.trans hc') (b := ones 32) hH2 w7
  refine ⟨build, s1, t2, _, _, q1, x1, rfl, rfl, rfl, rfl, ?_⟩
  have e2 : loadsIn ((oneBlockBusy (ones 32) ++ [.body 0]) ++ emptyCall 0 (.process (ones 32))) = loadsIn (oneBlock (ones 64) ++ [.body 0]) := rfl
  have e3 : formatsIn 0 ((oneBlockBusy (ones 32) ++ [.body 0]) ++ emptyCall 0 (.process (ones 32))) = formatsIn 0 (oneBlock (ones 64) ++ [.body 0]) := rfl
  have hsig : SameSignal 2 [ones 64] [ones 32, ones 32] := by
    have := ones_len 64 1
    have h2 := ones_len 32 2
    refine ⟨rfl, fun ch _ t => ?_⟩
    have h3 := ones_stream 64 1 ch t
    have h4 := ones_stream 32 2 ch t
    exact h3.trans h4.symm
  refine C103_concurrent referenceFFT_lawful hB hB q1 x1 q2 q3 x2 x3 q5 hH2 q6 (fun i ir cs hi p hp => q6 i ir cs (by rw [← e2]; exact hi) p (by rw [← e3]; exact hp)) q7 (by rw [e3]; exact q7)
    (ps := [([], .other (.prepare exampleFormat fun _ _ => 0)), ([0], .play (ones 64) [])]) (qs := [([], .other (.prepare exampleFormat fun _ _ => 0)), ([0], .play (ones 32) [ones 32])])
    ⟨rfl, rfl, ?_⟩ ⟨rfl, rfl, ?_⟩ (.cons ⟨rfl, .other _⟩ (.cons ⟨rfl, .play hsig ?_ ?_⟩ .nil)) (fun d _ => by rw [e2]) ?_
  · rw [q4, hd]; exact List.prefix_refl _
  · rw [x4, w4, hd']; exact List.prefix_refl _
  · intro q hq
    rw [List.mem_singleton.1 hq]
    show 0 < 64
    norm_num
  · intro q hq
    have : q = ones 32 := by
      rcases List.mem_cons.1 hq with rfl | hq
      · rfl
      · exact List.mem_singleton.1 hq
    rw [this]
    show 0 < 32
    norm_num
  · exact ⟨fun b bs e => (by cases e), fun b bs e => trivial, trivial⟩

end Zones.Props
