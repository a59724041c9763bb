import Verif.Props.EngineLinearThreads
import Verif.Props.FairExamples

/-!
# Executions for which the hypotheses of C102 in the concurrent system hold
-/

open Zones.Spec Zones.Model Zones.Proofs

namespace Zones.Props

/-- The rest of a call is defined, whatever it has found. -/
theorem body_defined {V R : Type} {ops : ConvOps V} {build : R → ProcSpec → V} {ls : List (Label R)} {s : Sys V R} {N : ℕ} {Good : V → Prop} (hA : Accepts ops N Good)
    (h : Exec ops build ls s) {e : ℕ} (hH : HostBehaves N none (callsIn e ls)) (hG : GoodLoads build Good e ls) {k : Call} {d : List (Held V)} (hp : (s.engs e).pc = .served k d) :
    ∃ r, (s.engs e).core.callBody ops k = some r := by
  have hF1 := (exec_inv h).flow e
  have ha1 : (s.engs e).status = .alive := hF1.alive (by rw [hp]; simp)
  have hw := history_fits h (N := N) (Good := Good) ha1 hH hG
  rw [hp] at hw
  obtain ⟨c, _, hc⟩ := C49_defined hA hw
  obtain ⟨c0, g1, g2⟩ := hF1.refines (by rw [ha1]; simp)
  rw [hp] at g2
  have hc : ({} : Core V).calls ops ((s.engs e).hist ++ [(d, k)]) = some c := hc
  rw [calls_snoc, g1, Option.bind_some, Option.map_eq_some_iff] at hc
  obtain ⟨r, hr, _⟩ := hc
  exact ⟨r, by rw [show (s.engs e).core = _ from g2]; exact hr⟩

/-- Create, prepare, load, deliver, and begin to process a block. -/
def oneBlock (b : Buf) : List (Label (Buf × ConvolverSpec)) :=
  [.create 0] ++ emptyCall 0 (.prepare exampleFormat fun _ _ => 0) ++ loadCall 0 (exampleIR, exampleSpec) ++ jobRun 0 ++ [.call 0 (.process b), .service 0, .visit 0, .serviced 0]

/-- The same, with another engine, and the background thread and the message thread at work. -/
def oneBlockBusy (b : Buf) : List (Label (Buf × ConvolverSpec)) :=
  [.create 1, .create 0] ++ emptyCall 0 (.prepare exampleFormat fun _ _ => 0) ++ loadCall 0 (exampleIR, exampleSpec) ++ [.bgBegin 0] ++ jobRun 0 ++
    [.call 0 (.process b), .async, .service 0, .bgEnd 0, .visit 0, .serviced 0]

variable {build : Buf × ConvolverSpec → ProcSpec → Convolver}

theorem oneBlock_exec (b : Buf) : ∃ s d, Exec (convolverOps referenceFFT) build (oneBlock b) s ∧ (s.engs 0).pc = .served (.process b) d ∧
    (s.engs 0).delivered = [⟨0, build (exampleIR, exampleSpec) exampleFormat⟩] ∧ (s.engs 0).cmd = [] := by
  let req : Buf × ConvolverSpec := (exampleIR, exampleSpec)
  refine ⟨_, _, .cons (.create rfl) (.cons (.call rfl rfl) (.cons (.service rfl) (.cons (.serviced rfl) (.cons (.body rfl rfl)
    (.cons (.loadLock rfl ⟨rfl, rfl⟩) (.cons (.loadRemove rfl) (.cons (.loadFlag rfl (by exact Option.some_ne_none exampleFormat)) (.cons (.loadAdd rfl rfl)
    (.cons (.pick rfl) (.cons (.build (j := ⟨0, 0, req, exampleFormat, false, .building⟩) ?_ rfl)
    (.cons (.jobLock (j := ⟨0, 0, req, exampleFormat, false, .built (build req exampleFormat)⟩) ?_ rfl rfl ⟨rfl, rfl⟩)
    (.cons (.jobPush (j := ⟨0, 0, req, exampleFormat, false, .locked (build req exampleFormat)⟩) ?_ rfl rfl rfl ?_)
    (.cons (.jobDone (j := ⟨0, 0, req, exampleFormat, false, .pushed⟩) ?_ rfl rfl)
    (.cons (.call rfl rfl) (.cons (.service rfl) (.cons (.visit rfl rfl) (.cons (.serviced rfl) (.nil _)))))))))))))))))), rfl, rfl, rfl⟩
  · exact List.Mem.head _
  · exact List.Mem.head _
  · exact List.Mem.head _
  · show (0 : ℕ) < _
    decide
  · exact List.Mem.head _

theorem oneBlockBusy_exec (b : Buf) : ∃ s d, Exec (convolverOps referenceFFT) build (oneBlockBusy b) s ∧ (s.engs 0).pc = .served (.process b) d ∧
    (s.engs 0).delivered = [⟨0, build (exampleIR, exampleSpec) exampleFormat⟩] ∧ (s.engs 0).cmd = [] := by
  let req : Buf × ConvolverSpec := (exampleIR, exampleSpec)
  refine ⟨_, _, .cons (.create rfl) (.cons (.create rfl) (.cons (.call rfl rfl) (.cons (.service rfl) (.cons (.serviced rfl) (.cons (.body rfl rfl)
    (.cons (.loadLock rfl ⟨rfl, rfl⟩) (.cons (.loadRemove rfl) (.cons (.loadFlag rfl (by exact Option.some_ne_none exampleFormat)) (.cons (.loadAdd rfl rfl)
    (.cons (.bgBegin rfl rfl)
    (.cons (.pick rfl) (.cons (.build (j := ⟨0, 0, req, exampleFormat, false, .building⟩) ?_ rfl)
    (.cons (.jobLock (j := ⟨0, 0, req, exampleFormat, false, .built (build req exampleFormat)⟩) ?_ rfl rfl ⟨rfl, rfl⟩)
    (.cons (.jobPush (j := ⟨0, 0, req, exampleFormat, false, .locked (build req exampleFormat)⟩) ?_ rfl rfl rfl ?_)
    (.cons (.jobDone (j := ⟨0, 0, req, exampleFormat, false, .pushed⟩) ?_ rfl rfl)
    (.cons (.call rfl rfl) (.cons (.async rfl rfl) (.cons (.service rfl) (.cons (.bgEnd rfl) (.cons (.visit rfl rfl) (.cons (.serviced rfl) (.nil _)))))))))))))))))))))), rfl, rfl, rfl⟩
  · exact List.Mem.head _
  · exact List.Mem.head _
  · exact List.Mem.head _
  · show (0 : ℕ) < _
    decide
  · exact List.Mem.head _

/-- The block is processed to its end. -/
theorem oneBlock_done {b : Buf} (hB : Constructs referenceFFT 2 build) (hc : b.ch = 2) (hn : b.n ≤ 64) {ls : List (Label (Buf × ConvolverSpec))}
    {s : Sys Convolver (Buf × ConvolverSpec)} {d : List (Held Convolver)} (h : Exec (convolverOps referenceFFT) build ls s) (hp : (s.engs 0).pc = .served (.process b) d)
    (hcalls : callsIn 0 ls = [.prepare exampleFormat fun _ _ => 0, .process b]) (hloads : loadsIn ls = [(0, (exampleIR, exampleSpec))]) :
    ∃ s', Exec (convolverOps referenceFFT) build (ls ++ [.body 0]) s' ∧ (s'.engs 0).status = .alive ∧ (s'.engs 0).pc = .idle ∧ (s'.engs 0).delivered = (s.engs 0).delivered ∧ (s'.engs 0).cmd = (s.engs 0).cmd ∧
      HostBehaves 2 none (callsIn 0 (ls ++ [.body 0])) ∧ UsableLoads 2 0 (ls ++ [.body 0]) ∧ ∀ p ∈ formatsIn 0 (ls ++ [.body 0]), ∃ r : ℕ, p.sampleRate = r ∧ r ≤ 200000 := by
  have hH : HostBehaves 2 none (callsIn 0 ls) := by
    rw [hcalls]
    exact ⟨exampleFormat_valid, hc, fun m hm => (by cases hm; exact hn), trivial⟩
  have hf : ∀ p ∈ formatsIn 0 ls, p = exampleFormat := by
    intro p hp
    unfold formatsIn at hp
    rw [hcalls] at hp
    exact List.mem_singleton.1 hp
  have hU : UsableLoads 2 0 ls := by
    intro i ir cs hi p hp
    rw [hloads] at hi
    have := List.mem_singleton.1 (List.mem_of_getElem? hi)
    have : (ir, cs) = (exampleIR, exampleSpec) := congrArg Prod.snd this
    cases this
    rw [hf p hp]
    exact exampleUsable
  obtain ⟨r, hr⟩ := body_defined (accepts_convolver referenceFFT_lawful 2) h hH (usable_good hB hU) hp
  have ha : (s.engs 0).status = .alive := ((exec_inv h).flow 0).alive (by rw [hp]; simp)
  have e1 : callsIn 0 (ls ++ [.body 0]) = callsIn 0 ls := by rw [callsIn_append]; exact List.append_nil _
  have e2 : loadsIn (ls ++ [.body 0]) = loadsIn ls := by rw [loadsIn_append]; exact List.append_nil _
  have e3 : formatsIn 0 (ls ++ [.body 0]) = formatsIn 0 ls := by unfold formatsIn; rw [e1]
  refine ⟨_, exec_append h (Run.single (.body hp hr)), ?_, ?_, ?_, ?_, by rw [e1]; exact hH, fun i ir cs hi p hp => hU i ir cs (by rw [← e2]; exact hi) p (by rw [← e3]; exact hp), fun p hp => ?_⟩
  · simp [setEng_engs, finish_eq, ha]
  · simp [setEng_engs, finish_eq]
  · simp [setEng_engs, finish_eq]
  · simp [setEng_engs, finish_eq]
  · rw [hf p (by rw [← e3]; exact hp)]
    exact ⟨48000, by norm_num [exampleFormat], by norm_num⟩

/-- Two executions for which the hypotheses of `C102_concurrent_causal` hold: in the second, there is another engine, other threads act in between, and the samples differ from sample 10 on. -/
theorem example_alike : ∃ (build : Buf × ConvolverSpec → ProcSpec → Convolver) (b b' : Buf) (s s' : Sys Convolver (Buf × ConvolverSpec)) (ls ls' : List (Label (Buf × ConvolverSpec))),
    Constructs referenceFFT 2 build ∧ Exec (convolverOps referenceFFT) build ls s ∧ Exec (convolverOps referenceFFT) build ls' s' ∧
    (s.engs 0).status = .alive ∧ (s.engs 0).pc = .idle ∧ (s'.engs 0).status = .alive ∧ (s'.engs 0).pc = .idle ∧ HostBehaves 2 none (callsIn 0 ls) ∧ UsableLoads 2 0 ls ∧ UsableLoads 2 0 ls' ∧
    (∀ p ∈ formatsIn 0 ls, ∃ r : ℕ, p.sampleRate = r ∧ r ≤ 200000) ∧ AlikeFor 0 ls s ls' s' ∧ takenBy 0 ls = [0, 1] ∧ inputsIn 0 ls = [b] ∧ inputsIn 0 ls' = [b'] ∧ .create 1 ∈ ls' ∧ .create 1 ∉ ls ∧
    b.data 0 10 ≠ b'.data 0 10 ∧ ∀ c, ∀ i < 10, b.data c i = b'.data c i := by
  obtain ⟨v0, _⟩ := example_convolver
  obtain ⟨build, hB⟩ := constructs_exists referenceFFT_lawful 2 v0
  let b : Buf := ⟨2, 64, fun _ _ => 1⟩
  let b' : Buf := ⟨2, 64, fun _ i => if i < 10 then 1 else 2⟩
  obtain ⟨s, d, h, hp, hd, _⟩ := oneBlock_exec (build := build) b
  obtain ⟨t, d', h', hp', hd', _⟩ := oneBlockBusy_exec (build := build) b'
  obtain ⟨s1, q1, q2, q3, q4, _, q5, q6, q7⟩ := oneBlock_done hB (b := b) rfl le_rfl h hp rfl rfl
  obtain ⟨t1, w1, w2, w3, w4, _, _, w6, _⟩ := oneBlock_done hB (b := b') rfl le_rfl h' hp' rfl rfl
  refine ⟨build, b, b', s1, t1, _, _, hB, q1, w1, q2, q3, w2, w3, q5, q6, w6, q7, ⟨?_, rfl, by rw [w4, q4, hd, hd'], fun d hd => ?_⟩, rfl, rfl, rfl, ?_, ?_, ?_, ?_⟩
  · exact .cons (.prepare _ _ _) (.cons (.process rfl rfl) .nil)
  · have e1 : loadsIn (oneBlockBusy b' ++ [.body 0]) = loadsIn (oneBlock b ++ [.body 0]) := rfl
    rw [e1]
  · exact List.mem_cons_self ..
  · intro hc
    simp [oneBlock, emptyCall, loadCall, jobRun] at hc
  · show (1 : ℝ) ≠ if 10 < 10 then 1 else 2
    norm_num
  · intro c i hi
    show (1 : ℝ) = if i < 10 then 1 else 2
    rw [if_pos hi]

end Zones.Props
