import Verif.Props.Listeners

/-!
# Concrete executions with listeners
-/

open Zones.Spec Zones.Model Zones.Proofs

namespace Zones.Props

variable {V R : Type} {ops : ConvOps V} {build : R → ProcSpec → V}

/-- Create an engine, prepare it, add the listeners 7, 8 and 9. -/
def listenersAdded (p : ProcSpec) : List (LLabel R) :=
  [.sys (.create 0), .sys (.call 0 (.prepare p fun _ _ => 0)), .sys (.service 0), .sys (.serviced 0), .sys (.body 0), .register 0 7, .register 0 8, .register 0 9]

/-- A load whose `LoadIR` calls listener 7, which removes 8, and then 9. -/
def loudLoad (req : R) : List (LLabel R) :=
  [.sys (.loadLock 0 req), .sys (.loadRemove 0), .sys (.loadFlag 0), .tellLoadIR 0, .unregister 0 8, .tellLoadIR 0, .sys (.loadAdd 0)]

/-- The job runs; the message thread calls 7, and is about to call 9. -/
def loudJob : List (LLabel R) :=
  [.sys .pick, .sys (.build 0), .sys (.jobLock 0), .sys (.jobCheck 0), .sys (.jobDone 0), .sys .async, .tellMessages]

/-- A load and its calls: listener 7 is called twice, 8 never, because 7 removed it before its turn, 9 once, and is due once more. -/
theorem example_listeners (p : ProcSpec) (req : R) : ∃ x : LSys V R, LExec ops build (listenersAdded p ++ loudLoad req ++ loudJob) x ∧ (x.sys.engs 0).status = .alive ∧
    callsOf 0 7 x.log = [⟨0, 7, .loadIR, true⟩, ⟨0, 7, .messages, false⟩] ∧ callsOf 0 8 x.log = [] ∧ callsOf 0 9 x.log = [⟨0, 9, .loadIR, true⟩] ∧ BeingCalled x 0 9 ∧
    (x.sys.engs 0).loading = false ∧ x.regs 0 = [7, 9] ∧ x.announced 0 = [0] ∧ x.completed 0 = [0] := by
  obtain ⟨x, h, h1, h2, h3⟩ : ∃ x : LSys V R, LExec ops build (listenersAdded p ++ loudLoad req ++ loudJob) x ∧ (x.sys.engs 0).status = .alive ∧
      x.log = [⟨0, 7, .loadIR, true⟩, ⟨0, 9, .loadIR, true⟩, ⟨0, 7, .messages, false⟩] ∧ BeingCalled x 0 9 ∧
      (x.sys.engs 0).loading = false ∧ x.regs 0 = [7, 9] ∧ x.announced 0 = [0] ∧ x.completed 0 = [0] := by
   refine ⟨_, .cons (.sys (.create rfl) nofun nofun nofun) (.cons (.sys (.call rfl rfl) nofun nofun nofun) (.cons (.sys (.service rfl) nofun nofun nofun) (.cons (.sys (.serviced rfl) nofun nofun nofun)
    (.cons (.sys (.body rfl rfl) nofun nofun nofun) (.cons (.register rfl) (.cons (.register rfl) (.cons (.register rfl)
    (.cons (.sys (.loadLock rfl ⟨rfl, rfl⟩) nofun nofun nofun) (.cons (.sys (.loadRemove rfl) nofun nofun nofun) (.cons (.sys (.loadFlag rfl (by exact Option.some_ne_none p)) nofun nofun nofun)
    (.cons (.tellLoadIR (l := 7) (rest := [8, 9]) rfl) (.cons (.unregister rfl) (.cons (.tellLoadIR (l := 9) (rest := []) rfl) (.cons (.sys (.loadAdd rfl rfl) (by rintro e ⟨⟩; rfl) nofun nofun)
    (.cons (.sys (.pick rfl) nofun nofun nofun) (.cons (.sys (.build (j := ⟨0, 0, req, p, false, .building⟩) ?_ rfl) nofun nofun nofun)
    (.cons (.sys (.jobLock (j := ⟨0, 0, req, p, false, .built (build req p)⟩) ?_ rfl rfl ⟨rfl, rfl⟩) nofun nofun nofun)
    (.cons (.sys (.jobPush (j := ⟨0, 0, req, p, false, .locked (build req p)⟩) ?_ rfl rfl rfl ?_) nofun nofun nofun)
    (.cons (.sys (.jobDone (j := ⟨0, 0, req, p, false, .pushed⟩) ?_ rfl rfl) nofun nofun nofun)
    (.cons (.sys (.async (e := 0) (rest := []) rfl rfl) nofun (fun _ => rfl) nofun) (.cons (.tellMessages (l := 7) (rest := [9]) rfl) (.nil _)))))))))))))))))))))), ?_⟩
   · exact List.Mem.head _
   · exact List.Mem.head _
   · exact List.Mem.head _
   · show (0 : ℕ) < _
     decide
   · exact List.Mem.head _
   · exact ⟨rfl, rfl, Or.inr ⟨rfl, List.Mem.head _⟩, rfl, rfl, rfl, rfl⟩
  refine ⟨x, h, h1, ?_, ?_, ?_, h3⟩ <;> rw [h2] <;> decide

/-- `C108_called_once_for_each_load` applied to it: listener 9 has been called once by `LoadIR`, and has one call on the message thread to come. -/
example (p : ProcSpec) (req : R) : ∃ x : LSys V R, LExec ops build (listenersAdded p ++ loudLoad req ++ loudJob) x ∧
    ((callsOf 0 9 x.log).filter fun t => t.caller = .loadIR).length + (if 9 ∈ x.loud 0 then 1 else 0) = (x.announced 0).length := by
  obtain ⟨x, h, h1, _⟩ := example_listeners (ops := ops) (build := build) p req
  have h' : LExec ops build (([.sys (.create 0), .sys (.call 0 (.prepare p fun _ _ => 0)), .sys (.service 0), .sys (.serviced 0), .sys (.body 0), .register 0 7, .register 0 8]) ++
      .register 0 9 :: (loudLoad req ++ loudJob)) x := by
    simpa [listenersAdded] using h
  exact ⟨x, h, (C108_called_once_for_each_load h' (by simp) (by simp [loudLoad, loudJob]) h1).1⟩

/-- The same engine is loaded, and reset before a worker has picked the job; then another engine, which is not even prepared, is asked to load something, which cancels the job. -/
def loudReset (req req' : R) : List (LLabel R) :=
  [.sys (.create 1), .sys (.loadLock 0 req), .sys (.loadRemove 0), .sys (.loadFlag 0), .tellLoadIR 0, .tellLoadIR 0, .tellLoadIR 0, .sys (.loadAdd 0),
   .sys (.call 0 .reset), .sys (.service 0), .sys (.serviced 0), .sys (.body 0), .sys (.loadLock 1 req'), .sys (.loadRemove 1), .sys (.loadFlag 1)]

/-- **C108.** The exception in `C108_listeners_are_up_to_date` for engines that have been reset is necessary: here `IsLoading` is false, the listeners were last called when it was true, and nothing
is left that would call them: no job, no call of `LoadIR`, no callback waiting for the message thread, no round of calls. -/
theorem C108_reset_is_not_announced (p : ProcSpec) (req req' : R) : ∃ x : LSys V R, LExec ops build (listenersAdded p ++ loudReset req req') x ∧
    (x.sys.engs 0).loading = false ∧ callsOf 0 7 x.log = [⟨0, 7, .loadIR, true⟩] ∧ x.regs 0 = [7, 8, 9] ∧ ¬ BeingCalled x 0 7 ∧ x.sys.jobs = [] ∧ x.sys.async = [] ∧
    ∀ e, (x.sys.engs e).loader = none := by
  obtain ⟨x, h, h1, h2, h3⟩ : ∃ x : LSys V R, LExec ops build (listenersAdded p ++ loudReset req req') x ∧
      (x.sys.engs 0).loading = false ∧ x.log = [⟨0, 7, .loadIR, true⟩, ⟨0, 8, .loadIR, true⟩, ⟨0, 9, .loadIR, true⟩] ∧ x.regs 0 = [7, 8, 9] ∧ ¬ BeingCalled x 0 7 ∧
      x.sys.jobs = [] ∧ x.sys.async = [] ∧ ∀ e, (x.sys.engs e).loader = none := by
   refine ⟨_, .cons (.sys (.create rfl) nofun nofun nofun) (.cons (.sys (.call rfl rfl) nofun nofun nofun) (.cons (.sys (.service rfl) nofun nofun nofun) (.cons (.sys (.serviced rfl) nofun nofun nofun)
    (.cons (.sys (.body rfl rfl) nofun nofun nofun) (.cons (.register rfl) (.cons (.register rfl) (.cons (.register rfl) (.cons (.sys (.create (e := 1) rfl) nofun nofun nofun)
    (.cons (.sys (.loadLock rfl ⟨rfl, rfl⟩) nofun nofun nofun) (.cons (.sys (.loadRemove rfl) nofun nofun nofun) (.cons (.sys (.loadFlag rfl (by exact Option.some_ne_none p)) nofun nofun nofun)
    (.cons (.tellLoadIR (l := 7) (rest := [8, 9]) rfl) (.cons (.tellLoadIR (l := 8) (rest := [9]) rfl) (.cons (.tellLoadIR (l := 9) (rest := []) rfl)
    (.cons (.sys (.loadAdd rfl rfl) (by rintro e ⟨⟩; rfl) nofun nofun)
    (.cons (.sys (.call rfl rfl) nofun nofun nofun) (.cons (.sys (.service rfl) nofun nofun nofun) (.cons (.sys (.serviced rfl) nofun nofun nofun)
    (.cons (.sys (.body rfl rfl) nofun nofun nofun)
    (.cons (.sys (.loadLock rfl ⟨rfl, rfl⟩) nofun nofun nofun) (.cons (.sys (.loadRemove rfl) nofun nofun nofun) (.cons (.sys (.loadSkip rfl rfl) nofun nofun nofun)
    (.nil _))))))))))))))))))))))), ?_⟩
   refine ⟨rfl, rfl, rfl, ?_, rfl, rfl, ?_⟩
   · rintro (h | ⟨_, h⟩)
     · exact absurd h (by exact List.not_mem_nil)
     · exact absurd h (by exact List.not_mem_nil)
   · intro e
     match e with
     | 0 => rfl
     | 1 => rfl
     | _ + 2 => rfl
  refine ⟨x, h, h1, ?_, h3⟩
  rw [h2]
  decide

end Zones.Props
