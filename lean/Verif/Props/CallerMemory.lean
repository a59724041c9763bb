import Verif.Proofs.CallerMemory

/-!
# C101: the caller's impulse response may be overwritten or freed when `LoadIR` has returned
-/

namespace Zones.Props
open Zones.Model Zones.Spec Zones.Proofs.Caller

variable {V A : Type}

/-- **C101**. Any execution of any number of engines, in which `LoadIR` is given references to memory that the caller overwrites and frees as it likes while no
call of `LoadIR` that was given it is running: every engine is in the state, and has made the sounds, of the execution in which each call had been given the samples
that were in that memory when it was called (`atCallTime`). So all properties of the system (C29-C64, C85, C99, ...) hold, with the samples at the time of the call. -/
theorem C101_copied (ops : ConvOps V) (build : A → ProcSpec → V) (garbage : A) (ls : List (MLabel A)) (s : MSys V A) (h : MRun ops build garbage {} ls s) :
    ∃ s', Exec ops build (atCallTime garbage (fun _ => none) ls) s' ∧ ∀ e, SameEngine (s.sys.engs e) (s'.engs e) := by
  obtain ⟨_, r⟩ := run_as ops build garbage ls {} s ⟨fun j hj => by cases hj⟩ h
  exact ⟨_, r, fun e => ⟨rfl, rfl, ⟨rfl, rfl⟩, ⟨rfl, rfl⟩, rfl, ⟨rfl, rfl, rfl⟩, ⟨rfl, rfl, rfl⟩, ⟨rfl, rfl, rfl, rfl⟩⟩⟩

/-- **C101** (never read again). In every state that is reached, while no call of `LoadIR` with region `r` is running, no step of the system but a new such call
depends on what is in `r`, or on whether it has been freed: the same step leads to the same state of the system. -/
theorem C101_never_read (ops : ConvOps V) (build : A → ProcSpec → V) (garbage : A) (ls : List (MLabel A)) (s s1 : MSys V A) (h : MRun ops build garbage {} ls s)
    (r : ℕ) (hr : ¬ s.inCall r) (l : Label (Ref A)) (hl : ∀ e, l ≠ .loadLock e (.block r)) (hs : MStep ops build garbage s (.sys l) s1) (o : Option A) :
    MStep ops build garbage ⟨s.sys, Function.update s.mem r o⟩ (.sys l) ⟨s1.sys, Function.update s.mem r o⟩ := by
  obtain ⟨i, _⟩ := run_as ops build garbage ls {} s ⟨fun j hj => by cases hj⟩ h
  have hb : ∀ j ∈ s.sys.jobs, (fun p => build (j.req.read garbage s.mem) p) = fun p => build (j.req.read garbage (Function.update s.mem r o)) p := by
    intro j hj
    obtain ⟨a, ha⟩ := i.jobs j hj
    simp only [ha, Ref.read]
  cases hs with
  | other h1 h2 hs => exact .other h1 h2 (step_build hs hb)
  | load hm hs =>
    rename_i e r' _
    have hne : r' ≠ r := by rintro rfl; exact hl e rfl
    exact .load (by show Function.update s.mem r o r' ≠ none; rw [Function.update_of_ne hne]; exact hm) (step_build hs hb)
  | add h1 h2 =>
    rename_i e n ref p
    have hx := MStep.add (ops := ops) (build := build) (garbage := garbage) (s := ⟨s.sys, Function.update s.mem r o⟩) h1 h2
    have he : ref.read garbage (Function.update s.mem r o) = ref.read garbage s.mem := by
      cases ref with
      | own a => rfl
      | block r' =>
        have hne : r' ≠ r := by rintro rfl; exact hr ⟨e, n, _, h1⟩
        simp only [Ref.read, Function.update_of_ne hne]
    rw [show (⟨s.sys, Function.update s.mem r o⟩ : MSys V A).mem = Function.update s.mem r o from rfl, he] at hx
    exact hx

/-- The calls of the example: memory is filled with `a`, an engine created and prepared, `LoadIR` called with that memory; then it is filled with `b` and freed, before any
worker has touched the job; then the job runs. -/
def exampleFreed (p : ProcSpec) (a b : A) : List (MLabel A) :=
  [.write 0 a] ++ ([.create 0, .call 0 (.prepare p fun _ _ => 0), .service 0, .serviced 0, .body 0, .loadLock 0 (.block 0), .loadRemove 0, .loadFlag 0, .loadAdd 0].map .sys) ++
    [.write 0 b, .release 0] ++ ([.pick, .build 0, .jobLock 0, .jobCheck 0, .jobDone 0].map .sys)

/-- What is delivered is built from `a`. -/
example (ops : ConvOps V) (build : A → ProcSpec → V) (garbage : A) (p : ProcSpec) (a b : A) : ∃ s, MRun ops build garbage {} (exampleFreed p a b) s ∧
    (s.sys.engs 0).delivered = [⟨0, build a p⟩] ∧ s.mem 0 = none ∧
    ∃ s', Exec ops build (atCallTime garbage (fun _ => none) (exampleFreed p a b)) s' ∧ .loadLock 0 a ∈ atCallTime garbage (fun _ => none) (exampleFreed p a b) ∧
      (s'.engs 0).delivered = [⟨0, build a p⟩] := by
  have h : ∃ s, MRun ops build garbage {} (exampleFreed p a b) s ∧ (s.sys.engs 0).delivered = [⟨0, build a p⟩] ∧ s.mem 0 = none := by
    refine ⟨_, .cons (.write ?_) (.cons (.other nofun nofun (.create rfl)) (.cons (.other nofun nofun (.call rfl rfl)) (.cons (.other nofun nofun (.service rfl))
      (.cons (.other nofun nofun (.serviced rfl)) (.cons (.other nofun nofun (.body rfl rfl))
      (.cons (.load (by exact Option.some_ne_none a) (.loadLock rfl ⟨rfl, rfl⟩)) (.cons (.other nofun nofun (.loadRemove rfl)) (.cons (.other nofun nofun (.loadFlag rfl (by exact Option.some_ne_none p)))
      (.cons (.add rfl rfl) (.cons (.write ?_) (.cons (.release ?_)
      (.cons (.other nofun nofun (.pick rfl)) (.cons (.other nofun nofun (.build (j := ⟨0, 0, .own a, p, false, .building⟩) ?_ rfl))
      (.cons (.other nofun nofun (.jobLock (j := ⟨0, 0, .own a, p, false, .built (build a p)⟩) ?_ rfl rfl ⟨rfl, rfl⟩))
      (.cons (.other nofun nofun (.jobPush (j := ⟨0, 0, .own a, p, false, .locked (build a p)⟩) ?_ rfl rfl rfl ?_))
      (.cons (.other nofun nofun (.jobDone (j := ⟨0, 0, .own a, p, false, .pushed⟩) ?_ rfl rfl)) (.nil _))))))))))))))))), rfl, ?_⟩
    · rintro ⟨e, i, pc, h⟩; cases h
    · rintro ⟨e, i, pc, h⟩
      simp only [Sys.setEng, Function.update_apply] at h
      split_ifs at h with he <;> cases h
    · rintro ⟨e, i, pc, h⟩
      simp only [Sys.setEng, Function.update_apply] at h
      split_ifs at h with he <;> cases h
    · exact List.Mem.head _
    · exact List.Mem.head _
    · exact List.Mem.head _
    · show (0 : ℕ) < _
      decide
    · exact List.Mem.head _
    · simp
  obtain ⟨s, hr, hd, hm⟩ := h
  obtain ⟨s', hx, he⟩ := C101_copied ops build garbage _ s hr
  exact ⟨s, hr, hd, hm, s', hx, by simp [exampleFreed, atCallTime, labelAs, Ref.read], by rw [← (he 0).history.1]; exact hd⟩

/-- `C101_never_read` after the call: the worker picks the job, whatever has become of the memory. -/
example (ops : ConvOps V) (build : A → ProcSpec → V) (garbage : A) (p : ProcSpec) (a b : A) : ∃ s s1, MRun ops build garbage {} ((exampleFreed p a b).take 10) s ∧
    MStep ops build garbage s (.sys .pick) s1 ∧ s.mem 0 = some a ∧ MStep ops build garbage ⟨s.sys, Function.update s.mem 0 none⟩ (.sys .pick) ⟨s1.sys, Function.update s.mem 0 none⟩ := by
  have h : ∃ s s1, MRun ops build garbage {} ((exampleFreed p a b).take 10) s ∧ MStep ops build garbage s (.sys .pick) s1 ∧ s.mem 0 = some a ∧ ¬ s.inCall 0 := by
    refine ⟨_, _, .cons (.write ?_) (.cons (.other nofun nofun (.create rfl)) (.cons (.other nofun nofun (.call rfl rfl)) (.cons (.other nofun nofun (.service rfl))
      (.cons (.other nofun nofun (.serviced rfl)) (.cons (.other nofun nofun (.body rfl rfl))
      (.cons (.load (by exact Option.some_ne_none a) (.loadLock rfl ⟨rfl, rfl⟩)) (.cons (.other nofun nofun (.loadRemove rfl)) (.cons (.other nofun nofun (.loadFlag rfl (by exact Option.some_ne_none p)))
      (.cons (.add rfl rfl) (.nil _)))))))))), .other nofun nofun (.pick rfl), by simp, ?_⟩
    · rintro ⟨e, i, pc, h⟩; cases h
    · rintro ⟨e, i, pc, h⟩
      simp only [Sys.setEng, Function.update_apply] at h
      split_ifs at h with he <;> cases h
  obtain ⟨s, s1, hr, hs, hm, hc⟩ := h
  exact ⟨s, s1, hr, hs, hm, C101_never_read ops build garbage _ s s1 hr 0 hc _ (by simp) hs none⟩

end Zones.Props
