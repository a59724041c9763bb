import Verif.Proofs.EngineFormats
import Verif.Props.SystemWitnesses

/-!
# C31: the format a convolver is made for
-/

open Zones.Spec Zones.Model Zones.Proofs

namespace Zones.Props

variable {V R : Type} {ops : ConvOps V} {build : R → ProcSpec → V} {ls : List (Label R)} {s : Sys V R}

/-- **C31.** The convolver for a load is made from the impulse response of that call, for the format the engine had last been prepared for when that call handed its job to the thread pool. -/
theorem C31_format (h : Exec ops build ls s) (e : ℕ) : ∀ d ∈ (s.engs e).delivered, ∃ req p, HandedOver e d.id req p ls ∧ d.obj = build req p :=
  (exec_sourced h).got e

/-- **C31.** A call of `LoadIR` hands over at most one job, so there is only one such format. -/
theorem C31_format_unique {e i : ℕ} {req req' : R} {p p' : ProcSpec} (h : Exec ops build ls s) (h1 : HandedOver e i req p ls) (h2 : HandedOver e i req' p' ls) : req = req' ∧ p = p' :=
  (exec_once h).2 e i req p req' p' h1 h2

/-- Two formats: the engine is prepared for `p`, a response is loaded, and the engine is prepared for `q` before the response is constructed. It is constructed for `p`. -/
example (p q : ProcSpec) (req : R) : ∃ (ls : List (Label R)) (s : Sys V R), Exec ops build ls s ∧ formatsIn 0 ls = [p, q] ∧ HandedOver 0 0 req p ls ∧ (s.engs 0).delivered = [⟨0, build req p⟩] ∧
    ∀ d ∈ (s.engs 0).delivered, d.obj = build req p := by
  have h : ∃ s : Sys V R, Exec ops build ([.create 0] ++ emptyCall 0 (.prepare p fun _ _ => 0) ++ loadCall 0 req ++ emptyCall 0 (.prepare q fun _ _ => 0) ++ jobRun 0) s ∧
      (s.engs 0).delivered = [⟨0, build req p⟩] := by
    refine ⟨_, .cons (.create rfl) (.cons (.call rfl rfl) (.cons (.service rfl) (.cons (.serviced rfl) (.cons (.body rfl rfl)
      (.cons (.loadLock rfl ⟨rfl, rfl⟩) (.cons (.loadRemove rfl) (.cons (.loadFlag rfl (by exact Option.some_ne_none p)) (.cons (.loadAdd rfl rfl)
      (.cons (.call rfl rfl) (.cons (.service rfl) (.cons (.serviced rfl) (.cons (.body rfl rfl)
      (.cons (.pick rfl) (.cons (.build (j := ⟨0, 0, req, p, false, .building⟩) ?_ rfl)
      (.cons (.jobLock (j := ⟨0, 0, req, p, false, .built (build req p)⟩) ?_ rfl rfl ⟨rfl, rfl⟩) (.cons (.jobPush (j := ⟨0, 0, req, p, false, .locked (build req p)⟩) ?_ rfl rfl rfl ?_)
      (.cons (.jobDone (j := ⟨0, 0, req, p, false, .pushed⟩) ?_ rfl rfl) (.nil _)))))))))))))))))), rfl⟩
    · exact List.Mem.head _
    · exact List.Mem.head _
    · exact List.Mem.head _
    · show (0 : ℕ) < _
      decide
    · exact List.Mem.head _
  obtain ⟨s, hx, hd⟩ := h
  have hh : HandedOver 0 0 req p ([.create 0] ++ emptyCall 0 (.prepare p fun _ _ => 0) ++ loadCall 0 req ++ emptyCall 0 (.prepare q fun _ _ => 0) ++ jobRun 0) := by
    refine ⟨[.create 0] ++ emptyCall 0 (.prepare p fun _ _ => 0) ++ [.loadLock 0 req, .loadRemove 0, .loadFlag 0], _, rfl, ⟨rfl, fun j x hj hx => ?_⟩, rfl⟩
    rw [List.getElem?_eq_none] at hx
    · cases hx
    · exact hj
  refine ⟨_, s, hx, rfl, hh, hd, fun d hm => ?_⟩
  obtain ⟨req', p', h1, h2⟩ := C31_format hx 0 d hm
  have : d.id = 0 := by rw [hd] at hm; rw [List.mem_singleton.1 hm]
  rw [this] at h1
  obtain ⟨rfl, rfl⟩ := C31_format_unique hx hh h1
  exact h2

end Zones.Props
