import Verif.Spec.EngineTaken
import Verif.Proofs.EngineTrace

/-!
# The sequential history has batches of the sizes that were taken
-/

open Zones.Spec Zones.Model

namespace Zones.Proofs

variable {V R : Type}

/-- What the current call has taken so far. -/
def takenNow : APc V → List ℕ
  | .idle => []
  | .entered _ => [0]
  | .serving _ d _ => [d.length]
  | .served _ d => [d.length]

/-- All that has been taken. -/
def takenAll (x : Eng V R) : List ℕ := x.hist.map (fun b => b.1.length) ++ takenNow x.pc

theorem taken_step {ops : ConvOps V} {build : R → ProcSpec → V} {s s' : Sys V R} {l : Label R} (h : Step ops build s l s') (e : ℕ) :
    takenAll (s'.engs e) = countTaken e (takenAll (s.engs e)) l := by
  cases h
  case call e' k h1 h2 =>
    by_cases he : e' = e
    · subst he
      simp [countTaken, takenAll, setEng_engs, h2, takenNow]
    · simp [countTaken, takenAll, he, setEng_engs, Ne.symm he]
  case service e' k h1 =>
    by_cases he : e' = e
    · subst he
      simp [countTaken, takenAll, setEng_engs, h1, takenNow]
    · simp [countTaken, takenAll, setEng_engs, Ne.symm he]
  case visit e' n k done g rest h1 h2 =>
    by_cases he : e' = e
    · subst he
      simp [countTaken, takenAll, setEng_engs, h1, takenNow, visit_eq]
    · simp [countTaken, takenAll, he, setEng_engs, Ne.symm he]
  case serviced e' k d h1 =>
    by_cases he : e' = e
    · subst he
      simp [countTaken, takenAll, setEng_engs, h1, takenNow]
    · simp [countTaken, takenAll, setEng_engs, Ne.symm he]
  case body e' k d r h1 h2 =>
    by_cases he : e' = e
    · subst he
      simp [countTaken, takenAll, setEng_engs, h1, takenNow, finish_eq]
    · simp [countTaken, takenAll, setEng_engs, Ne.symm he]
  all_goals
    simp only [countTaken, takenAll, setEng_engs, setJob_engs, dropJob_engs]
    try split
    all_goals first | rfl | (rename_i hh; subst hh; rfl)

/-- The batches of the history, and what the current call has taken. -/
theorem taken_hist {ops : ConvOps V} {build : R → ProcSpec → V} {s : Sys V R} {ls : List (Label R)} (h : Exec ops build ls s) (e : ℕ) :
    (s.engs e).hist.map (fun b => b.1.length) ++ takenNow (s.engs e).pc = takenBy e ls := by
  refine exec_induct (P := fun ls s => takenAll (s.engs e) = takenBy e ls) rfl (fun ls s l s' _ ih hs => ?_) h
  rw [taken_step hs, ih]
  simp [takenBy]

end Zones.Proofs
