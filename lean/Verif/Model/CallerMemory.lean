import Verif.Model.EngineSys

/-!
# The memory of the caller of `LoadIR`

`LoadIR` is given an `AudioBlock`, which refers to memory of the caller (ConvolutionEngine.cpp:245). In `Model/EngineSys.lean` a request is a value. Here it is a
reference; the constructor of `LoadIRJob` copies the samples (ConvolutionEngine.cpp:20-22), and the caller may write to its memory or free it at any time at which
no call of `LoadIR` that was given it is running.

Simplification: a block is a whole region of memory; a call of `LoadIR` begins when it has locked the mutex.
-/

namespace Zones.Model

/-- What a request refers to: memory of the caller (`ir_block`, ConvolutionEngine.cpp:7), or samples the job owns (`ir_buffer_`, ConvolutionEngine.h:105). -/
inductive Ref (A : Type)
  | block (r : ℕ)
  | own (a : A)

/-- The system and the caller's memory: for each region what it contains, if it has not been freed. (`ir_block`, ConvolutionEngine.cpp:245.) -/
structure MSys (V A : Type) where
  sys : Sys V (Ref A) := {}
  mem : ℕ → Option A := fun _ => none

/-- The samples found through a reference. Freed memory contains anything. (Reading `ir_block` or `ir_buffer_`, ConvolutionEngine.cpp:22, 27.) -/
def Ref.read {A : Type} (garbage : A) (mem : ℕ → Option A) : Ref A → A
  | .block r => (mem r).getD garbage
  | .own a => a

/-- The steps: of the system (ConvolutionEngine.cpp:25-278), and of the caller, who writes a region of memory (or allocates it) or frees it. -/
inductive MLabel (A : Type)
  | sys (l : Label (Ref A))
  | write (r : ℕ) (a : A)
  | release (r : ℕ)

/-- A call of `LoadIR` that was given the region is running (ConvolutionEngine.cpp:245-271). -/
def MSys.inCall {V A : Type} (s : MSys V A) (r : ℕ) : Prop := ∃ e i pc, (s.sys.engs e).loader = some (i, .block r, pc)

/-- The steps. `build` constructs a convolver from samples, which the job reads when it runs (ConvolutionEngine.cpp:27). -/
inductive MStep {V A : Type} (ops : ConvOps V) (build : A → ProcSpec → V) (garbage : A) : MSys V A → MLabel A → MSys V A → Prop
  /-- the steps of the system other than those of the other rules (ConvolutionEngine.cpp:25-278) -/
  | other {s : MSys V A} {l : Label (Ref A)} {s' : Sys V (Ref A)} (hl : ∀ e req, l ≠ .loadLock e req) (ha : ∀ e, l ≠ .loadAdd e)
      (h : Step ops (fun ref p => build (ref.read garbage s.mem) p) s.sys l s') : MStep ops build garbage s (.sys l) ⟨s', s.mem⟩
  /-- `LoadIR` is called with a block of memory that has not been freed (ConvolutionEngine.cpp:245-249) -/
  | load {s : MSys V A} {e r : ℕ} {s' : Sys V (Ref A)} (hr : s.mem r ≠ none)
      (h : Step ops (fun ref p => build (ref.read garbage s.mem) p) s.sys (.loadLock e (.block r)) s') : MStep ops build garbage s (.sys (.loadLock e (.block r))) ⟨s', s.mem⟩
  /-- the job is created; its constructor copies the samples (ConvolutionEngine.cpp:20-22, 258-270) -/
  | add {s : MSys V A} {e i : ℕ} {ref : Ref A} {p : ProcSpec} (h : (s.sys.engs e).loader = some (i, ref, .flagged)) (hs : (s.sys.engs e).core.spec = some p) :
      MStep ops build garbage s (.sys (.loadAdd e))
        ⟨{ s.sys.setEng e { s.sys.engs e with loader := none } with jobs := s.sys.jobs ++ [⟨i, e, .own (ref.read garbage s.mem), p, false, .queued⟩] }, s.mem⟩
  /-- the caller writes to its memory, but not while a call that was given it is running (the caller of ConvolutionEngine.cpp:245) -/
  | write {s : MSys V A} {r : ℕ} {a : A} (h : ¬ s.inCall r) : MStep ops build garbage s (.write r a) ⟨s.sys, Function.update s.mem r (some a)⟩
  /-- the caller frees its memory, but not while a call that was given it is running (the caller of ConvolutionEngine.cpp:245) -/
  | release {s : MSys V A} {r : ℕ} (h : ¬ s.inCall r) : MStep ops build garbage s (.release r) ⟨s.sys, Function.update s.mem r none⟩

/-- A sequence of steps (the lines of ConvolutionEngine.cpp are cited at the rules of `MStep`). -/
inductive MRun {V A : Type} (ops : ConvOps V) (build : A → ProcSpec → V) (garbage : A) : MSys V A → List (MLabel A) → MSys V A → Prop
  | nil (s : MSys V A) : MRun ops build garbage s [] s
  | cons {s s1 s2 : MSys V A} {l : MLabel A} {ls : List (MLabel A)} (h : MStep ops build garbage s l s1) (t : MRun ops build garbage s1 ls s2) :
      MRun ops build garbage s (l :: ls) s2

end Zones.Model
