import Verif.Spec.EngineFormats
import Verif.Spec.EngineLinearThreads
import Verif.Spec.EngineTaken
import Verif.Spec.Twins

/-!
# Concurrent executions in which an engine gets the same calls and the same input
-/

namespace Zones.Spec
open Zones.Model

/-- As far as engine `e` is concerned the two executions do the same: its audio-side calls are the same, on blocks with the same samples; each of them takes as many convolvers from the queue; the same
loads have been delivered to it, had asked for the same, and had handed over their jobs when the engine was prepared for blocks of the same size. All else may differ: what other engines do, which
loads fail to be delivered, the contents of the memory that buffers are made of, and how the threads' steps are interleaved. -/
structure AgreeFor {V : Type} (N e : ℕ) (ls : List (Label (Buf × ConvolverSpec))) (s : Sys V (Buf × ConvolverSpec)) (ls' : List (Label (Buf × ConvolverSpec)))
    (s' : Sys V (Buf × ConvolverSpec)) : Prop where
  calls : List.Forall₂ (SameKind (SameBlock N)) (callsIn e ls) (callsIn e ls')
  taken : takenBy e ls' = takenBy e ls
  delivered : (s'.engs e).delivered.map Held.id = (s.engs e).delivered.map Held.id
  made : ∀ d ∈ (s.engs e).delivered, ∃ req p p', HandedOver e d.id req p ls ∧ HandedOver e d.id req p' ls' ∧ p.maximumBlockSize = p'.maximumBlockSize

/-- The same for executions that go on with `ls2` after `ls1`, if the samples need be the same only in `ls2`. -/
structure AgreeSince {V : Type} (N e : ℕ) (ls1 ls2 : List (Label (Buf × ConvolverSpec))) (s : Sys V (Buf × ConvolverSpec)) (ls1' ls2' : List (Label (Buf × ConvolverSpec)))
    (s' : Sys V (Buf × ConvolverSpec)) : Prop where
  before : List.Forall₂ (SameKind fun a b => a.ch = b.ch ∧ a.n = b.n) (callsIn e ls1) (callsIn e ls1')
  since : List.Forall₂ (SameKind (SameBlock N)) (callsIn e ls2) (callsIn e ls2')
  taken : takenBy e (ls1' ++ ls2') = takenBy e (ls1 ++ ls2)
  delivered : (s'.engs e).delivered.map Held.id = (s.engs e).delivered.map Held.id
  made : ∀ d ∈ (s.engs e).delivered, ∃ req p p', HandedOver e d.id req p (ls1 ++ ls2) ∧ HandedOver e d.id req p' (ls1' ++ ls2') ∧ p.maximumBlockSize = p'.maximumBlockSize

/-- The convolver made for this request and format transforms at most `2^L` points at once. -/
def TransformsWithin (L : ℕ) (req : Buf × ConvolverSpec) (p : ProcSpec) : Prop :=
  ∀ B sch, internalBlockSize Convolver.po2Fuel p.maximumBlockSize req.2.internalBlockSize = some B → getPartitionScheme kGarciaResults B req.1.n = some sch → ∀ l ∈ sch, 2 * (l.psb * B) ≤ 2 ^ L

/-- It remembers less than `n` samples: its length, its largest transform and its block size come to at most `n`. -/
def RemembersAtMost (L n : ℕ) (req : Buf × ConvolverSpec) (p : ProcSpec) : Prop :=
  ∀ B, internalBlockSize Convolver.po2Fuel p.maximumBlockSize req.2.internalBlockSize = some B → req.1.n + 2 ^ L + B ≤ n

end Zones.Spec
