import Verif.Spec.Stream

/-!
# Vocabulary for the lengths of blocks

The convolver works in pieces of at most `B` samples, `B` being its internal block size.
-/

namespace Zones.Spec

open Zones.Model

/-- A block of `n` samples cut into pieces of `B` samples and a shorter rest. -/
def cut (B n : ℕ) : List ℕ := List.replicate (n / B) B ++ if n % B = 0 then [] else [n % B]

/-- A sequence of blocks, each cut into pieces. -/
def cuts (B : ℕ) (blocks : List Buf) : List ℕ := blocks.flatMap fun b => cut B b.n

/-- Two sequences of calls that differ in nothing but the contents of the blocks and where `Process` calls are cut
after a multiple of `B` samples. -/
inductive SameCuts (B : ℕ) : List Op → List Op → Prop
  | blocks {bs bs' : List Buf} (h : cuts B bs = cuts B bs') : SameCuts B (bs.map Op.process) (bs'.map Op.process)
  | reset {bs bs' : List Buf} {ops ops' : List Op} (h : cuts B bs = cuts B bs') (hr : SameCuts B ops ops') :
    SameCuts B (bs.map Op.process ++ Op.reset :: ops) (bs'.map Op.process ++ Op.reset :: ops')

end Zones.Spec
