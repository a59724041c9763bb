import Verif.Model.Convolver
import Verif.Spec.Stream

/-!
# Limits on the amount of work

The same programs, given up (`none`) when a loop makes more passes than allowed. That such a program equals the original one,
and is defined, means that the original one does not make more passes.

`UPC.loop F m`, `NUPC.loop F m`, `Convolver.loop F m` (the models of the loops of `Process`) already have a limit `m` on their own passes.
-/

namespace Zones.Spec
open Zones.Model

/-- A pass of `TimeDistributedNUPC::Process` with one pass of the uniform convolver (and one step of each sub convolver at most). -/
noncomputable def nupcPass (F : RealFFT) (s : NUPC) (blk : Buf) (done k : ℕ) : Option (NUPC × Buf) := do
  let sub ← blk.sub done k
  let s ← s.collect sub k
  let u ← UPC.loop F 1 s.upc sub 0
  let r ← { s with upc := u.1 }.addResults u.2 k
  pure ({ r.1 with collected := (r.1.collected + k) % r.1.blockSize }, blk.put done r.2)

/-- `TimeDistributedNUPC::Process` within `m` such passes. -/
noncomputable def nupcWithin (F : RealFFT) : ℕ → NUPC → Buf → ℕ → Option (NUPC × Buf)
  | 0, s, blk, done => if done < blk.n then none else some (s, blk)
  | m + 1, s, blk, done =>
    if done < blk.n then do
      let k := min (blk.n - done) (s.blockSize - s.collected)
      let r ← nupcPass F s blk done k
      nupcWithin F m r.1 r.2 (done + k)
    else some (s, blk)

/-- A pass of `Convolver::Process` with at most two of these. -/
noncomputable def convolverPass (F : RealFFT) (s : Convolver) (blk : Buf) (done k : ℕ) : Option (Convolver × Buf) := do
  let out ← blk.sub done k
  let rs ← s.routing.sub 0 k
  let rs ← (List.range s.numConv).foldlM (Convolver.gatherOne s out) rs
  let r ← nupcWithin F 2 s.nupc rs 0
  let out ← (List.range s.numConv).foldlM (Convolver.scatterOne s r.2) out.clear
  pure ({ s with nupc := r.1, routing := s.routing.put 0 r.2 }, blk.put done out)

/-- `Convolver::Process` within `m` passes. -/
noncomputable def convolverWithin (F : RealFFT) : ℕ → Convolver → Buf → ℕ → Option (Convolver × Buf)
  | 0, s, blk, done => if done < blk.n then none else some (s, blk)
  | m + 1, s, blk, done =>
    if done < blk.n then do
      let k := min (blk.n - done) s.blockSize
      let r ← convolverPass F s blk done k
      convolverWithin F m r.1 r.2 (done + k)
    else some (s, blk)

/-- Number of samples processed since the last `Reset` (`n` before these operations). -/
def samplesSinceReset (n : ℕ) : List Op → ℕ
  | [] => n
  | .process b :: ops => samplesSinceReset (n + b.n) ops
  | .reset :: ops => samplesSinceReset 0 ops

end Zones.Spec
