import Verif.Model.NUPC

/-!
# Model of `zones::Convolver` (Convolver.{h,cpp})

`int` is 32 bits wide in `powerOfTwoEqualOrBelow` (whose loop shifts a bit out of the top) and in the block size
computation; elsewhere integers are unbounded.
-/

namespace Zones.Model

/-- `po2 <<= 1` on a 32 bit two's complement `int` (C++20: modulo `2^32`) (Convolver.cpp:14). -/
def shl1 (z : ℤ) : ℤ := Int.bmod (2 * z) (2 ^ 32)

/-- The loop `while (po2 <= n) po2 <<= 1; return po2 >> 1;` (Convolver.cpp:11-16); `none` when `fuel`
iterations do not end it. -/
def po2Loop (n : ℤ) : ℕ → ℤ → Option ℤ
  | 0, _ => none
  | fuel + 1, po2 => if po2 ≤ n then po2Loop n fuel (shl1 po2) else some (po2 / 2)

/-- `powerOfTwoEqualOrBelow` (Convolver.cpp:3-17). -/
def powerOfTwoEqualOrBelow (fuel : ℕ) (n : ℤ) : Option ℤ :=
  if n ≤ 0 then some n
  else if n.toNat &&& (n.toNat - 1) = 0 then some n
  else po2Loop n fuel 1

/-- `static_cast<int> (process_spec.maximumBlockSize)` of a 32 bit unsigned number (Convolver.cpp:29, 32). -/
def castInt32 (n : ℕ) : ℤ := Int.bmod n (2 ^ 32)

/-- The requested block size before rounding (Convolver.cpp:27-32). -/
def requestedBlockSize (maximumBlockSize : ℕ) (internal : Option ℤ) : ℤ :=
  match internal with
  | some b => if b ≠ 0 then min (castInt32 maximumBlockSize) b else castInt32 maximumBlockSize
  | none => castInt32 maximumBlockSize

/-- `max_block_size_` (Convolver.cpp:27-34): `std::clamp (powerOfTwoEqualOrBelow (...), 32, 2048)`. -/
def internalBlockSize (fuel maximumBlockSize : ℕ) (internal : Option ℤ) : Option ℕ :=
  (powerOfTwoEqualOrBelow fuel (requestedBlockSize maximumBlockSize internal)).map fun p =>
    (max 32 (min p 2048)).toNat

/-- `FadeStrategy` (Convolver.h:10-14). -/
inductive FadeStrategy
  | inOut
  | crossfade
deriving DecidableEq, Repr

/-- `ConvolverSpec` (Convolver.h:16-22). -/
structure ConvolverSpec where
  inputRouting : List ℤ
  outputRouting : List ℤ
  fadeStrategy : FadeStrategy := .crossfade
  internalBlockSize : Option ℤ := none

/-- Members of `Convolver` (Convolver.h:34-40). -/
structure Convolver where
  routing : Buf
  nupc : NUPC
  spec : ConvolverSpec
  numConv : ℕ
  blockSize : ℕ
  numSamples : ℕ

namespace Convolver

/-- More than enough iterations for the loop of `powerOfTwoEqualOrBelow`: if it does not end within 64, it never
ends (`Zones.Props.C27_nontermination`) (Convolver.cpp:12-15). -/
def po2Fuel : ℕ := 64

/-- Constructor (Convolver.cpp:19-47). `routing0` is the uninitialised memory of `routing_buffer_`. -/
noncomputable def create (F : RealFFT) (ir : Buf) (maximumBlockSize : ℕ) (spec : ConvolverSpec)
    (g : Garbage) (routing0 : ℕ → ℕ → ℝ) : Option Convolver := do
  let B ← Model.internalBlockSize po2Fuel maximumBlockSize spec.internalBlockSize
  let nupc ← NUPC.create F B ir.ch ir g
  pure
    { routing := ⟨ir.ch, B, routing0⟩, nupc := nupc, spec := spec
      numConv := ir.ch, blockSize := B, numSamples := ir.n }

/-- `routing [i]` as a channel index: reading past the end of the vector and negative (as `size_t`: huge)
channel numbers are undefined (Convolver.cpp:70-72, 83-85). -/
def route (r : List ℤ) (i : ℕ) : Option ℕ :=
  match r[i]? with
  | none => none
  | some z => if 0 ≤ z then some z.toNat else none

/-- One iteration of the input routing loop (Convolver.cpp:70-74). -/
noncomputable def gatherOne (s : Convolver) (out : Buf) (rs : Buf) (c : ℕ) : Option Buf := do
  let i ← route s.spec.inputRouting c
  let src ← out.single i
  let dst ← rs.single c
  pure (rs.putChannel c ((dst.copyFrom src).data 0))

/-- One iteration of the output routing loop (Convolver.cpp:83-87). -/
noncomputable def scatterOne (s : Convolver) (rs : Buf) (out : Buf) (c : ℕ) : Option Buf := do
  let o ← route s.spec.outputRouting c
  let dst ← out.single o
  let src ← rs.single c
  let dst ← dst.add src
  pure (out.putChannel o (dst.data 0))

/-- One iteration of the loop (Convolver.cpp:63-88) on samples `[done, done + k)` of the caller's block. -/
noncomputable def body (F : RealFFT) (s : Convolver) (blk : Buf) (done k : ℕ) : Option (Convolver × Buf) := do
  let out ← blk.sub done k
  let rs ← s.routing.sub 0 k
  let rs ← (List.range s.numConv).foldlM (gatherOne s out) rs
  let r ← s.nupc.process F rs
  let out ← (List.range s.numConv).foldlM (scatterOne s r.2) out.clear
  pure ({ s with nupc := r.1, routing := s.routing.put 0 r.2 }, blk.put done out)

/-- The loop of `Process` (Convolver.cpp:57-91); running out of fuel is a loop that does not end. -/
noncomputable def loop (F : RealFFT) : ℕ → Convolver → Buf → ℕ → Option (Convolver × Buf)
  | 0, s, blk, done => if done < blk.n then none else some (s, blk)
  | fuel + 1, s, blk, done =>
    if done < blk.n then do
      let k := min (blk.n - done) s.blockSize
      let r ← s.body F blk done k
      loop F fuel r.1 r.2 (done + k)
    else some (s, blk)

/-- `Process` (Convolver.cpp:49-92). Every iteration handles at least one sample unless the loop never ends, so
`blk.n` is enough fuel. -/
noncomputable def process (F : RealFFT) (s : Convolver) (blk : Buf) : Option (Convolver × Buf) :=
  loop F blk.n { s with routing := s.routing.clear } blk 0

/-- `Reset` (Convolver.cpp:94-98). -/
noncomputable def reset (s : Convolver) : Convolver :=
  { s with nupc := s.nupc.reset, routing := s.routing.clear }

end Convolver

end Zones.Model
