import Verif.Proofs.RIeee
import Verif.Props.EngineBitsExamples

/-!
# A NaN or an infinity in the input passes (C95)

The arithmetic is binary32 with infinities and NaNs (`Arith.ieee`, `Verif.Spec.Ieee`). In it zero times an infinity is not zero, so
that `C91` and `C94` do not apply as they are: what is used instead is that the transforms of a response of moderate size are finite.
-/

open Zones.Spec Zones.Model Zones.Proofs Zones.Proofs.R

namespace Zones.Props

/-- **C95.** Whatever values the input contains, infinities and NaNs included, they are forgotten. Two convolvers for the same response are
fed two signals in blocks of the same shape, in binary32 arithmetic with infinities and NaNs; one signal may contain bad values where the
other is clean. Wherever the signals agree, on the channels routed to an output, in the `ir.n + 2^L + B` samples before a sample and in the
rest of its block, the two outputs agree at that sample: as if the bad values had never been there. The samples of the response
are at most `2^K`, and its transforms have at most `2^L` points, with `3 L + K ≤ 126`. -/
theorem C95_bad_values_pass (flush : Bool) (repair : ℂ → ℂ → ℂ) {twF twI : ℕ → ℕ → ℂ} (hTF : TwiddlesBounded twF) (hTI : TwiddlesBounded twI)
    {F : RealFFT} (hF : HalfSpectrum F) {ir : Buf} {maxB N L K : ℕ} (hLK : 3 * L + K ≤ 126) (hir : ∀ c < ir.ch, ∀ i < ir.n, |ir.data c i| ≤ 2 ^ K)
    {spec : ConvolverSpec} (h : Usable ir maxB spec N) {B : ℕ} {sch : List Layout}
    (hB : internalBlockSize Convolver.po2Fuel maxB spec.internalBlockSize = some B)
    (hsch : getPartitionScheme kGarciaResults B ir.n = some sch)
    (hL : ∀ l ∈ sch, 2 * (l.psb * B) ≤ 2^L) (g g' : Garbage) (r0 r0' : ℕ → ℕ → ℝ) :
    letI := Arith.ieee flush repair twF twI
    ∃ c c', Convolver.createR F ir maxB spec g r0 = some c ∧ Convolver.createR F ir maxB spec g' r0' = some c' ∧
      ∀ blocks blocks' : List Buf, SameShape blocks blocks' → (∀ b ∈ blocks, b.ch = N) →
        ∃ d outs d' outs', feed (Convolver.processR F) c blocks = some (d, outs) ∧ feed (Convolver.processR F) c' blocks' = some (d', outs') ∧
          SameShape blocks outs ∧ SameShape blocks' outs' ∧
          ∀ o < N, ∀ n < totalLen blocks,
            (∀ c < ir.ch, channelAt spec.outputRouting c = o → ∀ m, n < m + (ir.n + 2^L + B) → m < n + B →
              stream blocks (channelAt spec.inputRouting c) m = stream blocks' (channelAt spec.inputRouting c) m) →
            stream outs o n = stream outs' o n := by
  letI := Arith.ieee flush repair twF twI
  exact memory_is_finite hF (zeroSafe_ieee hTF hTI hLK hir) h hB hsch hL g g' r0 r0'

/-- **C95, after `Reset`**: what was processed before, bad values or good, is forgotten at once. -/
theorem C95_bad_values_gone_after_reset (flush : Bool) (repair : ℂ → ℂ → ℂ) {twF twI : ℕ → ℕ → ℂ} (hTF : TwiddlesBounded twF) (hTI : TwiddlesBounded twI)
    {F : RealFFT} (hF : HalfSpectrum F) {ir : Buf} {maxB N L K : ℕ} (hLK : 3 * L + K ≤ 126) (hir : ∀ c < ir.ch, ∀ i < ir.n, |ir.data c i| ≤ 2 ^ K)
    {spec : ConvolverSpec} (h : Usable ir maxB spec N) {B : ℕ} {sch : List Layout}
    (hB : internalBlockSize Convolver.po2Fuel maxB spec.internalBlockSize = some B)
    (hsch : getPartitionScheme kGarciaResults B ir.n = some sch)
    (hL : ∀ l ∈ sch, 2 * (l.psb * B) ≤ 2^L) (g g' : Garbage) (r0 r0' : ℕ → ℕ → ℝ) :
    letI := Arith.ieee flush repair twF twI
    ∃ c c', Convolver.createR F ir maxB spec g r0 = some c ∧ Convolver.createR F ir maxB spec g' r0' = some c' ∧
      ∀ ops ops' : List Op, List.Forall₂ SameCall ops ops' → (∀ b, Op.process b ∈ ops → b.ch = N) →
        ∃ used used', history (Convolver.processR F) Convolver.reset c ops = some used ∧
          history (Convolver.processR F) Convolver.reset c' ops' = some used' ∧
          ∀ blocks blocks' : List Buf, SameShape blocks blocks' → (∀ b ∈ blocks, b.ch = N) →
            ∃ d outs d' outs', feed (Convolver.processR F) used.reset blocks = some (d, outs) ∧
              feed (Convolver.processR F) used'.reset blocks' = some (d', outs') ∧
              SameShape blocks outs ∧ SameShape blocks' outs' ∧
              ∀ o < N, ∀ n < totalLen blocks,
                (∀ c < ir.ch, channelAt spec.outputRouting c = o → ∀ m, n < m + (ir.n + 2^L + B) → m < n + B →
                  stream blocks (channelAt spec.inputRouting c) m = stream blocks' (channelAt spec.inputRouting c) m) →
                stream outs o n = stream outs' o n := by
  letI := Arith.ieee flush repair twF twI
  exact memory_is_finite_after_reset hF (zeroSafe_ieee hTF hTI hLK hir) h hB hsch hL g g' r0 r0'

/-- **C95, the engine.** Two engines get the same calls in the same order, with blocks of the same sizes, and convolvers for the same
responses at the same times, in binary32 arithmetic with infinities and NaNs and with any arithmetic in the fades. In `pre` and `pre'` the
input may be anything, bad values in one and clean ones in the other; in `post` and `post'` and in the last block it is the same. If in
`post` at least as many samples are processed as every response delivered in `pre` remembers, the last block comes out the same in both. -/
theorem C95_engine_bad_values_pass (flush : Bool) (repair : ℂ → ℂ → ℂ) {twF twI : ℕ → ℕ → ℂ} (hTF : TwiddlesBounded twF) (hTI : TwiddlesBounded twI)
    {F : RealFFT} (hF : HalfSpectrum F) (A : GainArith) {N L K : ℕ} {irs : ℕ → Buf} (hLK : 3 * L + K ≤ 126)
    (hir : ∀ j, ∀ c < (irs j).ch, ∀ i < (irs j).n, |(irs j).data c i| ≤ 2 ^ K) {maxBs : ℕ → ℕ} {specs : ℕ → ConvolverSpec} {Bs : ℕ → ℕ} :
    letI := Arith.ieee flush repair twF twI
    ∀ {pre pre' post post' : List (List (Held Convolver) × Call)} {batch batch' : List (Held Convolver)} {blk blk' : Buf},
    WellFormed N (fun _ => True) none (pre ++ (post ++ [(batch, .process blk)])) →
    CreatedFor F N L irs maxBs specs Bs (pre ++ (post ++ [(batch, .process blk)])) →
    CreatedFor F N L irs maxBs specs Bs (pre' ++ (post' ++ [(batch', .process blk')])) →
    SameSizes pre pre' → SameInput N (post ++ [(batch, .process blk)]) (post' ++ [(batch', .process blk')]) →
    (∀ b ∈ pre, ∀ g ∈ b.1, (irs g.id).n + 2 ^ L + Bs g.id ≤ samplesIn post + 1) →
    ∃ c c' d d' e e' out out', ({} : Core Convolver).calls (convolverOpsR F A) (pre ++ post) = some c ∧ ({} : Core Convolver).calls (convolverOpsR F A) (pre' ++ post') = some c' ∧
      c.call (convolverOpsR F A) batch (.process blk) = some (d, e) ∧ c'.call (convolverOpsR F A) batch' (.process blk') = some (d', e') ∧
      e.out = some out ∧ e'.out = some out' ∧ out.n = blk.n ∧ SameBlock N out out' := by
  letI := Arith.ieee flush repair twF twI
  intro pre pre' post post' batch batch' blk blk' hw hC hC' hpre hpost hL
  exact bits_depend_on_recent_input hF A (fun j => zeroSafe_ieee hTF hTI hLK (hir j)) hw hC hC' hpre hpost hL

/-- **C95, the engine's reset.** A `Reset` (or `Prepare`, or `Clear`) that finds no response waiting behind a fade removes bad values from the
engine at once. -/
theorem C95_engine_reset_removes_bad_values (flush : Bool) (repair : ℂ → ℂ → ℂ) {twF twI : ℕ → ℕ → ℂ} (hTF : TwiddlesBounded twF) (hTI : TwiddlesBounded twI)
    {F : RealFFT} (hF : HalfSpectrum F) (A : GainArith) {N L K : ℕ} {irs : ℕ → Buf} (hLK : 3 * L + K ≤ 126)
    (hir : ∀ j, ∀ c < (irs j).ch, ∀ i < (irs j).n, |(irs j).data c i| ≤ 2 ^ K) {maxBs : ℕ → ℕ} {specs : ℕ → ConvolverSpec} {Bs : ℕ → ℕ} :
    letI := Arith.ieee flush repair twF twI
    ∀ {pre pre' post post' : List (List (Held Convolver) × Call)} {b0 b0' batch batch' : List (Held Convolver)} {k0 k0' : Call} {blk blk' : Buf},
    WellFormed N (fun _ => True) none (pre ++ ((b0, k0) :: (post ++ [(batch, .process blk)]))) →
    CreatedFor F N L irs maxBs specs Bs (pre ++ ((b0, k0) :: (post ++ [(batch, .process blk)]))) →
    CreatedFor F N L irs maxBs specs Bs (pre' ++ ((b0', k0') :: (post' ++ [(batch', .process blk')]))) →
    (∀ b, k0 ≠ .process b) → (∀ c, ({} : Core Convolver).calls (convolverOpsR F A) pre = some c → ((c.callHead k0).service (convolverOpsR F A) b0).pending = none) →
    SameSizes pre pre' → SameInput N ((b0, k0) :: (post ++ [(batch, .process blk)])) ((b0', k0') :: (post' ++ [(batch', .process blk')])) →
    ∃ c c' d d' e e' out out', ({} : Core Convolver).calls (convolverOpsR F A) (pre ++ ((b0, k0) :: post)) = some c ∧
      ({} : Core Convolver).calls (convolverOpsR F A) (pre' ++ ((b0', k0') :: post')) = some c' ∧
      c.call (convolverOpsR F A) batch (.process blk) = some (d, e) ∧ c'.call (convolverOpsR F A) batch' (.process blk') = some (d', e') ∧
      e.out = some out ∧ e'.out = some out' ∧ out.n = blk.n ∧ SameBlock N out out' := by
  letI := Arith.ieee flush repair twF twI
  intro pre pre' post post' b0 b0' batch batch' k0 k0' blk blk' hw hC hC' hk hq hpre hpost
  exact reset_forgets hF A (fun j => zeroSafe_ieee hTF hTI hLK (hir j)) hw hC hC' hk hq hpre hpost

end Zones.Props
