import Verif.Props.Ieee
import Verif.Props.EngineBitsThreads

/-!
# C95 in the concurrent system
-/

open Zones.Spec Zones.Model Zones.Proofs Zones.Proofs.R

namespace Zones.Props

/-- **C95** in the concurrent system: binary32 with infinities and NaNs, and any arithmetic in the fades. In two executions engine `e` gets the same calls and the same responses at the same times, and
from some moment on the same input; before it the one may get infinities and NaNs and the other clean samples. Once it has been given as many samples as each response delivered before that moment
remembers, its output is the same, sample for sample. The samples of the responses are at most `2^K`. -/
theorem C95_concurrent (flush : Bool) (repair : ℂ → ℂ → ℂ) {twF twI : ℕ → ℕ → ℂ} (hTF : TwiddlesBounded twF) (hTI : TwiddlesBounded twI) {F : RealFFT} (hF : HalfSpectrum F) (A : GainArith)
    {N e L K : ℕ} (hLK : 3 * L + K ≤ 126) {build build' : Buf × ConvolverSpec → ProcSpec → Convolver} {ls1 ls2 ls3 ls1' ls2' ls3' : List (Label (Buf × ConvolverSpec))}
    {s1 s2 s3 s1' s2' s3' : Sys Convolver (Buf × ConvolverSpec)} :
    letI := Arith.ieee flush repair twF twI
    CreatesLoads F N e (ls1 ++ ls2 ++ ls3) build → CreatesLoads F N e (ls1' ++ ls2' ++ ls3') build' →
    Exec (convolverOpsR F A) build ls1 s1 → Run (convolverOpsR F A) build s1 ls2 s2 → Run (convolverOpsR F A) build s2 ls3 s3 →
    Exec (convolverOpsR F A) build' ls1' s1' → Run (convolverOpsR F A) build' s1' ls2' s2' → Run (convolverOpsR F A) build' s2' ls3' s3' →
    (s1.engs e).pc = .idle → (s2.engs e).pc = .idle → (s3.engs e).status = .alive → (s3.engs e).pc = .idle →
    (s1'.engs e).pc = .idle → (s2'.engs e).pc = .idle → (s3'.engs e).status = .alive → (s3'.engs e).pc = .idle →
    HostBehaves N none (callsIn e (ls1 ++ ls2 ++ ls3)) → UsableLoads N e (ls1 ++ ls2 ++ ls3) →
    (∀ (i : ℕ) (ir : Buf) (cs : ConvolverSpec), (loadsIn (ls1 ++ ls2 ++ ls3))[i]? = some (e, (ir, cs)) → ∀ c < ir.ch, ∀ j < ir.n, |ir.data c j| ≤ 2 ^ K) →
    AgreeSince N e ls1 (ls2 ++ ls3) s3 ls1' (ls2' ++ ls3') s3' → (callsIn e ls2).length = (callsIn e ls2').length →
    (∀ d ∈ (s3.engs e).delivered, ∀ req p, HandedOver e d.id req p (ls1 ++ ls2 ++ ls3) → TransformsWithin L req p) →
    (∀ d ∈ (s1.engs e).delivered, ∀ req p, HandedOver e d.id req p (ls1 ++ ls2 ++ ls3) → RemembersAtMost L (totalLen (inputsIn e ls2) + 1) req p) →
    ∃ outs outs', (s3.engs e).outs = (s2.engs e).outs ++ outs ∧ (s3'.engs e).outs = (s2'.engs e).outs ++ outs' ∧ List.Forall₂ (SameBlock N) outs outs' := by
  letI := Arith.ieee flush repair twF twI
  intro hB hB' h1 h2 h3 h1' h2' h3' hi1 hi2 ha hi hi1' hi2' ha' hi' hH hU hM hs hn hL hr
  exact recent_agree hF hB hB' h1 h2 h3 h1' h2' h3' hi1 hi2 ha hi hi1' hi2' ha' hi' hH hU hs hn (zeroSafe_ieee hTF hTI hLK fun c hc => absurd hc (Nat.not_lt_zero _))
    (fun i ir cs hk => zeroSafe_ieee hTF hTI hLK (hM i ir cs hk)) hL hr

end Zones.Props
