import Verif.Props.EngineResetThreads
import Verif.Props.IeeeThreadsExamples

/-!
# Executions for which the hypotheses of C94 and C95 for a reset in the concurrent system hold
-/

open Zones.Spec Zones.Model Zones.Proofs Zones.Proofs.R

namespace Zones.Props

section
variable {V R : Type} {ops : ConvOps V} {build : R → ProcSpec → V} {N : ℕ} {Good : V → Prop}

/-- No response waits when the first is found. -/
theorem firstBlock_waits (req : R) (b : Buf) : ∃ s d, Exec ops build (firstBlock req b) s ∧ (s.engs 0).pc = .served (.process b) d ∧
    (s.engs 0).delivered = [⟨0, build req exampleFormat⟩] ∧ (s.engs 0).cmd = [] ∧ (s.engs 0).core.pending = none := by
  refine ⟨_, _, .cons (.create rfl) (.cons (.call rfl rfl) (.cons (.service rfl) (.cons (.serviced rfl) (.cons (.body rfl rfl)
    (.cons (.loadLock rfl ⟨rfl, rfl⟩) (.cons (.loadRemove rfl) (.cons (.loadFlag rfl (by exact Option.some_ne_none exampleFormat)) (.cons (.loadAdd rfl rfl)
    (.cons (.pick rfl) (.cons (.build (j := ⟨0, 0, req, exampleFormat, false, .building⟩) ?_ rfl)
    (.cons (.jobLock (j := ⟨0, 0, req, exampleFormat, false, .built (build req exampleFormat)⟩) ?_ rfl rfl ⟨rfl, rfl⟩)
    (.cons (.jobPush (j := ⟨0, 0, req, exampleFormat, false, .locked (build req exampleFormat)⟩) ?_ rfl rfl rfl ?_)
    (.cons (.jobDone (j := ⟨0, 0, req, exampleFormat, false, .pushed⟩) ?_ rfl rfl)
    (.cons (.call rfl rfl) (.cons (.service rfl) (.cons (.visit rfl rfl) (.cons (.serviced rfl) (.nil _)))))))))))))))))), rfl, rfl, rfl, rfl⟩
  · exact List.Mem.head _
  · exact List.Mem.head _
  · exact List.Mem.head _
  · show (0 : ℕ) < _
    decide
  · exact List.Mem.head _

theorem processBody_waits {c : Core V} {blk : Buf} {r : Core V × Core.Effects V} (h : c.processBody ops blk = some r) (hp : c.pending = none) : r.1.pending = none := by
  unfold Core.processBody at h
  cases hf : c.fade with
  | none =>
    rw [hf] at h
    obtain ⟨x, -, rfl⟩ := Option.map_eq_some_iff.1 h
    exact hp
  | some f =>
    rw [hf] at h
    obtain ⟨x, hx, rfl⟩ := Option.map_eq_some_iff.1 h
    have key : x.1.pending = none := by
      unfold Core.fadeStep at hx
      split at hx
      · unfold Core.crossfadeStep at hx
        simp only [Option.bind_eq_bind, Option.bind_eq_some_iff, Option.pure_def, Option.some.injEq] at hx
        obtain ⟨_, -, _, -, _, -, _, -, rfl⟩ := hx
        exact hp
      · unfold Core.inOutStep at hx
        split at hx
        · simp only [Option.bind_eq_bind, Option.bind_eq_some_iff, Option.pure_def, Option.some.injEq] at hx
          obtain ⟨_, -, rfl⟩ := hx
          exact hp
        · simp only [Option.bind_eq_bind, Option.bind_eq_some_iff, Option.pure_def, Option.some.injEq] at hx
          obtain ⟨_, -, rfl⟩ := hx
          exact hp
    show (x.1.endFade ops).1.pending = none
    unfold Core.endFade
    split
    · exact key
    · rw [key]
      rfl

/-- The call goes on to its end, and a reset begins that finds nothing in the queue. -/
def thenReset : List (Label R) := [.body 0] ++ [.call 0 .reset, .service 0, .serviced 0]

theorem thenReset_run (hA : Accepts ops N Good) {ls : List (Label R)} {s : Sys V R} {b : Buf} {d : List (Held V)} (h : Exec ops build ls s) (hp : (s.engs 0).pc = .served (.process b) d)
    (hc : (s.engs 0).cmd = []) (hH : HostBehaves N none (callsIn 0 ls)) (hG : GoodLoads build Good 0 ls) :
    ∃ s1, Exec ops build (ls ++ thenReset) s1 ∧ (s1.engs 0).pc = .served .reset [] ∧ (s1.engs 0).delivered = (s.engs 0).delivered ∧ (s1.engs 0).cmd = [] ∧
      ((s.engs 0).core.pending = none → (s1.engs 0).core.pending = none) := by
  obtain ⟨r, hr⟩ := body_defined hA h hH hG hp
  have ha : (s.engs 0).status = .alive := ((exec_inv h).flow 0).alive (by rw [hp]; simp)
  have x1 := exec_append h (Run.single (.body hp hr))
  generalize ht : s.setEng 0 ((s.engs 0).finish d (.process b) r) = t at x1
  have t1 : (t.engs 0).status = .alive := by rw [← ht]; simp [setEng_engs, finish_eq, ha]
  have t2 : (t.engs 0).pc = .idle := by rw [← ht]; simp [setEng_engs, finish_eq]
  have t3 : (t.engs 0).delivered = (s.engs 0).delivered := by rw [← ht]; simp [setEng_engs, finish_eq]
  have t4 : (t.engs 0).cmd = [] := by rw [← ht]; simp [setEng_engs, finish_eq, hc]
  have t5 : (t.engs 0).core = r.1 := by rw [← ht]; simp [setEng_engs, finish_eq]
  have hr2 : ∃ s1, Run ops build t [.call 0 .reset, .service 0, .serviced 0] s1 ∧ (s1.engs 0).pc = .served .reset [] ∧
      (s1.engs 0).delivered = (t.engs 0).delivered ∧ (s1.engs 0).cmd = [] ∧ (s1.engs 0).core = (t.engs 0).core.resetFade := by
    have h2 : ((t.setEng 0 { t.engs 0 with
          core := (t.engs 0).core.callHead .reset
          loading := if Call.resets .reset then false else (t.engs 0).loading
          pc := .entered .reset }).engs 0).pc = .entered .reset := by simp [setEng_engs]
    refine ⟨_, .cons (.call t1 t2) (.cons (.service h2) (.cons (.serviced (k := .reset) (done := []) ?_) (.nil _))), ?_, ?_, ?_, ?_⟩
    · simp [setEng_engs, t4]
    · simp [setEng_engs]
    · simp [setEng_engs]
    · simp [setEng_engs, t4]
    · simp [setEng_engs, Core.callHead]
  obtain ⟨s1, r1, r2, r3, r4, r5⟩ := hr2
  have x2 := exec_append x1 r1
  rw [List.append_assoc] at x2
  refine ⟨s1, x2, r2, r3.trans t3, r4, fun hw => ?_⟩
  rw [r5, t5]
  exact processBody_waits hr hw

end

section
variable [Arith] {A : GainArith} {build : Buf × ConvolverSpec → ProcSpec → Convolver}

/-- A block, a reset, and 5 silent blocks. -/
theorem resetStages {P : Convolver → Prop} (hA : Accepts (convolverOpsR singleFFT A) 2 P) (hP : P (build (exampleIR, exampleSpec) exampleFormat)) {b : Buf} (hb : b.ch = 2) (hbn : b.n = 64)
    {ls : List (Label (Buf × ConvolverSpec))} {s : Sys Convolver (Buf × ConvolverSpec)} {d : List (Held Convolver)} (h : Exec (convolverOpsR singleFFT A) build ls s)
    (hp : (s.engs 0).pc = .served (.process b) d) (hcmd : (s.engs 0).cmd = []) (hcalls : callsIn 0 ls = [.prepare exampleFormat fun _ _ => 0, .process b])
    (hloads : loadsIn ls = [(0, (exampleIR, exampleSpec))]) :
    ∃ s1 s2, Exec (convolverOpsR singleFFT A) build (ls ++ thenReset) s1 ∧ Run (convolverOpsR singleFFT A) build s1 (.body 0 :: quietCalls 5 hush) s2 ∧
      (s1.engs 0).pc = .served .reset [] ∧ ((s.engs 0).core.pending = none → (s1.engs 0).core.pending = none) ∧ (s2.engs 0).status = .alive ∧ (s2.engs 0).pc = .idle ∧
      (s2.engs 0).delivered = (s.engs 0).delivered ∧ HostBehaves 2 none (callsIn 0 (ls ++ thenReset ++ .body 0 :: quietCalls 5 hush)) ∧
      UsableLoads 2 0 (ls ++ thenReset ++ .body 0 :: quietCalls 5 hush) ∧ takenBy 0 (ls ++ thenReset ++ .body 0 :: quietCalls 5 hush) = takenBy 0 (ls ++ thenReset ++ [.body 0]) ++ List.replicate 5 0 ∧
      loadsIn (ls ++ thenReset ++ .body 0 :: quietCalls 5 hush) = [(0, (exampleIR, exampleSpec))] ∧
      formatsIn 0 (ls ++ thenReset ++ .body 0 :: quietCalls 5 hush) = [exampleFormat] := by
  have hbeh : ∀ m, HostBehaves 2 none ((.prepare exampleFormat fun _ _ => 0) :: .process b :: .reset :: List.replicate m (.process hush)) := by
    intro m
    refine ⟨exampleFormat_valid, hb, fun j hj => (by cases hj; rw [hbn]; exact le_rfl), ?_⟩
    induction m with
    | zero => trivial
    | succ m ih => exact ⟨rfl, fun j hj => (by cases hj; exact le_rfl), ih⟩
  have one : ∀ ls : List (Label (Buf × ConvolverSpec)), loadsIn ls = [(0, (exampleIR, exampleSpec))] → formatsIn 0 ls = [exampleFormat] →
      ∀ (i : ℕ) (ir : Buf) (cs : ConvolverSpec), (loadsIn ls)[i]? = some (0, (ir, cs)) → ∀ p ∈ formatsIn 0 ls, ir = exampleIR ∧ cs = exampleSpec ∧ p = exampleFormat := by
    intro ls e1 e2 i ir cs hi p hp
    rw [e1] at hi
    rw [e2] at hp
    have e : (0, (ir, cs)) = (0, (exampleIR, exampleSpec)) := List.mem_singleton.1 (List.mem_of_getElem? hi)
    simp only [Prod.mk.injEq, true_and] at e
    exact ⟨e.1, e.2, List.mem_singleton.1 hp⟩
  have hG : ∀ ls : List (Label (Buf × ConvolverSpec)), loadsIn ls = [(0, (exampleIR, exampleSpec))] → formatsIn 0 ls = [exampleFormat] → GoodLoads build P 0 ls := by
    rintro ls e1 e2 i ⟨ir, cs⟩ p hi hp
    obtain ⟨rfl, rfl, rfl⟩ := one ls e1 e2 i ir cs hi p hp
    exact hP
  have hf : formatsIn 0 ls = [exampleFormat] := by unfold formatsIn; rw [hcalls]; rfl
  obtain ⟨s1, x1, x2, x3, x4, x5⟩ := thenReset_run hA h hp hcmd (by
    rw [hcalls]
    exact ⟨exampleFormat_valid, hb, fun j hj => (by cases hj; rw [hbn]; exact le_rfl), trivial⟩) (hG _ hloads hf)
  have e1 : callsIn 0 (ls ++ thenReset) = [.prepare exampleFormat fun _ _ => 0, .process b, .reset] := by rw [callsIn_append, hcalls]; rfl
  have e2 : loadsIn (ls ++ thenReset) = [(0, (exampleIR, exampleSpec))] := by rw [loadsIn_append, hloads]; rfl
  have e3 : formatsIn 0 (ls ++ thenReset) = [exampleFormat] := by unfold formatsIn; rw [e1]; rfl
  obtain ⟨t, y1, y2, y3, y4, y5, y6⟩ := ends_block hA x1 x2 (by rw [e1]; exact hbeh 0) (hG _ e2 e3)
  have f1 : callsIn 0 (ls ++ thenReset ++ [.body 0]) = callsIn 0 (ls ++ thenReset) := by rw [callsIn_append]; exact List.append_nil _
  have f2 : loadsIn (ls ++ thenReset ++ [.body 0]) = loadsIn (ls ++ thenReset) := by rw [loadsIn_append]; exact List.append_nil _
  have f3 : formatsIn 0 (ls ++ thenReset ++ [.body 0]) = formatsIn 0 (ls ++ thenReset) := by unfold formatsIn; rw [f1]
  obtain ⟨s2, z1, z2, z3, z4, z5, z6, z7, z8, z9, z10⟩ := quiet_calls hA (b := hush) 5 y1 y2 y3 (y5.trans x4) (fun m _ => by rw [f1, e1]; exact hbeh m) (hG _ (f2.trans e2) (f3.trans e3))
  have eL : ls ++ thenReset ++ [.body 0] ++ quietCalls 5 hush = ls ++ thenReset ++ .body 0 :: quietCalls 5 hush := by simp
  rw [eL] at z1 z5 z6 z7 z8
  rw [f1, e1] at z5
  rw [f2, e2] at z6
  rw [f3, e3] at z7
  refine ⟨s1, s2, x1, Run.append y6 z10, x2, x5, z2, z3, z4.trans (y4.trans x3), by rw [z5]; exact hbeh 5, ?_, z8, z6, z7⟩
  intro i ir cs hi p hp
  obtain ⟨rfl, rfl, rfl⟩ := one _ z6 z7 i ir cs hi p hp
  exact exampleUsable

end

section
noncomputable local instance coarse94R : Arith := Arith.rounded fixed16 (fun n e => omega n ^ e) (fun n e => (omega n)⁻¹ ^ e)

/-- The hypotheses of `C94_concurrent_reset` hold, in 16 bit fixed point: the one engine plays a block of ones, the other, while other threads are at work and with a convolver made from memory with
other contents, a block of twos; then both are reset and play 5 silent blocks. -/
example : ∃ (build build' : Buf × ConvolverSpec → ProcSpec → Convolver) (s1 s2 s1' s2' : Sys Convolver (Buf × ConvolverSpec)) (ls1 ls2 ls1' : List (Label (Buf × ConvolverSpec))),
    Exec (convolverOpsR singleFFT (.rounded fixed16)) build ls1 s1 ∧ Run (convolverOpsR singleFFT (.rounded fixed16)) build s1 (.body 0 :: ls2) s2 ∧
    Exec (convolverOpsR singleFFT (.rounded fixed16)) build' ls1' s1' ∧ Run (convolverOpsR singleFFT (.rounded fixed16)) build' s1' (.body 0 :: ls2) s2' ∧
    callsIn 0 ls1 = [.prepare exampleFormat fun _ _ => 0, .process ⟨2, 64, fun _ _ => 1⟩, .reset] ∧ callsIn 0 ls1' = [.prepare exampleFormat fun _ _ => 0, .process ⟨2, 64, fun _ _ => 2⟩, .reset] ∧
    inputsIn 0 ls2 = List.replicate 5 hush ∧ takenBy 0 (ls1 ++ [.body 0]) = [0, 1, 0] ∧
    ∃ outs outs', (s2.engs 0).outs = (s1.engs 0).outs ++ outs ∧ (s2'.engs 0).outs = (s1'.engs 0).outs ++ outs' ∧ List.Forall₂ (SameBlock 2) outs outs' := by
  obtain ⟨v0, -⟩ := convolvers32
  obtain ⟨build, hB, -⟩ := createsR_exists zeros105 singleFFT 2 junk (fun _ _ => 7) v0
  obtain ⟨build', hB', -⟩ := createsR_exists zeros105 singleFFT 2 nines (fun _ _ => 9) v0
  have hA := tied_accepts (N := 2) (irs := fun _ => exampleIR) (maxBs := fun _ => 64) (specs := fun _ => exampleSpec) (Bs := fun _ => 64) zeros105 singleFFT_halfSpectrum (.rounded fixed16)
  have hP : ∀ {build : Buf × ConvolverSpec → ProcSpec → Convolver}, CreatesR singleFFT 2 build →
      ∃ i, Tied singleFFT 2 (fun _ => exampleIR) (fun _ => 64) (fun _ => exampleSpec) (fun _ => 64) i (build (exampleIR, exampleSpec) exampleFormat) (build (exampleIR, exampleSpec) exampleFormat) :=
    fun hB => ⟨0, Tied.create zeros105 exampleUsable example_block (hB exampleIR exampleSpec exampleFormat exampleUsable) (hB exampleIR exampleSpec exampleFormat exampleUsable)⟩
  let b : Buf := ⟨2, 64, fun _ _ => 1⟩
  let b' : Buf := ⟨2, 64, fun _ _ => 2⟩
  obtain ⟨s0, d, h, hp, hd, hc, hw⟩ := firstBlock_waits (ops := convolverOpsR singleFFT (.rounded fixed16)) (build := build) (exampleIR, exampleSpec) b
  obtain ⟨t0, d', h', hp', hd', hc'⟩ := firstBlockBusy_exec (ops := convolverOpsR singleFFT (.rounded fixed16)) (build := build') (exampleIR, exampleSpec) b'
  obtain ⟨s1, s2, x1, x2, x3, x4, x5, x6, x7, x8, x9, x10, x11, x12⟩ := resetStages hA (hP hB) rfl rfl h hp hc rfl rfl
  obtain ⟨t1, t2, y1, y2, y3, y4, y5, y6, y7, y8, y9, y10, y11, y12⟩ := resetStages hA (hP hB') rfl rfl h' hp' hc' rfl rfl
  refine ⟨build, build', s1, s2, t1, t2, _, _, _, x1, x2, y1, y2, rfl, rfl, quietCalls_inputs 5 hush, rfl, ?_⟩
  refine C94_concurrent_reset zeros105 singleFFT_halfSpectrum hB hB' x1 x2 y1 y2 x3 y3 (by nofun) (x4 hw) x5 x6 y5 y6 x8 x9 ⟨?_, ?_, ?_, ?_, fun e he => ?_⟩
  · exact .cons (.prepare _ _ _) (.cons (.process ⟨rfl, rfl⟩) (.cons .reset .nil))
  · refine List.forall₂_same.2 fun k hk => ?_
    have hk : k ∈ callsIn 0 (quietCalls 5 hush : List (Label (Buf × ConvolverSpec))) := hk
    rw [quietCalls_calls] at hk
    rw [List.eq_of_mem_replicate hk]
    exact .process ⟨rfl, rfl, rfl, fun _ _ _ _ => rfl⟩
  · rw [x10, y10]
    rfl
  · rw [y7, x7, hd, hd']; rfl
  · rw [x7, hd] at he
    rw [List.mem_singleton.1 he]
    exact ⟨_, _, _, handedOver_more (handedOver_more (firstBlock_hands _ _) _) _, handedOver_more (handedOver_more (firstBlockBusy_hands _ _) _) _, rfl⟩

end

noncomputable local instance ieee95R : Arith := Arith.ieee true (fun _ _ => ⟨nan, nan⟩) (fun n e => omega n ^ e) (fun n e => (omega n)⁻¹ ^ e)

/-- The hypotheses of `C95_concurrent_reset` hold: the one engine plays a block of NaNs, the other, while other threads are at work, a block of zeros; then both are reset and play 5 silent blocks. -/
example : ∃ (build build' : Buf × ConvolverSpec → ProcSpec → Convolver) (s1 s2 s1' s2' : Sys Convolver (Buf × ConvolverSpec)) (ls1 ls2 ls1' : List (Label (Buf × ConvolverSpec))),
    Exec (convolverOpsR singleFFT (.rounded fixed16)) build ls1 s1 ∧ Run (convolverOpsR singleFFT (.rounded fixed16)) build s1 (.body 0 :: ls2) s2 ∧
    Exec (convolverOpsR singleFFT (.rounded fixed16)) build' ls1' s1' ∧ Run (convolverOpsR singleFFT (.rounded fixed16)) build' s1' (.body 0 :: ls2) s2' ∧
    callsIn 0 ls1 = [.prepare exampleFormat fun _ _ => 0, .process ⟨2, 64, fun _ _ => nan⟩, .reset] ∧ callsIn 0 ls1' = [.prepare exampleFormat fun _ _ => 0, .process ⟨2, 64, fun _ _ => 0⟩, .reset] ∧
    inputsIn 0 ls2 = List.replicate 5 hush ∧ takenBy 0 (ls1 ++ [.body 0]) = [0, 1, 0] ∧
    ∃ outs outs', (s2.engs 0).outs = (s1.engs 0).outs ++ outs ∧ (s2'.engs 0).outs = (s1'.engs 0).outs ++ outs' ∧ List.Forall₂ (SameBlock 2) outs outs' := by
  have hz : ZeroSafe 9 exampleIR := zeroSafe_ieee omega_bounded omega_inv_bounded (K := 13) (by norm_num) exampleIR_moderate
  have hLs : ∀ sch, getPartitionScheme kGarciaResults 64 exampleIR.n = some sch → ∀ l ∈ sch, 2 * (l.psb * 64) ≤ 2 ^ 9 := by
    intro sch h l hl
    have : some [⟨1, 9⟩, ⟨4, 18⟩] = some sch := example_scheme.symm.trans h
    cases this
    exact (example_points l hl).1
  obtain ⟨v, v', hv, hv', -⟩ := C95_bad_values_pass true (fun _ _ => ⟨nan, nan⟩) omega_bounded omega_inv_bounded singleFFT_halfSpectrum (L := 9) (K := 13) (by norm_num)
    exampleIR_moderate exampleUsable example_block example_scheme (fun l hl => (example_points l hl).1) junk nines (fun _ _ => 7) (fun _ _ => 9)
  have hA := twin1_accepts (N := 2) (L := 9) (irs := fun _ => exampleIR) (maxBs := fun _ => 64) (specs := fun _ => exampleSpec) (Bs := fun _ => 64) (fun _ => hz) singleFFT_halfSpectrum
    (.rounded fixed16)
  have hP : Twin1 singleFFT 2 9 (fun _ => exampleIR) (fun _ => 64) (fun _ => exampleSpec) (fun _ => 64) v :=
    ⟨0, Pair.create (fun _ => hz) exampleUsable example_block hLs ⟨_, _, hv⟩ ⟨_, _, hv⟩ 0⟩
  have hP' : Twin1 singleFFT 2 9 (fun _ => exampleIR) (fun _ => 64) (fun _ => exampleSpec) (fun _ => 64) v' :=
    ⟨0, Pair.create (fun _ => hz) exampleUsable example_block hLs ⟨_, _, hv'⟩ ⟨_, _, hv'⟩ 0⟩
  let b : Buf := ⟨2, 64, fun _ _ => nan⟩
  let b' : Buf := ⟨2, 64, fun _ _ => 0⟩
  obtain ⟨s0, d, h, hp, hd, hc, hw⟩ := firstBlock_waits (ops := convolverOpsR singleFFT (.rounded fixed16)) (build := fun _ _ => v) (exampleIR, exampleSpec) b
  obtain ⟨t0, d', h', hp', hd', hc'⟩ := firstBlockBusy_exec (ops := convolverOpsR singleFFT (.rounded fixed16)) (build := fun _ _ => v') (exampleIR, exampleSpec) b'
  obtain ⟨s1, s2, x1, x2, x3, x4, x5, x6, x7, x8, x9, x10, x11, x12⟩ := resetStages hA hP rfl rfl h hp hc rfl rfl
  obtain ⟨t1, t2, y1, y2, y3, y4, y5, y6, y7, y8, y9, y10, y11, y12⟩ := resetStages hA hP' rfl rfl h' hp' hc' rfl rfl
  have hid : ∀ e ∈ (s0.engs 0).delivered, e.id = 0 := by
    intro e he
    rw [hd] at he
    rw [List.mem_singleton.1 he]
  have hand : HandedOver 0 0 (exampleIR, exampleSpec) exampleFormat (firstBlock (exampleIR, exampleSpec) b ++ thenReset ++ .body 0 :: quietCalls 5 hush) :=
    handedOver_more (handedOver_more (firstBlock_hands _ _) _) _
  have hand' : HandedOver 0 0 (exampleIR, exampleSpec) exampleFormat (firstBlockBusy (exampleIR, exampleSpec) b' ++ thenReset ++ .body 0 :: quietCalls 5 hush) :=
    handedOver_more (handedOver_more (firstBlockBusy_hands _ _) _) _
  have hx := exec_append x1 x2
  have creates : ∀ {w : Convolver} {m : Garbage} {r0 : ℕ → ℕ → ℝ} {ls : List (Label (Buf × ConvolverSpec))}, Convolver.createR singleFFT exampleIR 64 exampleSpec m r0 = some w →
      loadsIn ls = [(0, (exampleIR, exampleSpec))] → formatsIn 0 ls = [exampleFormat] → CreatesLoads singleFFT 2 0 ls fun _ _ => w := by
    intro w m r0 ls hw e1 e2 i ir cs hi p hp _
    rw [e1] at hi
    rw [e2] at hp
    rw [List.mem_singleton.1 hp]
    have e : (0, (ir, cs)) = (0, (exampleIR, exampleSpec)) := List.mem_singleton.1 (List.mem_of_getElem? hi)
    simp only [Prod.mk.injEq, true_and] at e
    obtain ⟨rfl, rfl⟩ := e
    exact ⟨m, r0, hw⟩
  refine ⟨fun _ _ => v, fun _ _ => v', s1, s2, t1, t2, _, _, _, x1, x2, y1, y2, rfl, rfl, quietCalls_inputs 5 hush, rfl, ?_⟩
  refine C95_concurrent_reset true (fun _ _ => ⟨nan, nan⟩) omega_bounded omega_inv_bounded singleFFT_halfSpectrum (L := 9) (K := 13) (by norm_num) (creates hv x11 x12) (creates hv' y11 y12)
    x1 x2 y1 y2 x3 y3 (by nofun) (x4 hw) x5 x6 y5 y6 x8 x9 (fun i ir cs hi => ?_) ⟨?_, ?_, ?_, ?_, fun e he => ?_⟩ (fun e he req p hk => ?_)
  · rw [x11] at hi
    have e : (0, (ir, cs)) = (0, (exampleIR, exampleSpec)) := List.mem_singleton.1 (List.mem_of_getElem? hi)
    simp only [Prod.mk.injEq, true_and] at e
    rw [e.1]
    exact exampleIR_moderate
  · exact .cons (.prepare _ _ _) (.cons (.process ⟨rfl, rfl⟩) (.cons .reset .nil))
  · refine List.forall₂_same.2 fun k hk => ?_
    have hk : k ∈ callsIn 0 (quietCalls 5 hush : List (Label (Buf × ConvolverSpec))) := hk
    rw [quietCalls_calls] at hk
    rw [List.eq_of_mem_replicate hk]
    exact .process ⟨rfl, rfl, rfl, fun _ _ _ _ => rfl⟩
  · rw [x10, y10]
    rfl
  · rw [y7, x7, hd, hd']; rfl
  · rw [x7] at he
    rw [hid e he]
    exact ⟨_, _, _, hand, hand', rfl⟩
  · rw [x7] at he
    rw [hid e he] at hk
    obtain ⟨rfl, rfl⟩ := C31_format_unique hx hand hk
    intro B sch' e1 e2
    have : some 64 = some B := example_block.symm.trans e1
    cases this
    exact hLs sch' e2

end Zones.Props
