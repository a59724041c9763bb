import Verif.Props.IeeeThreads
import Verif.Props.IeeeExamples
import Verif.Props.EngineBitsThreadsExamples

/-!
# An execution for which the hypotheses of C95 in the concurrent system hold
-/

open Zones.Spec Zones.Model Zones.Proofs Zones.Proofs.R

namespace Zones.Props

noncomputable local instance ieee95T : Arith := Arith.ieee true (fun _ _ => ⟨nan, nan⟩) (fun n e => omega n ^ e) (fun n e => (omega n)⁻¹ ^ e)

/-- After the block with which the response arrives, `n` silent blocks, and then 5 more. -/
theorem stages95 {build : Buf × ConvolverSpec → ProcSpec → Convolver} {P : Convolver → Prop} (hA : Accepts (convolverOpsR singleFFT (.rounded fixed16)) 2 P) (hP : P (build (exampleIR, exampleSpec) exampleFormat)) (n : ℕ) {b : Buf} (hb : b.ch = 2) (hbn : b.n = 64)
    {ls : List (Label (Buf × ConvolverSpec))} {s : Sys Convolver (Buf × ConvolverSpec)} {d : List (Held Convolver)} (h : Exec (convolverOpsR singleFFT (.rounded fixed16)) build ls s)
    (hp : (s.engs 0).pc = .served (.process b) d) (hcmd : (s.engs 0).cmd = []) (hcalls : callsIn 0 ls = [.prepare exampleFormat fun _ _ => 0, .process b])
    (hloads : loadsIn ls = [(0, (exampleIR, exampleSpec))]) :
    ∃ s1 s2 s3, Exec (convolverOpsR singleFFT (.rounded fixed16)) build (ls ++ [.body 0]) s1 ∧ Run (convolverOpsR singleFFT (.rounded fixed16)) build s1 (quietCalls n hush) s2 ∧
      Run (convolverOpsR singleFFT (.rounded fixed16)) build s2 (quietCalls 5 hush) s3 ∧ (s1.engs 0).pc = .idle ∧ (s2.engs 0).pc = .idle ∧ (s3.engs 0).status = .alive ∧ (s3.engs 0).pc = .idle ∧
      (s1.engs 0).delivered = (s.engs 0).delivered ∧ (s3.engs 0).delivered = (s.engs 0).delivered ∧ HostBehaves 2 none (callsIn 0 (ls ++ [.body 0] ++ quietCalls n hush ++ quietCalls 5 hush)) ∧
      UsableLoads 2 0 (ls ++ [.body 0] ++ quietCalls n hush ++ quietCalls 5 hush) ∧
      takenBy 0 (ls ++ [.body 0] ++ quietCalls n hush ++ quietCalls 5 hush) = takenBy 0 ls ++ List.replicate n 0 ++ List.replicate 5 0 ∧
      loadsIn (ls ++ [.body 0] ++ quietCalls n hush ++ quietCalls 5 hush) = [(0, (exampleIR, exampleSpec))] ∧
      formatsIn 0 (ls ++ [.body 0] ++ quietCalls n hush ++ quietCalls 5 hush) = [exampleFormat] := by
  have hf : formatsIn 0 ls = [exampleFormat] := by unfold formatsIn; rw [hcalls]; rfl
  have hbeh : ∀ m, HostBehaves 2 none ((.prepare exampleFormat fun _ _ => 0) :: .process b :: List.replicate m (.process hush)) := by
    intro m
    refine ⟨exampleFormat_valid, hb, fun j hj => (by cases hj; rw [hbn]; exact le_rfl), ?_⟩
    induction m with
    | zero => trivial
    | succ m ih => exact ⟨rfl, fun j hj => (by cases hj; exact le_rfl), ih⟩
  have hG : ∀ ls : List (Label (Buf × ConvolverSpec)), loadsIn ls = [(0, (exampleIR, exampleSpec))] → formatsIn 0 ls = [exampleFormat] →
      GoodLoads build P 0 ls := by
    rintro ls e1 e2 i ⟨ir, cs⟩ p hi hp
    rw [e1] at hi
    rw [e2] at hp
    rw [List.mem_singleton.1 hp]
    have e : (0, (ir, cs)) = (0, (exampleIR, exampleSpec)) := List.mem_singleton.1 (List.mem_of_getElem? hi)
    simp only [Prod.mk.injEq, true_and] at e
    obtain ⟨rfl, rfl⟩ := e
    exact hP
  obtain ⟨s1, x1, x2, x3, x4, x5, -⟩ := ends_block hA h hp (by rw [hcalls]; exact hbeh 0) (hG _ hloads hf)
  have e1 : callsIn 0 (ls ++ [.body 0]) = callsIn 0 ls := by rw [callsIn_append]; exact List.append_nil _
  have e2 : loadsIn (ls ++ [.body 0]) = loadsIn ls := by rw [loadsIn_append]; exact List.append_nil _
  have e3 : formatsIn 0 (ls ++ [.body 0]) = formatsIn 0 ls := by unfold formatsIn; rw [e1]
  have e4 : takenBy 0 (ls ++ [.body 0]) = takenBy 0 ls := by unfold takenBy; rw [List.foldl_append]; rfl
  obtain ⟨s2, y1, y2, y3, y4, y5, y6, y7, y8, y9, y10⟩ := quiet_calls hA (b := hush) n x1 x2 x3 (x5.trans hcmd) (fun m _ => by
    rw [e1, hcalls]; exact hbeh m) (hG _ (e2.trans hloads) (e3.trans hf))
  rw [e1, hcalls] at y5
  rw [e2, hloads] at y6
  rw [e3, hf] at y7
  rw [e4] at y8
  have hrep : ∀ m, HostBehaves 2 none ([.prepare exampleFormat fun _ _ => 0, .process b] ++ List.replicate n (.process hush) ++ List.replicate m (.process hush)) := by
    intro m
    rw [List.append_assoc, ← List.replicate_add]
    exact hbeh _
  obtain ⟨s3, z1, z2, z3, z4, z5, z6, z7, z8, z9, z10⟩ := quiet_calls hA (b := hush) 5 y1 y2 y3 y9 (fun m _ => by rw [y5]; exact hrep m) (hG _ y6 y7)
  rw [y5] at z5
  rw [y6] at z6
  rw [y7] at z7
  rw [y8] at z8
  refine ⟨s1, s2, s3, x1, y10, z10, x3, y3, z2, z3, x4, z4.trans (y4.trans x4), by rw [z5]; exact hrep 5, ?_, z8, z6, z7⟩
  intro i ir cs hi p hp
  rw [z6] at hi
  rw [z7] at hp
  rw [List.mem_singleton.1 hp]
  have e : (0, (ir, cs)) = (0, (exampleIR, exampleSpec)) := List.mem_singleton.1 (List.mem_of_getElem? hi)
  simp only [Prod.mk.injEq, true_and] at e
  obtain ⟨rfl, rfl⟩ := e
  exact exampleUsable

/-- The hypotheses of `C95_concurrent` hold: the one engine begins with a block of NaNs, the other, while other threads are at work, with a block of zeros; then both get 90 silent blocks, and from
then on their output is the same. -/
example : ∃ (build build' : Buf × ConvolverSpec → ProcSpec → Convolver) (s1 s2 s3 s1' s2' s3' : Sys Convolver (Buf × ConvolverSpec)) (ls1 ls2 ls3 ls1' : List (Label (Buf × ConvolverSpec))),
    Exec (convolverOpsR singleFFT (.rounded fixed16)) build ls1 s1 ∧ Run (convolverOpsR singleFFT (.rounded fixed16)) build s1 ls2 s2 ∧
    Run (convolverOpsR singleFFT (.rounded fixed16)) build s2 ls3 s3 ∧ Exec (convolverOpsR singleFFT (.rounded fixed16)) build' ls1' s1' ∧
    Run (convolverOpsR singleFFT (.rounded fixed16)) build' s1' ls2 s2' ∧ Run (convolverOpsR singleFFT (.rounded fixed16)) build' s2' ls3 s3' ∧
    inputsIn 0 ls1 = [⟨2, 64, fun _ _ => nan⟩] ∧ inputsIn 0 ls1' = [⟨2, 64, fun _ _ => 0⟩] ∧ inputsIn 0 ls2 = List.replicate 90 hush ∧ inputsIn 0 ls3 = List.replicate 5 hush ∧
    takenBy 0 ls1 = [0, 1] ∧
    ∃ outs outs', (s3.engs 0).outs = (s2.engs 0).outs ++ outs ∧ (s3'.engs 0).outs = (s2'.engs 0).outs ++ outs' ∧ List.Forall₂ (SameBlock 2) outs outs' := by
  have hz : ZeroSafe 9 exampleIR := zeroSafe_ieee omega_bounded omega_inv_bounded (K := 13) (by norm_num) exampleIR_moderate
  have hLs : ∀ sch, getPartitionScheme kGarciaResults 64 exampleIR.n = some sch → ∀ l ∈ sch, 2 * (l.psb * 64) ≤ 2 ^ 9 := by
    intro sch h l hl
    have : some [⟨1, 9⟩, ⟨4, 18⟩] = some sch := example_scheme.symm.trans h
    cases this
    exact (example_points l hl).1
  obtain ⟨v, v', hv, hv', -⟩ := C95_bad_values_pass true (fun _ _ => ⟨nan, nan⟩) omega_bounded omega_inv_bounded singleFFT_halfSpectrum (L := 9) (K := 13) (by norm_num)
    exampleIR_moderate exampleUsable example_block example_scheme (fun l hl => (example_points l hl).1) junk nines (fun _ _ => 7) (fun _ _ => 9)
  have hA := twin1_accepts (N := 2) (L := 9) (irs := fun _ => exampleIR) (maxBs := fun _ => 64) (specs := fun _ => exampleSpec) (Bs := fun _ => 64) (fun _ => hz) singleFFT_halfSpectrum
    (.rounded fixed16)
  have hP : Twin1 singleFFT 2 9 (fun _ => exampleIR) (fun _ => 64) (fun _ => exampleSpec) (fun _ => 64) v :=
    ⟨0, Pair.create (fun _ => hz) exampleUsable example_block hLs ⟨_, _, hv⟩ ⟨_, _, hv⟩ 0⟩
  have hP' : Twin1 singleFFT 2 9 (fun _ => exampleIR) (fun _ => 64) (fun _ => exampleSpec) (fun _ => 64) v' :=
    ⟨0, Pair.create (fun _ => hz) exampleUsable example_block hLs ⟨_, _, hv'⟩ ⟨_, _, hv'⟩ 0⟩
  let b : Buf := ⟨2, 64, fun _ _ => nan⟩
  let b' : Buf := ⟨2, 64, fun _ _ => 0⟩
  obtain ⟨s0, d, h, hp, hd, hc⟩ := firstBlock_exec (ops := convolverOpsR singleFFT (.rounded fixed16)) (build := fun _ _ => v) (exampleIR, exampleSpec) b
  obtain ⟨t0, d', h', hp', hd', hc'⟩ := firstBlockBusy_exec (ops := convolverOpsR singleFFT (.rounded fixed16)) (build := fun _ _ => v') (exampleIR, exampleSpec) b'
  obtain ⟨s1, s2, s3, x1, x2, x3, x4, x5, x6, x7, x8, x9, x10, x11, x12, x13, x14⟩ := stages95 hA hP 90 rfl rfl h hp hc rfl rfl
  obtain ⟨t1, t2, t3, y1, y2, y3, y4, y5, y6, y7, y8, y9, y10, y11, y12, y13, y14⟩ := stages95 hA hP' 90 rfl rfl h' hp' hc' rfl rfl
  have hid : ∀ e ∈ (s0.engs 0).delivered, e.id = 0 := by
    intro e he
    rw [hd] at he
    rw [List.mem_singleton.1 he]
  have hand : HandedOver 0 0 (exampleIR, exampleSpec) exampleFormat (firstBlock (exampleIR, exampleSpec) b ++ [.body 0] ++ quietCalls 90 hush ++ quietCalls 5 hush) :=
    handedOver_more (handedOver_more (handedOver_more (firstBlock_hands _ _) _) _) _
  have hand' : HandedOver 0 0 (exampleIR, exampleSpec) exampleFormat (firstBlockBusy (exampleIR, exampleSpec) b' ++ [.body 0] ++ quietCalls 90 hush ++ quietCalls 5 hush) :=
    handedOver_more (handedOver_more (handedOver_more (firstBlockBusy_hands _ _) _) _) _
  have hx3 := exec_append (exec_append x1 x2) x3
  refine ⟨fun _ _ => v, fun _ _ => v', s1, s2, s3, t1, t2, t3, _, _, _, _, x1, x2, x3, y1, y2, y3, rfl, rfl, quietCalls_inputs 90 hush, quietCalls_inputs 5 hush, rfl, ?_⟩
  have creates : ∀ {w : Convolver} {m : Garbage} {r0 : ℕ → ℕ → ℝ} {ls : List (Label (Buf × ConvolverSpec))}, Convolver.createR singleFFT exampleIR 64 exampleSpec m r0 = some w →
      loadsIn ls = [(0, (exampleIR, exampleSpec))] → formatsIn 0 ls = [exampleFormat] → CreatesLoads singleFFT 2 0 ls fun _ _ => w := by
    intro w m r0 ls hw e1 e2 i ir cs hi p hp _
    rw [e1] at hi
    rw [e2] at hp
    rw [List.mem_singleton.1 hp]
    have e : (0, (ir, cs)) = (0, (exampleIR, exampleSpec)) := List.mem_singleton.1 (List.mem_of_getElem? hi)
    simp only [Prod.mk.injEq, true_and] at e
    obtain ⟨rfl, rfl⟩ := e
    exact ⟨m, r0, hw⟩
  refine C95_concurrent true (fun _ _ => ⟨nan, nan⟩) omega_bounded omega_inv_bounded singleFFT_halfSpectrum (.rounded fixed16) (L := 9) (K := 13) (by norm_num) (creates hv x13 x14) (creates hv' y13 y14)
    x1 x2 x3 y1 y2 y3 x4 x5 x6 x7 y4 y5 y6 y7 x10 x11 (fun i ir cs hi => ?_) ⟨?_, ?_, ?_, ?_, fun e he => ?_⟩ rfl (fun e he req p hk => ?_) (fun e he req p hk B hBk => ?_)
  · rw [x13] at hi
    have e : (0, (ir, cs)) = (0, (exampleIR, exampleSpec)) := List.mem_singleton.1 (List.mem_of_getElem? hi)
    simp only [Prod.mk.injEq, true_and] at e
    rw [e.1]
    exact exampleIR_moderate
  · exact .cons (.prepare _ _ _) (.cons (.process ⟨rfl, rfl⟩) .nil)
  · refine List.forall₂_same.2 fun k hk => ?_
    rw [callsIn_append, quietCalls_calls, quietCalls_calls] at hk
    have : k = .process hush := by
      rcases List.mem_append.1 hk with hk | hk <;> exact List.eq_of_mem_replicate hk
    rw [this]
    exact .process ⟨rfl, rfl, rfl, fun _ _ _ _ => rfl⟩
  · rw [← List.append_assoc, ← List.append_assoc, x12, y12]
    rfl
  · rw [y9, x9, hd, hd']; rfl
  · rw [x9] at he
    rw [hid e he, ← List.append_assoc, ← List.append_assoc]
    exact ⟨_, _, _, hand, hand', rfl⟩
  · rw [x9] at he
    rw [hid e he] at hk
    obtain ⟨rfl, rfl⟩ := C31_format_unique hx3 hand hk
    intro B sch' e1 e2
    have : some 64 = some B := example_block.symm.trans e1
    cases this
    exact hLs sch' e2
  · rw [x8] at he
    rw [hid e he] at hk
    obtain ⟨rfl, rfl⟩ := C31_format_unique hx3 hand hk
    have : some 64 = some B := example_block.symm.trans hBk
    cases this
    have hlen : ∀ n, totalLen (List.replicate n hush) = n * 64 := by
      intro n
      induction n with
      | zero => rfl
      | succ n ih =>
        rw [List.replicate_succ, Nat.succ_mul, ← ih, Nat.add_comm]
        rfl
    rw [quietCalls_inputs, hlen]
    show 5000 + 2 ^ 9 + 64 ≤ 90 * 64 + 1
    norm_num

end Zones.Props
