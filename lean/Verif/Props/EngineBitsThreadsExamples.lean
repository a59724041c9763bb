import Verif.Props.EngineBitsThreads
import Verif.Props.EngineCutsThreadsExamples
import Verif.Props.EngineLevelThreadsExamples

/-!
# Executions for which the hypotheses of C94 in the concurrent system hold
-/

open Zones.Spec Zones.Model Zones.Proofs Zones.Proofs.R

namespace Zones.Props

noncomputable local instance coarse94T : Arith := Arith.rounded fixed16 (fun n e => omega n ^ e) (fun n e => (omega n)⁻¹ ^ e)

/-- In the execution of `firstBlock` the job is handed over when the engine is prepared for `exampleFormat`. -/
theorem firstBlock_hands {R : Type} (req : R) (b : Buf) : HandedOver 0 0 req exampleFormat (firstBlock req b) := by
  refine ⟨[.create 0] ++ emptyCall 0 (.prepare exampleFormat fun _ _ => 0) ++ [.loadLock 0 req, .loadRemove 0, .loadFlag 0], _, rfl, ⟨rfl, fun j x hj hx => ?_⟩, rfl⟩
  rw [List.getElem?_eq_none] at hx
  · cases hx
  · exact hj

theorem firstBlockBusy_hands {R : Type} (req : R) (b : Buf) : HandedOver 0 0 req exampleFormat (firstBlockBusy req b) := by
  refine ⟨[.create 1, .create 0] ++ emptyCall 0 (.prepare exampleFormat fun _ _ => 0) ++ [.loadLock 0 req, .loadRemove 0, .loadFlag 0], _, rfl, ⟨rfl, fun j x hj hx => ?_⟩, rfl⟩
  rw [List.getElem?_eq_none] at hx
  · cases hx
  · exact hj

/-- The hypotheses of `C94_concurrent` hold: in 16 bit fixed point, with fades in 16 bit too, two engines play 98 blocks of 64 samples, the one alone, the other while other threads are at work and
with convolvers made from memory with other contents. -/
example : ∃ (build build' : Buf × ConvolverSpec → ProcSpec → Convolver) (s s' : Sys Convolver (Buf × ConvolverSpec)) (ls ls' : List (Label (Buf × ConvolverSpec))),
    Exec (convolverOpsR singleFFT (.rounded fixed16)) build ls s ∧ Exec (convolverOpsR singleFFT (.rounded fixed16)) build' ls' s' ∧
    CreatesR singleFFT 2 build ∧ CreatesR singleFFT 2 build' ∧ callsIn 0 ls = .prepare exampleFormat (fun _ _ => 0) :: List.replicate 98 (.process (ones 64)) ∧
    firstBlock (exampleIR, spec32) (ones 64) <+: ls ∧ firstBlockBusy (exampleIR, spec32) (ones 64) <+: ls' ∧ AgreeFor 2 0 ls s ls' s' ∧ (s.engs 0).delivered ≠ [] ∧
    List.Forall₂ (SameBlock 2) (s.engs 0).outs (s'.engs 0).outs := by
  obtain ⟨v0, -⟩ := convolvers32
  obtain ⟨build, hB, -⟩ := createsR_exists zeros105 singleFFT 2 junk (fun _ _ => 7) v0
  obtain ⟨build', hB', -⟩ := createsR_exists zeros105 singleFFT 2 nines (fun _ _ => 9) v0
  obtain ⟨s0, d, h, hp, hd, hc⟩ := firstBlock_exec (ops := convolverOpsR singleFFT (.rounded fixed16)) (build := build) (exampleIR, spec32) (ones 64)
  obtain ⟨t0, d', h', hp', hd', hc'⟩ := firstBlockBusy_exec (ops := convolverOpsR singleFFT (.rounded fixed16)) (build := build') (exampleIR, spec32) (ones 64)
  obtain ⟨s, ls, x1, x2, x3, x4, x5, x6, x7, x8, x9⟩ := plays105 (n := 97) hB le_rfl h hp hd hc rfl rfl rfl
  obtain ⟨s', ls', y1, y2, y3, y4, y5, y6, y7, y8, y9⟩ := plays105 (n := 97) hB' le_rfl h' hp' hd' hc' rfl rfl rfl
  have kx := x6.calls.trans (calls105 _ _ 97).1
  have ky := y6.calls.trans (calls105 _ _ 97).1
  have hdel : (s.engs 0).delivered.map Held.id = [0] := by rw [x9]; rfl
  have hdel' : (s'.engs 0).delivered.map Held.id = [0] := by rw [y9]; rfl
  have hs : AgreeFor 2 0 ls s ls' s' := by
    refine ⟨?_, ?_, by rw [hdel, hdel'], fun d hd => ?_⟩
    · rw [kx, ky]
      refine List.forall₂_same.2 fun k hk => ?_
      rcases List.mem_cons.1 hk with rfl | hk
      · exact .prepare ..
      · rw [List.eq_of_mem_replicate hk]
        exact .process ⟨rfl, rfl, rfl, fun _ _ _ _ => rfl⟩
    · exact (y6.taken.trans (calls105 _ _ 97).2).trans (x6.taken.trans (calls105 _ _ 97).2).symm
    · have : d.id = 0 := by
        have := List.mem_map_of_mem (f := Held.id) hd
        rw [hdel] at this
        exact List.mem_singleton.1 this
      rw [this]
      obtain ⟨ms, rfl⟩ := x8
      obtain ⟨ms', rfl⟩ := y8
      exact ⟨_, _, _, handedOver_more (firstBlock_hands _ _) ms, handedOver_more (firstBlockBusy_hands _ _) ms', rfl⟩
  refine ⟨build, build', s, s', ls, ls', x1, y1, hB, hB', kx, x8, y8, hs, fun hn => (by rw [hn] at hdel; cases hdel), ?_⟩
  exact C94_concurrent zeros105 singleFFT_halfSpectrum hB hB' x1 y1 x2 x3 y2 y3 x4 x5 hs

/-- After the block with which the response arrives, `n` silent blocks, and then 5 more. -/
theorem stages94 {build : Buf × ConvolverSpec → ProcSpec → Convolver} (hB : CreatesR singleFFT 2 build) (n : ℕ) {b : Buf} (hb : b.ch = 2) (hbn : b.n = 64)
    {ls : List (Label (Buf × ConvolverSpec))} {s : Sys Convolver (Buf × ConvolverSpec)} {d : List (Held Convolver)} (h : Exec (convolverOpsR singleFFT (.rounded fixed16)) build ls s)
    (hp : (s.engs 0).pc = .served (.process b) d) (hcmd : (s.engs 0).cmd = []) (hcalls : callsIn 0 ls = [.prepare exampleFormat fun _ _ => 0, .process b])
    (hloads : loadsIn ls = [(0, (exampleIR, spec32))]) :
    ∃ s1 s2 s3, Exec (convolverOpsR singleFFT (.rounded fixed16)) build (ls ++ [.body 0]) s1 ∧ Run (convolverOpsR singleFFT (.rounded fixed16)) build s1 (quietCalls n hush) s2 ∧
      Run (convolverOpsR singleFFT (.rounded fixed16)) build s2 (quietCalls 5 hush) s3 ∧ (s1.engs 0).pc = .idle ∧ (s2.engs 0).pc = .idle ∧ (s3.engs 0).status = .alive ∧ (s3.engs 0).pc = .idle ∧
      (s1.engs 0).delivered = (s.engs 0).delivered ∧ (s3.engs 0).delivered = (s.engs 0).delivered ∧ HostBehaves 2 none (callsIn 0 (ls ++ [.body 0] ++ quietCalls n hush ++ quietCalls 5 hush)) ∧
      UsableLoads 2 0 (ls ++ [.body 0] ++ quietCalls n hush ++ quietCalls 5 hush) ∧
      takenBy 0 (ls ++ [.body 0] ++ quietCalls n hush ++ quietCalls 5 hush) = takenBy 0 ls ++ List.replicate n 0 ++ List.replicate 5 0 := by
  have hf : formatsIn 0 ls = [exampleFormat] := by unfold formatsIn; rw [hcalls]; rfl
  have hbeh : ∀ m, HostBehaves 2 none ((.prepare exampleFormat fun _ _ => 0) :: .process b :: List.replicate m (.process hush)) := by
    intro m
    refine ⟨exampleFormat_valid, hb, fun j hj => (by cases hj; rw [hbn]; exact le_rfl), ?_⟩
    induction m with
    | zero => trivial
    | succ m ih => exact ⟨rfl, fun j hj => (by cases hj; exact le_rfl), ih⟩
  have hG : ∀ ls : List (Label (Buf × ConvolverSpec)), loadsIn ls = [(0, (exampleIR, spec32))] → formatsIn 0 ls = [exampleFormat] →
      GoodLoads build (fun v => ∃ i, Tied singleFFT 2 (fun _ => exampleIR) (fun _ => 64) (fun _ => spec32) (fun _ => 32) i v v) 0 ls := by
    rintro ls e1 e2 i ⟨ir, cs⟩ p hi hp
    rw [e1] at hi
    rw [e2] at hp
    rw [List.mem_singleton.1 hp]
    have e : (0, (ir, cs)) = (0, (exampleIR, spec32)) := List.mem_singleton.1 (List.mem_of_getElem? hi)
    simp only [Prod.mk.injEq, true_and] at e
    obtain ⟨rfl, rfl⟩ := e
    have := hB exampleIR spec32 exampleFormat usable32
    exact ⟨0, Tied.create zeros105 usable32 block32 this this⟩
  have hA := tied_accepts (N := 2) (irs := fun _ => exampleIR) (maxBs := fun _ => 64) (specs := fun _ => spec32) (Bs := fun _ => 32) zeros105 singleFFT_halfSpectrum (.rounded fixed16)
  obtain ⟨s1, x1, x2, x3, x4, x5, -⟩ := ends_block hA h hp (by rw [hcalls]; exact hbeh 0) (hG _ hloads hf)
  have e1 : callsIn 0 (ls ++ [.body 0]) = callsIn 0 ls := by rw [callsIn_append]; exact List.append_nil _
  have e2 : loadsIn (ls ++ [.body 0]) = loadsIn ls := by rw [loadsIn_append]; exact List.append_nil _
  have e3 : formatsIn 0 (ls ++ [.body 0]) = formatsIn 0 ls := by unfold formatsIn; rw [e1]
  have e4 : takenBy 0 (ls ++ [.body 0]) = takenBy 0 ls := by unfold takenBy; rw [List.foldl_append]; rfl
  obtain ⟨s2, y1, y2, y3, y4, y5, y6, y7, y8, y9, y10⟩ := quiet_calls hA (b := hush) n x1 x2 x3 (x5.trans hcmd) (fun m _ => by
    rw [e1, hcalls]; exact hbeh m) (hG _ (e2.trans hloads) (e3.trans hf))
  rw [e1, hcalls] at y5
  rw [e2, hloads] at y6
  rw [e3, hf] at y7
  rw [e4] at y8
  have hrep : ∀ m, HostBehaves 2 none ([.prepare exampleFormat fun _ _ => 0, .process b] ++ List.replicate n (.process hush) ++ List.replicate m (.process hush)) := by
    intro m
    rw [List.append_assoc, ← List.replicate_add]
    exact hbeh _
  obtain ⟨s3, z1, z2, z3, z4, z5, z6, z7, z8, z9, z10⟩ := quiet_calls hA (b := hush) 5 y1 y2 y3 y9 (fun m _ => by rw [y5]; exact hrep m) (hG _ y6 y7)
  rw [y5] at z5
  rw [y6] at z6
  rw [y7] at z7
  rw [y8] at z8
  refine ⟨s1, s2, s3, x1, y10, z10, x3, y3, z2, z3, x4, z4.trans (y4.trans x4), by rw [z5]; exact hrep 5, ?_, z8⟩
  intro i ir cs hi p hp
  rw [z6] at hi
  rw [z7] at hp
  rw [List.mem_singleton.1 hp]
  have e : (0, (ir, cs)) = (0, (exampleIR, spec32)) := List.mem_singleton.1 (List.mem_of_getElem? hi)
  simp only [Prod.mk.injEq, true_and] at e
  obtain ⟨rfl, rfl⟩ := e
  exact usable32

/-- The hypotheses of `C94_concurrent_recent` hold: the one engine begins with a block of ones, the other, while other threads are at work, with a block of twos; then both get enough silent blocks,
and from then on their output is the same. -/
example : ∃ (build build' : Buf × ConvolverSpec → ProcSpec → Convolver) (s1 s2 s3 s1' s2' s3' : Sys Convolver (Buf × ConvolverSpec)) (ls1 ls2 ls3 ls1' : List (Label (Buf × ConvolverSpec))),
    Exec (convolverOpsR singleFFT (.rounded fixed16)) build ls1 s1 ∧ Run (convolverOpsR singleFFT (.rounded fixed16)) build s1 ls2 s2 ∧
    Run (convolverOpsR singleFFT (.rounded fixed16)) build s2 ls3 s3 ∧ Exec (convolverOpsR singleFFT (.rounded fixed16)) build' ls1' s1' ∧
    Run (convolverOpsR singleFFT (.rounded fixed16)) build' s1' ls2 s2' ∧ Run (convolverOpsR singleFFT (.rounded fixed16)) build' s2' ls3 s3' ∧
    inputsIn 0 ls1 = [⟨2, 64, fun _ _ => 1⟩] ∧ inputsIn 0 ls1' = [⟨2, 64, fun _ _ => 2⟩] ∧ inputsIn 0 ls3 = List.replicate 5 hush ∧ takenBy 0 ls1 = [0, 1] ∧
    ∃ outs outs', (s3.engs 0).outs = (s2.engs 0).outs ++ outs ∧ (s3'.engs 0).outs = (s2'.engs 0).outs ++ outs' ∧ List.Forall₂ (SameBlock 2) outs outs' := by
  obtain ⟨v0, -⟩ := convolvers32
  obtain ⟨build, hB, -⟩ := createsR_exists zeros105 singleFFT 2 junk (fun _ _ => 7) v0
  obtain ⟨build', hB', -⟩ := createsR_exists zeros105 singleFFT 2 nines (fun _ _ => 9) v0
  let b : Buf := ⟨2, 64, fun _ _ => 1⟩
  let b' : Buf := ⟨2, 64, fun _ _ => 2⟩
  obtain ⟨-, sch, L, hsch, hL⟩ := usable_scheme zeros105 usable32 block32
  let n := 5000 + 2 ^ L + 32
  obtain ⟨s0, d, h, hp, hd, hc⟩ := firstBlock_exec (ops := convolverOpsR singleFFT (.rounded fixed16)) (build := build) (exampleIR, spec32) b
  obtain ⟨t0, d', h', hp', hd', hc'⟩ := firstBlockBusy_exec (ops := convolverOpsR singleFFT (.rounded fixed16)) (build := build') (exampleIR, spec32) b'
  obtain ⟨s1, s2, s3, x1, x2, x3, x4, x5, x6, x7, x8, x9, x10, x11, x12⟩ := stages94 hB n rfl rfl h hp hc rfl rfl
  obtain ⟨t1, t2, t3, y1, y2, y3, y4, y5, y6, y7, y8, y9, y10, y11, y12⟩ := stages94 hB' n rfl rfl h' hp' hc' rfl rfl
  have hid : ∀ e ∈ (s0.engs 0).delivered, e.id = 0 := by
    intro e he
    rw [hd] at he
    rw [List.mem_singleton.1 he]
  have hand : HandedOver 0 0 (exampleIR, spec32) exampleFormat (firstBlock (exampleIR, spec32) b ++ [.body 0] ++ quietCalls n hush ++ quietCalls 5 hush) :=
    handedOver_more (handedOver_more (handedOver_more (firstBlock_hands _ _) _) _) _
  have hand' : HandedOver 0 0 (exampleIR, spec32) exampleFormat (firstBlockBusy (exampleIR, spec32) b' ++ [.body 0] ++ quietCalls n hush ++ quietCalls 5 hush) :=
    handedOver_more (handedOver_more (handedOver_more (firstBlockBusy_hands _ _) _) _) _
  have hx3 := exec_append (exec_append x1 x2) x3
  refine ⟨build, build', s1, s2, s3, t1, t2, t3, _, _, _, _, x1, x2, x3, y1, y2, y3, rfl, rfl, quietCalls_inputs 5 hush, rfl, ?_⟩
  refine C94_concurrent_recent zeros105 singleFFT_halfSpectrum hB hB' x1 x2 x3 y1 y2 y3 x4 x5 x6 x7 y4 y5 y6 y7 x10 x11 ⟨?_, ?_, ?_, ?_, fun e he => ?_⟩ rfl (L := L) (fun e he req p hk => ?_)
    (fun e he req p hk B hBk => ?_)
  · exact .cons (.prepare _ _ _) (.cons (.process ⟨rfl, rfl⟩) .nil)
  · refine List.forall₂_same.2 fun k hk => ?_
    rw [callsIn_append, quietCalls_calls, quietCalls_calls] at hk
    have : k = .process hush := by
      rcases List.mem_append.1 hk with hk | hk <;> exact List.eq_of_mem_replicate hk
    rw [this]
    exact .process ⟨rfl, rfl, rfl, fun _ _ _ _ => rfl⟩
  · rw [← List.append_assoc, ← List.append_assoc, x12, y12]
    rfl
  · rw [y9, x9, hd, hd']; rfl
  · rw [x9] at he
    rw [hid e he, ← List.append_assoc, ← List.append_assoc]
    exact ⟨_, _, _, hand, hand', rfl⟩
  · rw [x9] at he
    rw [hid e he] at hk
    obtain ⟨rfl, rfl⟩ := C31_format_unique hx3 hand hk
    intro B sch' e1 e2
    have : some 32 = some B := block32.symm.trans e1
    cases this
    have : some sch = some sch' := hsch.symm.trans e2
    cases this
    exact hL
  · rw [x8] at he
    rw [hid e he] at hk
    obtain ⟨rfl, rfl⟩ := C31_format_unique hx3 hand hk
    have : some 32 = some B := block32.symm.trans hBk
    cases this
    have hlen : ∀ n, totalLen (List.replicate n hush) = n * 64 := by
      intro n
      induction n with
      | zero => rfl
      | succ n ih =>
        rw [List.replicate_succ, Nat.succ_mul, ← ih, Nat.add_comm]
        rfl
    rw [quietCalls_inputs, hlen]
    show 5000 + 2 ^ L + 32 ≤ (5000 + 2 ^ L + 32) * 64 + 1
    omega

end Zones.Props
