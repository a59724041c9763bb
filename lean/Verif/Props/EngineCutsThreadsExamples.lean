import Verif.Props.EngineCutsThreads
import Verif.Props.EngineCutsExamples
import Verif.Props.SplittingThreadsExamples

/-!
# Executions for which the hypotheses of C105 in the concurrent system hold
-/

open Zones.Spec Zones.Model Zones.Proofs Zones.Proofs.R

namespace Zones.Props

section
variable {V R : Type} {ops : ConvOps V} {build : R → ProcSpec → V} {N : ℕ} {Good : V → Prop}

/-- Create, prepare, load, deliver, and begin to process a block. -/
def firstBlock (req : R) (b : Buf) : List (Label R) :=
  [.create 0] ++ emptyCall 0 (.prepare exampleFormat fun _ _ => 0) ++ loadCall 0 req ++ jobRun 0 ++ [.call 0 (.process b), .service 0, .visit 0, .serviced 0]

/-- The same, with another engine, and the background thread and the message thread at work. -/
def firstBlockBusy (req : R) (b : Buf) : List (Label R) :=
  [.create 1, .create 0] ++ emptyCall 0 (.prepare exampleFormat fun _ _ => 0) ++ loadCall 0 req ++ [.bgBegin 0] ++ jobRun 0 ++
    [.call 0 (.process b), .async, .service 0, .bgEnd 0, .visit 0, .serviced 0]

theorem firstBlock_exec (req : R) (b : Buf) : ∃ s d, Exec ops build (firstBlock req b) s ∧ (s.engs 0).pc = .served (.process b) d ∧
    (s.engs 0).delivered = [⟨0, build req exampleFormat⟩] ∧ (s.engs 0).cmd = [] := by
  refine ⟨_, _, .cons (.create rfl) (.cons (.call rfl rfl) (.cons (.service rfl) (.cons (.serviced rfl) (.cons (.body rfl rfl)
    (.cons (.loadLock rfl ⟨rfl, rfl⟩) (.cons (.loadRemove rfl) (.cons (.loadFlag rfl (by exact Option.some_ne_none exampleFormat)) (.cons (.loadAdd rfl rfl)
    (.cons (.pick rfl) (.cons (.build (j := ⟨0, 0, req, exampleFormat, false, .building⟩) ?_ rfl)
    (.cons (.jobLock (j := ⟨0, 0, req, exampleFormat, false, .built (build req exampleFormat)⟩) ?_ rfl rfl ⟨rfl, rfl⟩)
    (.cons (.jobPush (j := ⟨0, 0, req, exampleFormat, false, .locked (build req exampleFormat)⟩) ?_ rfl rfl rfl ?_)
    (.cons (.jobDone (j := ⟨0, 0, req, exampleFormat, false, .pushed⟩) ?_ rfl rfl)
    (.cons (.call rfl rfl) (.cons (.service rfl) (.cons (.visit rfl rfl) (.cons (.serviced rfl) (.nil _)))))))))))))))))), rfl, rfl, rfl⟩
  · exact List.Mem.head _
  · exact List.Mem.head _
  · exact List.Mem.head _
  · show (0 : ℕ) < _
    decide
  · exact List.Mem.head _

theorem firstBlockBusy_exec (req : R) (b : Buf) : ∃ s d, Exec ops build (firstBlockBusy req b) s ∧ (s.engs 0).pc = .served (.process b) d ∧
    (s.engs 0).delivered = [⟨0, build req exampleFormat⟩] ∧ (s.engs 0).cmd = [] := by
  refine ⟨_, _, .cons (.create rfl) (.cons (.create rfl) (.cons (.call rfl rfl) (.cons (.service rfl) (.cons (.serviced rfl) (.cons (.body rfl rfl)
    (.cons (.loadLock rfl ⟨rfl, rfl⟩) (.cons (.loadRemove rfl) (.cons (.loadFlag rfl (by exact Option.some_ne_none exampleFormat)) (.cons (.loadAdd rfl rfl)
    (.cons (.bgBegin rfl rfl)
    (.cons (.pick rfl) (.cons (.build (j := ⟨0, 0, req, exampleFormat, false, .building⟩) ?_ rfl)
    (.cons (.jobLock (j := ⟨0, 0, req, exampleFormat, false, .built (build req exampleFormat)⟩) ?_ rfl rfl ⟨rfl, rfl⟩)
    (.cons (.jobPush (j := ⟨0, 0, req, exampleFormat, false, .locked (build req exampleFormat)⟩) ?_ rfl rfl rfl ?_)
    (.cons (.jobDone (j := ⟨0, 0, req, exampleFormat, false, .pushed⟩) ?_ rfl rfl)
    (.cons (.call rfl rfl) (.cons (.async rfl rfl) (.cons (.service rfl) (.cons (.bgEnd rfl) (.cons (.visit rfl rfl) (.cons (.serviced rfl) (.nil _)))))))))))))))))))))), rfl, rfl, rfl⟩
  · exact List.Mem.head _
  · exact List.Mem.head _
  · exact List.Mem.head _
  · show (0 : ℕ) < _
    decide
  · exact List.Mem.head _

/-- The block is processed to its end. -/
theorem ends_block (hA : Accepts ops N Good) {ls : List (Label R)} {s : Sys V R} {k : Call} {d : List (Held V)} (h : Exec ops build ls s) (hp : (s.engs 0).pc = .served k d)
    (hH : HostBehaves N none (callsIn 0 ls)) (hG : GoodLoads build Good 0 ls) :
    ∃ s', Exec ops build (ls ++ [.body 0]) s' ∧ (s'.engs 0).status = .alive ∧ (s'.engs 0).pc = .idle ∧ (s'.engs 0).delivered = (s.engs 0).delivered ∧ (s'.engs 0).cmd = (s.engs 0).cmd ∧
      Run ops build s [.body 0] s' := by
  obtain ⟨r, hr⟩ := body_defined hA h hH hG hp
  have ha : (s.engs 0).status = .alive := ((exec_inv h).flow 0).alive (by rw [hp]; simp)
  refine ⟨_, exec_append h (Run.single (.body hp hr)), ?_, ?_, ?_, ?_, Run.single (.body hp hr)⟩
  · simp [setEng_engs, finish_eq, ha]
  · simp [setEng_engs, finish_eq]
  · simp [setEng_engs, finish_eq]
  · simp [setEng_engs, finish_eq]

/-- A call that finds nothing in the queue. -/
theorem quiet_call (hA : Accepts ops N Good) {ls : List (Label R)} {s : Sys V R} (h : Exec ops build ls s) (ha : (s.engs 0).status = .alive) (hi : (s.engs 0).pc = .idle)
    (hc : (s.engs 0).cmd = []) {b : Buf} (hH : HostBehaves N none (callsIn 0 ls ++ [.process b])) (hG : GoodLoads build Good 0 ls) :
    ∃ s', Exec ops build (ls ++ emptyCall 0 (.process b)) s' ∧ (s'.engs 0).status = .alive ∧ (s'.engs 0).pc = .idle ∧ (s'.engs 0).delivered = (s.engs 0).delivered ∧ (s'.engs 0).cmd = [] ∧
      Run ops build s (emptyCall 0 (.process b)) s' := by
  have hr : ∃ s1, Run ops build s [.call 0 (.process b), .service 0, .serviced 0] s1 ∧ (s1.engs 0).pc = .served (.process b) [] ∧
      (s1.engs 0).delivered = (s.engs 0).delivered ∧ (s1.engs 0).cmd = [] := by
    have h2 : ((s.setEng 0 { s.engs 0 with
          core := (s.engs 0).core.callHead (.process b)
          loading := if Call.resets (.process b) then false else (s.engs 0).loading
          pc := .entered (.process b) }).engs 0).pc = .entered (.process b) := by simp [setEng_engs]
    refine ⟨_, .cons (.call ha hi) (.cons (.service h2) (.cons (.serviced (k := .process b) (done := []) ?_) (.nil _))), ?_, ?_, ?_⟩
    · simp [setEng_engs, hc]
    · simp [setEng_engs]
    · simp [setEng_engs]
    · simp [setEng_engs, hc]
  obtain ⟨s1, r1, p1, d1, c1⟩ := hr
  have hx := exec_append h r1
  have e1 : callsIn 0 (ls ++ [.call 0 (.process b), .service 0, .serviced 0]) = callsIn 0 ls ++ [.process b] := by rw [callsIn_append]; rfl
  have e2 : loadsIn (ls ++ [.call 0 (.process b), .service 0, .serviced 0]) = loadsIn ls := by rw [loadsIn_append]; exact List.append_nil _
  have e3 : formatsIn 0 (ls ++ [.call 0 (.process b), .service 0, .serviced 0]) = formatsIn 0 ls := by
    unfold formatsIn; rw [e1, List.filterMap_append]; exact List.append_nil _
  obtain ⟨s2, x1, x2, x3, x4, x5, x6⟩ := ends_block hA hx p1 (by rw [e1]; exact hH) (by unfold GoodLoads; rw [e2, e3]; exact hG)
  rw [List.append_assoc] at x1
  exact ⟨s2, x1, x2, x3, x4.trans d1, x5.trans c1, Run.append r1 x6⟩

/-- `n` calls, each with the block `b`. -/
def quietCalls (n : ℕ) (b : Buf) : List (Label R) := (List.replicate n (emptyCall 0 (.process b))).flatten

theorem quiet_calls (hA : Accepts ops N Good) {b : Buf} : ∀ (n : ℕ) {ls : List (Label R)} {s : Sys V R}, Exec ops build ls s → (s.engs 0).status = .alive → (s.engs 0).pc = .idle →
    (s.engs 0).cmd = [] → (∀ m ≤ n, HostBehaves N none (callsIn 0 ls ++ List.replicate m (.process b))) → GoodLoads build Good 0 ls →
    ∃ s', Exec ops build (ls ++ quietCalls n b) s' ∧ (s'.engs 0).status = .alive ∧ (s'.engs 0).pc = .idle ∧ (s'.engs 0).delivered = (s.engs 0).delivered ∧
      callsIn 0 (ls ++ quietCalls n b) = callsIn 0 ls ++ List.replicate n (.process b) ∧ loadsIn (ls ++ quietCalls n b) = loadsIn ls ∧ formatsIn 0 (ls ++ quietCalls n b) = formatsIn 0 ls ∧
      takenBy 0 (ls ++ quietCalls n b) = takenBy 0 ls ++ List.replicate n 0 ∧ (s'.engs 0).cmd = [] ∧ Run ops build s (quietCalls n b) s'
  | 0, ls, s, h, ha, hi, hc, hH, hG => by
    refine ⟨s, ?_, ha, hi, rfl, ?_⟩
    · rw [show ls ++ quietCalls 0 b = ls from List.append_nil ls]; exact h
    · rw [show ls ++ quietCalls 0 b = ls from List.append_nil ls]
      exact ⟨(List.append_nil _).symm, rfl, rfl, (List.append_nil _).symm, hc, .nil _⟩
  | n + 1, ls, s, h, ha, hi, hc, hH, hG => by
    obtain ⟨s1, x1, x2, x3, x4, x5, x6⟩ := quiet_call hA h ha hi hc (hH 1 (by omega)) hG
    have e1 : callsIn 0 (ls ++ emptyCall 0 (.process b)) = callsIn 0 ls ++ [.process b] := by rw [callsIn_append]; rfl
    have e2 : loadsIn (ls ++ emptyCall 0 (.process b)) = loadsIn ls := by rw [loadsIn_append]; exact List.append_nil _
    have e3 : formatsIn 0 (ls ++ emptyCall 0 (.process b)) = formatsIn 0 ls := by
      unfold formatsIn; rw [e1, List.filterMap_append]; exact List.append_nil _
    have e4 : takenBy 0 (ls ++ emptyCall 0 (.process b)) = takenBy 0 ls ++ [0] := by
      unfold takenBy; rw [List.foldl_append]; rfl
    obtain ⟨s2, y1, y2, y3, y4, y5, y6, y7, y8, y9, y10⟩ := quiet_calls hA n x1 x2 x3 x5 (fun m hm => by
      rw [e1, List.append_assoc]; exact hH (m + 1) (by omega)) (by unfold GoodLoads; rw [e2, e3]; exact hG)
    have e : ls ++ quietCalls (n + 1) b = ls ++ emptyCall 0 (.process b) ++ quietCalls n b := by
      rw [List.append_assoc]; rfl
    rw [e]
    refine ⟨s2, y1, y2, y3, y4.trans x4, ?_, y6.trans e2, y7.trans e3, ?_, y9, ?_⟩
    · rw [y5, e1, List.append_assoc]; rfl
    · rw [y8, e4, List.append_assoc]; rfl
    · exact Run.append x6 y10

end

noncomputable local instance coarse105T : Arith := Arith.rounded fixed16 (fun n e => omega n ^ e) (fun n e => (omega n)⁻¹ ^ e)

theorem createsR_exists (hZ : ExactOnZeros) (F : RealFFT) (N : ℕ) (m : Garbage) (r0 : ℕ → ℕ → ℝ) (v0 : Convolver) : ∃ build, CreatesR F N build ∧
    ∀ ir cs p, Usable ir p.maximumBlockSize cs N → Convolver.createR F ir p.maximumBlockSize cs m r0 = some (build (ir, cs) p) := by
  classical
  have key : ∀ (ir : Buf) (cs : ConvolverSpec) (p : ProcSpec), ∃ v, Usable ir p.maximumBlockSize cs N → Convolver.createR F ir p.maximumBlockSize cs m r0 = some v := by
    intro ir cs p
    by_cases h : Usable ir p.maximumBlockSize cs N
    · obtain ⟨-, sch, L, hsch, hL⟩ := usable_scheme hZ h (usable_block h)
      obtain ⟨c, _, -, -, e, -⟩ := usable_chain hZ (F := F) h (usable_block h) hsch hL m m r0 r0
      exact ⟨c, fun _ => e⟩
    · exact ⟨v0, fun h' => absurd h' h⟩
  choose build hb using key
  exact ⟨fun r p => build r.1 r.2 p, fun ir cs p h => ⟨m, r0, hb ir cs p h⟩, hb⟩

/-- Play `n` more blocks after the one with which the response arrives. -/
theorem plays105 {build : Buf × ConvolverSpec → ProcSpec → Convolver} (hB : CreatesR singleFFT 2 build) {k n : ℕ} (hk : k ≤ 64) {ls : List (Label (Buf × ConvolverSpec))}
    {s : Sys Convolver (Buf × ConvolverSpec)} {d : List (Held Convolver)} (h : Exec (convolverOpsR singleFFT (.rounded fixed16)) build ls s) (hp : (s.engs 0).pc = .served (.process (ones k)) d)
    (hd : (s.engs 0).delivered = [⟨0, build (exampleIR, spec32) exampleFormat⟩]) (hcmd : (s.engs 0).cmd = [])
    (hcalls : callsIn 0 ls = [.prepare exampleFormat fun _ _ => 0, .process (ones k)]) (hloads : loadsIn ls = [(0, (exampleIR, spec32))]) (ht : takenBy 0 ls = [0, 1]) :
    ∃ s' ls', Exec (convolverOpsR singleFFT (.rounded fixed16)) build ls' s' ∧ (s'.engs 0).status = .alive ∧ (s'.engs 0).pc = .idle ∧ HostBehaves 2 none (callsIn 0 ls') ∧ UsableLoads 2 0 ls' ∧
      Plays 0 ls' s' (([], .prepare exampleFormat fun _ _ => 0) :: pieced [([0], .play (ones k) (List.replicate n (ones k)))]) ∧ loadsIn ls' = [(0, (exampleIR, spec32))] ∧ ls <+: ls' ∧
      (s'.engs 0).delivered = [⟨0, build (exampleIR, spec32) exampleFormat⟩] := by
  have hf : formatsIn 0 ls = [exampleFormat] := by unfold formatsIn; rw [hcalls]; rfl
  have hbeh : ∀ m, HostBehaves 2 none (.prepare exampleFormat (fun _ _ => 0) :: List.replicate m (.process (ones k))) := by
    intro m
    refine ⟨exampleFormat_valid, ?_⟩
    induction m with
    | zero => trivial
    | succ m ih => exact ⟨rfl, fun j hj => (by cases hj; exact hk), ih⟩
  have hG : GoodLoads build (fun v => ∃ i, Tied singleFFT 2 (fun _ => exampleIR) (fun _ => 64) (fun _ => spec32) (fun _ => 32) i v v) 0 ls := by
    rintro i ⟨ir, cs⟩ p hi hp
    rw [hloads] at hi
    rw [hf] at hp
    rw [List.mem_singleton.1 hp]
    have e : (0, (ir, cs)) = (0, (exampleIR, spec32)) := List.mem_singleton.1 (List.mem_of_getElem? hi)
    simp only [Prod.mk.injEq, true_and] at e
    obtain ⟨rfl, rfl⟩ := e
    have := hB exampleIR spec32 exampleFormat usable32
    exact ⟨0, Tied.create zeros105 usable32 block32 this this⟩
  have hA := tied_accepts (N := 2) (irs := fun _ => exampleIR) (maxBs := fun _ => 64) (specs := fun _ => spec32) (Bs := fun _ => 32) zeros105 singleFFT_halfSpectrum (.rounded fixed16)
  obtain ⟨s1, x1, x2, x3, x4, x5, -⟩ := ends_block hA h hp (by rw [hcalls]; exact hbeh 1) hG
  have e1 : callsIn 0 (ls ++ [.body 0]) = callsIn 0 ls := by rw [callsIn_append]; exact List.append_nil _
  have e2 : loadsIn (ls ++ [.body 0]) = loadsIn ls := by rw [loadsIn_append]; exact List.append_nil _
  have e3 : formatsIn 0 (ls ++ [.body 0]) = formatsIn 0 ls := by unfold formatsIn; rw [e1]
  have e4 : takenBy 0 (ls ++ [.body 0]) = takenBy 0 ls := by unfold takenBy; rw [List.foldl_append]; rfl
  obtain ⟨s2, y1, y2, y3, y4, y5, y6, y7, y8, -⟩ := quiet_calls hA n x1 x2 x3 (x5.trans hcmd) (fun m _ => by
    rw [e1, hcalls]; exact hbeh (m + 1)) (by unfold GoodLoads; rw [e2, e3]; exact hG)
  rw [e1, hcalls] at y5
  rw [e2, hloads] at y6
  rw [e3, hf] at y7
  rw [e4, ht] at y8
  refine ⟨s2, _, y1, y2, y3, by rw [y5]; exact hbeh (n + 1), ?_, ⟨?_, ?_, ?_⟩, y6, by rw [List.append_assoc]; exact List.prefix_append .., (y4.trans x4).trans hd⟩
  · intro i ir cs hi p hp
    rw [y6] at hi
    rw [y7] at hp
    rw [List.mem_singleton.1 hp]
    have e : (0, (ir, cs)) = (0, (exampleIR, spec32)) := List.mem_singleton.1 (List.mem_of_getElem? hi)
    simp only [Prod.mk.injEq, true_and] at e
    obtain ⟨rfl, rfl⟩ := e
    exact usable32
  · rw [y5]; simp [pieced, Piece.calls]
  · rw [y8]; simp [pieced, Piece.calls]
  · rw [y4, x4, hd]
    simp [pieced, Piece.calls]

theorem calls105 (k : Call) (b : Buf) (n : ℕ) : ((([], k) :: pieced [([0], .play b (List.replicate n b))] : List (List ℕ × Call))).map Prod.snd = k :: List.replicate (n + 1) (.process b) ∧
    ((([], k) :: pieced [([0], .play b (List.replicate n b))] : List (List ℕ × Call))).map (fun x => x.1.length) = 0 :: 1 :: List.replicate n 0 := by
  constructor <;> simp [pieced, Piece.calls, List.replicate_succ]

/-- The hypotheses of `C105_concurrent` hold: in 16 bit fixed point, with fades in 16 bit too, one host plays 98 blocks of 64 samples, the other, while other threads are at work and from memory with
other contents, 196 blocks of 32. -/
example : ∃ (build build' : Buf × ConvolverSpec → ProcSpec → Convolver) (s s' : Sys Convolver (Buf × ConvolverSpec)) (ls ls' : List (Label (Buf × ConvolverSpec))),
    Exec (convolverOpsR singleFFT (.rounded fixed16)) build ls s ∧ Exec (convolverOpsR singleFFT (.rounded fixed16)) build' ls' s' ∧
    callsIn 0 ls = .prepare exampleFormat (fun _ _ => 0) :: List.replicate 98 (.process (ones 64)) ∧ callsIn 0 ls' = .prepare exampleFormat (fun _ _ => 0) :: List.replicate 196 (.process (ones 32)) ∧
    takenBy 0 ls = 0 :: 1 :: List.replicate 97 0 ∧ SameSignal 2 (s.engs 0).outs (s'.engs 0).outs := by
  obtain ⟨v0, -⟩ := convolvers32
  obtain ⟨build, hB, -⟩ := createsR_exists zeros105 singleFFT 2 junk (fun _ _ => 7) v0
  obtain ⟨build', hB', -⟩ := createsR_exists zeros105 singleFFT 2 nines (fun _ _ => 9) v0
  obtain ⟨s0, d, h, hp, hd, hc⟩ := firstBlock_exec (ops := convolverOpsR singleFFT (.rounded fixed16)) (build := build) (exampleIR, spec32) (ones 64)
  obtain ⟨t0, d', h', hp', hd', hc'⟩ := firstBlockBusy_exec (ops := convolverOpsR singleFFT (.rounded fixed16)) (build := build') (exampleIR, spec32) (ones 32)
  obtain ⟨s, ls, x1, x2, x3, x4, x5, x6, x7, -⟩ := plays105 (n := 97) hB le_rfl h hp hd hc rfl rfl rfl
  obtain ⟨s', ls', y1, y2, y3, y4, y5, y6, y7, -⟩ := plays105 (n := 195) hB' (by norm_num) h' hp' hd' hc' rfl rfl rfl
  refine ⟨build, build', s, s', ls, ls', x1, y1, ?_, ?_, ?_, ?_⟩
  · exact x6.calls.trans (calls105 _ _ 97).1
  · exact y6.calls.trans (calls105 _ _ 195).1
  · exact x6.taken.trans (calls105 _ _ 97).2
  have hlen : ∀ n k : ℕ, totalLen (ones k :: List.replicate n (ones k)) = (n + 1) * k := fun n k => by rw [← List.replicate_succ, ones_len]
  have hsig : SameSignal 2 (ones 64 :: List.replicate 97 (ones 64)) (ones 32 :: List.replicate 195 (ones 32)) := by
    rw [← List.replicate_succ, ← List.replicate_succ]
    refine ⟨by rw [ones_len, ones_len], fun ch _ t => ?_⟩
    rw [ones_stream, ones_stream]
  have hI : requestedIR ls 0 = exampleIR := by unfold requestedIR; rw [x7]; rfl
  have hS : requestedSpec ls 0 = spec32 := by unfold requestedSpec; rw [x7]; rfl
  refine C105_concurrent zeros105 singleFFT_halfSpectrum (cleanGains_rounded fixed16_zero fixed16_idem _ _) hB hB' x1 y1 x2 x3 y2 y3 x4 y4 x5 y5 (r := 48000)
    (by norm_num [exampleFormat]) (by norm_num) (by norm_num) x6 y6 (.cons ⟨rfl, .play hsig ?_⟩ .nil) (fun d _ => by rw [x7, y7]) ?_
  · rintro B ⟨q, hq, i, hi, rfl⟩
    rw [List.mem_singleton.1 hq] at hi
    rw [List.mem_singleton.1 hi]
    have : requestedBlock exampleFormat.maximumBlockSize ls 0 = 32 := by
      unfold requestedBlock
      rw [hS]
      exact congrArg (Option.getD · 0) block32
    rw [this]
    have hm : ∀ (m k : ℕ), 32 ∣ k → ∀ x ∈ ones k :: List.replicate m (ones k), 32 ∣ x.n := by
      intro m k hk x hx
      rw [← List.replicate_succ] at hx
      rw [List.eq_of_mem_replicate hx]
      exact hk
    rw [cuts_multiples (by norm_num) (hm 97 64 (by norm_num)), cuts_multiples (by norm_num) (hm 195 32 (by norm_num)), hsig.1]
  · intro q hq
    rw [List.mem_singleton.1 hq]
    refine .inr ⟨0, _, _, rfl, rfl, ?_⟩
    have := example_crossfade (totalLen (ones 64 :: List.replicate 97 (ones 64))) 0 (by rw [hlen]; norm_num)
    unfold CrossfadeWithin at this ⊢
    rw [hI, hS]
    exact this

end Zones.Props
