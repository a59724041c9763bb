import Verif.Props.EngineEndToEnd

/-!
# Concrete executions

They show that the hypotheses of the theorems about the concurrent system are met: an engine that is prepared and gets a response, a superseded load, a load cancelled by another engine, a destruction
during a load.
-/

open Zones.Spec Zones.Model Zones.Proofs

namespace Zones.Props

variable {V R : Type} {ops : ConvOps V} {build : R → ProcSpec → V}

/-- The steps of an audio-side call that finds an empty queue. -/
def emptyCall (e : ℕ) (k : Call) : List (Label R) := [.call e k, .service e, .serviced e, .body e]

/-- The steps of a `LoadIR` call on a prepared engine. -/
def loadCall (e : ℕ) (req : R) : List (Label R) := [.loadLock e req, .loadRemove e, .loadFlag e, .loadAdd e]

/-- The steps of a job. -/
def jobRun (i : ℕ) : List (Label R) := [.pick, .build i, .jobLock i, .jobCheck i, .jobDone i]

/-- Create, prepare, load, and let the job run. -/
def exampleLoad (p : ProcSpec) (req : R) : List (Label R) :=
  [.create 0] ++ emptyCall 0 (.prepare p fun _ _ => 0) ++ loadCall 0 req ++ jobRun 0

theorem example_load (p : ProcSpec) (req : R) : ∃ s, Exec ops build (exampleLoad p req) s ∧ (s.engs 0).delivered = [⟨0, build req p⟩] ∧ (s.engs 0).status = .alive := by
  refine ⟨_, .cons (.create rfl) (.cons (.call rfl rfl) (.cons (.service rfl) (.cons (.serviced rfl) (.cons (.body rfl rfl)
    (.cons (.loadLock rfl ⟨rfl, rfl⟩) (.cons (.loadRemove rfl) (.cons (.loadFlag rfl (by exact Option.some_ne_none p)) (.cons (.loadAdd rfl rfl)
    (.cons (.pick rfl) (.cons (.build (j := ⟨0, 0, req, p, false, .building⟩) ?_ rfl)
    (.cons (.jobLock (j := ⟨0, 0, req, p, false, .built (build req p)⟩) ?_ rfl rfl ⟨rfl, rfl⟩) (.cons (.jobPush (j := ⟨0, 0, req, p, false, .locked (build req p)⟩) ?_ rfl rfl rfl ?_)
    (.cons (.jobDone (j := ⟨0, 0, req, p, false, .pushed⟩) ?_ rfl rfl) (.nil _)))))))))))))), ?_, ?_⟩
  · exact List.Mem.head _
  · exact List.Mem.head _
  · exact List.Mem.head _
  · show (0 : ℕ) < _
    decide
  · exact List.Mem.head _
  · rfl
  · rfl

/-- A job superseded by a second load of the same engine while it was being built. -/
def exampleSuperseded (p : ProcSpec) (r1 r2 : R) : List (Label R) :=
  [.create 0] ++ emptyCall 0 (.prepare p fun _ _ => 0) ++ loadCall 0 r1 ++ [.pick, .build 0] ++ loadCall 0 r2 ++ [.jobLock 0, .jobCheck 0]

/-- The convolver of the first load has been destroyed on a worker thread, the second load is outstanding. -/
theorem example_superseded (p : ProcSpec) (r1 r2 : R) : ∃ s, Exec ops build (exampleSuperseded p r1 r2) s ∧ (s.engs 0).delivered = [] ∧ (s.engs 0).made = [0] ∧
    (s.engs 0).freed = [(0, .worker)] ∧ (s.engs 0).loading = true ∧ s.jobs.map Job.id = [1] ∧ Outstanding s 0 := by
  refine ⟨_, .cons (.create rfl) (.cons (.call rfl rfl) (.cons (.service rfl) (.cons (.serviced rfl) (.cons (.body rfl rfl)
    (.cons (.loadLock rfl ⟨rfl, rfl⟩) (.cons (.loadRemove rfl) (.cons (.loadFlag rfl (by exact Option.some_ne_none p)) (.cons (.loadAdd rfl rfl)
    (.cons (.pick rfl) (.cons (.build (j := ⟨0, 0, r1, p, false, .building⟩) ?_ rfl)
    (.cons (.loadLock rfl ⟨rfl, rfl⟩) (.cons (.loadRemove rfl) (.cons (.loadFlag rfl (by exact Option.some_ne_none p)) (.cons (.loadAdd rfl rfl)
    (.cons (.jobLock (j := ⟨0, 0, r1, p, true, .built (build r1 p)⟩) ?_ rfl rfl ⟨rfl, rfl⟩)
    (.cons (.jobStop (j := ⟨0, 0, r1, p, true, .locked (build r1 p)⟩) ?_ rfl rfl rfl) (.nil _))))))))))))))))), ?_, ?_, ?_, ?_, ?_, Or.inr ⟨⟨1, 0, r2, p, false, .queued⟩, ?_, rfl, rfl⟩⟩
  · exact List.Mem.head _
  · exact List.Mem.head _
  · exact List.Mem.head _
  · rfl
  · rfl
  · rfl
  · rfl
  · rfl
  · exact List.Mem.head _

/-- Two engines: a load of engine 1 while a load of engine 0 waits for a worker. -/
def exampleForeign (p : ProcSpec) (r0 r1 : R) : List (Label R) :=
  [.create 0, .create 1] ++ emptyCall 0 (.prepare p fun _ _ => 0) ++ emptyCall 1 (.prepare p fun _ _ => 0) ++ loadCall 0 r0 ++ loadCall 1 r1

/-- The load of engine 0 is gone, and it still says that it is loading (C40, C44). -/
theorem example_foreign (p : ProcSpec) (r0 r1 : R) : ∃ s, Exec ops build (exampleForeign p r0 r1) s ∧ (s.engs 0).loading = true ∧ (∀ j ∈ s.jobs, j.eng ≠ 0) ∧
    (s.engs 0).delivered = [] := by
  refine ⟨_, .cons (.create rfl) (.cons (.create rfl) (.cons (.call rfl rfl) (.cons (.service rfl) (.cons (.serviced rfl) (.cons (.body rfl rfl)
    (.cons (.call rfl rfl) (.cons (.service rfl) (.cons (.serviced rfl) (.cons (.body rfl rfl)
    (.cons (.loadLock rfl ⟨rfl, rfl⟩) (.cons (.loadRemove rfl) (.cons (.loadFlag rfl (by exact Option.some_ne_none p)) (.cons (.loadAdd rfl rfl)
    (.cons (.loadLock rfl ⟨rfl, rfl⟩) (.cons (.loadRemove rfl) (.cons (.loadFlag rfl (by exact Option.some_ne_none p)) (.cons (.loadAdd rfl rfl)
    (.nil _)))))))))))))))))), ?_, ?_, ?_⟩
  · rfl
  · intro j hj
    have hj : j ∈ [(⟨1, 1, r1, p, false, .queued⟩ : Job V R)] := hj
    rw [List.mem_singleton] at hj
    subst hj
    exact Nat.one_ne_zero
  · rfl

/-- The destruction of an engine whose load is being built: the job goes on to lock the destroyed mutex (C43). -/
theorem example_destroyed (p : ProcSpec) (req : R) : ∃ s, Exec ops build ([.create 0] ++ emptyCall 0 (.prepare p fun _ _ => 0) ++ loadCall 0 req ++
      [.pick, .build 0, .destroy 0, .jobLock 0]) s ∧ (s.engs 0).touched = true := by
  refine ⟨_, .cons (.create rfl) (.cons (.call rfl rfl) (.cons (.service rfl) (.cons (.serviced rfl) (.cons (.body rfl rfl)
    (.cons (.loadLock rfl ⟨rfl, rfl⟩) (.cons (.loadRemove rfl) (.cons (.loadFlag rfl (by exact Option.some_ne_none p)) (.cons (.loadAdd rfl rfl)
    (.cons (.pick rfl) (.cons (.build (j := ⟨0, 0, req, p, false, .building⟩) ?_ rfl) (.cons (.destroy rfl rfl rfl rfl)
    (.cons (.jobLockDead (j := ⟨0, 0, req, p, false, .built (build req p)⟩) ?_ rfl rfl) (.nil _))))))))))))), ?_⟩
  · exact List.Mem.head _
  · exact List.Mem.head _
  · rfl

/-! ## A case of C56 -/

/-- A constructor of convolvers exists. -/
theorem constructs_exists {F : RealFFT} (hF : Lawful F) (N : ℕ) (v0 : Convolver) : ∃ build, Constructs F N build := by
  classical
  refine ⟨fun r p => if h : Usable r.1 p.maximumBlockSize r.2 N then
      (usable_create hF h ⟨fun _ _ => 7, fun _ _ _ _ => 7, fun _ _ => 7, fun _ _ => 7, fun _ _ => 7⟩ fun _ _ => 7).choose else v0, fun ir cs p h => ?_⟩
  simp only [dif_pos h]
  exact ⟨_, _, _, (usable_create hF h _ _).choose_spec.1, Or.inl rfl⟩

theorem audio_delivered {ls : List (Label R)} {s s' : Sys V R} {e : ℕ} (h : Run ops build s ls s') (hl : ∀ l ∈ ls, audioSteps e l) :
    (s'.engs e).delivered = (s.engs e).delivered ∧ (s'.engs e).status = (s.engs e).status := by
  induction h with
  | nil s => exact ⟨rfl, rfl⟩
  | @cons s s1 s2 l ls h t ih =>
    have ih := ih fun x hx => hl x (List.mem_cons_of_mem _ hx)
    have hl := hl l (List.mem_cons_self ..)
    have h1 : (s1.engs e).delivered = (s.engs e).delivered ∧ (s1.engs e).status = (s.engs e).status := by
      cases h
      case service => exact ⟨upd_same (f := Eng.delivered) (by rfl) (by rfl) e, upd_same (f := Eng.status) (by rfl) (by rfl) e⟩
      case visit =>
        rw [visit_eq]
        exact ⟨upd_same (f := Eng.delivered) (by rfl) (by rfl) e, upd_same (f := Eng.status) (by rfl) (by rfl) e⟩
      case serviced => exact ⟨upd_same (f := Eng.delivered) (by rfl) (by rfl) e, upd_same (f := Eng.status) (by rfl) (by rfl) e⟩
      case body =>
        rw [finish_eq]
        exact ⟨upd_same (f := Eng.delivered) (by rfl) (by rfl) e, upd_same (f := Eng.status) (by rfl) (by rfl) e⟩
      all_goals exact absurd hl (by intro h; exact h)
    exact ⟨ih.1.trans h1.1, ih.2.trans h1.2⟩

/-- An engine between two calls can process any blocks a host may send; then its queue is empty. -/
theorem can_process {N : ℕ} {Good : V → Prop} (hA : Accepts ops N Good) {e : ℕ} : ∀ (blocks : List Buf) {ls : List (Label R)} {s : Sys V R},
    Exec ops build ls s → (s.engs e).status = .alive → (s.engs e).pc = .idle → HostBehaves N none (callsIn e ls ++ blocks.map Call.process) →
    GoodLoads build Good e ls → ∃ ls' s', Run ops build s ls' s' ∧ callsIn e ls' = blocks.map Call.process ∧ loadsIn ls' = [] ∧ (s'.engs e).status = .alive ∧
      (s'.engs e).pc = .idle ∧ (s'.engs e).delivered = (s.engs e).delivered ∧ ((s.engs e).cmd = [] ∨ blocks ≠ [] → (s'.engs e).cmd = [])
  | [], ls, s, h, ha, hi, _, _ => ⟨[], s, .nil s, rfl, rfl, ha, hi, rfl, fun h => h.resolve_right fun h => h rfl⟩
  | b :: bs, ls, s, h, ha, hi, hH, hG => by
    have hs : Step ops build s (.call e (.process b)) _ := .call ha hi
    generalize hs1 : (s.setEng e { s.engs e with
          core := (s.engs e).core.callHead (.process b)
          loading := if (Call.process b).resets then false else (s.engs e).loading
          pc := .entered (.process b) }) = s1 at hs
    have hx := exec_append h (Run.single hs)
    have f1 : ∀ xs : List (Label R), callsIn e ([.call e (.process b)] ++ xs) = .process b :: callsIn e xs := by
      intro xs
      rw [callsIn_append]
      simp [callsIn]
    have eC : callsIn e (ls ++ [.call e (.process b)]) = callsIn e ls ++ [.process b] := by
      rw [callsIn_append]
      simp [callsIn]
    have eF : formatsIn e (ls ++ [.call e (.process b)]) = formatsIn e ls := by
      unfold formatsIn
      rw [eC, List.filterMap_append]
      simp
    have eL : loadsIn (ls ++ [.call e (.process b)]) = loadsIn ls := by
      rw [loadsIn_append]; exact List.append_nil _
    have hG1 : GoodLoads build Good e (ls ++ [.call e (.process b)]) := by
      intro i req p
      rw [eL, eF]
      exact hG i req p
    have hH1 : HostBehaves N none (callsIn e (ls ++ [.call e (.process b)])) := by
      rw [eC]
      refine hostBehaves_prefix _ (bs.map Call.process) none ?_
      rw [List.append_assoc]
      exact hH
    have hp1 : (s1.engs e).pc = .entered (.process b) := by rw [← hs1, setEng_engs, if_pos rfl]
    have ha1 : (s1.engs e).status = .alive := by rw [← hs1, setEng_engs, if_pos rfl]; exact ha
    have hd1 : (s1.engs e).delivered = (s.engs e).delivered := by rw [← hs1, setEng_engs, if_pos rfl]
    obtain ⟨la, s2, g1, _, g2, g3⟩ := C53_audio_calls_never_wait hA hx hH1 hG1 (by rw [hp1]; simp)
    obtain ⟨q1, q2⟩ := audioSteps_quiet g1
    obtain ⟨d1, d2⟩ := audio_delivered g2 g1
    have hr2 : Run ops build s (.call e (.process b) :: la) s2 := .cons hs g2
    have hx2 := exec_append h hr2
    obtain ⟨found, w1, w2⟩ := C52_call_finds_what_waits hr2 (q2 e) g3
    have hc2 : (s2.engs e).cmd = [] := by
      have e1 := ((exec_inv h).flow e).flow (by rw [ha]; simp)
      have e2 := ((exec_inv hx2).flow e).flow (by rw [d2, ha1]; simp)
      rw [hi] at e1
      rw [g3] at e2
      simp only [APc.visited, List.append_nil] at e1 e2
      rw [d1, hd1, ← e1, w1, List.flatMap_append, List.append_assoc, List.append_cancel_left_eq] at e2
      obtain ⟨t, rfl⟩ := w2
      have := congrArg List.length e2
      simp only [List.flatMap_cons, List.flatMap_nil, List.length_append, List.append_nil] at this
      exact List.length_eq_zero_iff.mp (by omega)
    have eC2 : callsIn e (ls ++ .call e (.process b) :: la) = callsIn e ls ++ [.process b] := by
      have := callsIn_append e (ls ++ [.call e (.process b)]) la
      rw [q2 e, List.append_nil, eC, List.append_assoc] at this
      exact this
    have eF2 : formatsIn e (ls ++ .call e (.process b) :: la) = formatsIn e ls := by
      unfold formatsIn
      rw [eC2, List.filterMap_append]
      simp
    have eL2 : loadsIn (ls ++ .call e (.process b) :: la) = loadsIn ls := by
      have := loadsIn_append (ls ++ [.call e (.process b)]) la
      rw [q1, List.append_nil, eL, List.append_assoc] at this
      exact this
    obtain ⟨lb, s3, k1, k2, k3, k4, k5, k6, k7⟩ := can_process hA bs hx2 (d2.trans ha1) g3 (by
        rw [eC2, List.append_assoc]
        exact hH) (by
        intro i req p
        rw [eL2, eF2]
        exact hG i req p)
    refine ⟨(.call e (.process b) :: la) ++ lb, s3, Run.append hr2 k1, ?_, ?_, k4, k5, k6.trans (d1.trans hd1), fun _ => ?_⟩
    · rw [callsIn_append, k2]
      have := f1 la
      rw [q2 e] at this
      show callsIn e ([.call e (.process b)] ++ la) ++ _ = _
      rw [this]
      rfl
    · rw [loadsIn_append, k3, List.append_nil]
      exact q1
    · exact k7 (Or.inl hc2)

theorem totalLen_replicate (n : ℕ) (b : Buf) : totalLen (List.replicate n b) = n * b.n := by
  induction n with
  | zero => simp [totalLen]
  | succ n ih => rw [List.replicate_succ, totalLen, ih]; ring

/-- The hypotheses of `C56_end_to_end` can be met: an engine is created and prepared (48 kHz, blocks of 64), the example response is loaded and delivered, one block and
then 12018 more are processed, the last 10 of which are `more`. -/
theorem example_end_to_end : ∃ (build : Buf × ConvolverSpec → ProcSpec → Convolver) (ls1 ls2 ls3 : List (Label (Buf × ConvolverSpec))) (s1 s2 s3 : Sys Convolver (Buf × ConvolverSpec))
    (d : Held Convolver) (blocks more : List Buf), Lawful referenceFFT ∧ Constructs referenceFFT 2 build ∧
    Exec (convolverOps referenceFFT) build ls1 s1 ∧ (s1.engs 0).pc = .idle ∧ (∀ req, .loadLock 0 req ∉ ls1) ∧ (formatsIn 0 ls1).getLast? = some exampleFormat ∧
    Run (convolverOps referenceFFT) build s1 ls2 s2 ∧ (∀ k ∈ callsIn 0 ls2, ∃ blk, k = .process blk) ∧ (s2.engs 0).pc = .idle ∧ (s2.engs 0).cmd = [] ∧
    (s2.engs 0).delivered.getLast? = some d ∧
    Run (convolverOps referenceFFT) build s2 ls3 s3 ∧ (s3.engs 0).status = .alive ∧ (s3.engs 0).pc = .idle ∧ (s3.engs 0).delivered = (s2.engs 0).delivered ∧
    callsIn 0 ls3 = (blocks ++ more).map Call.process ∧
    HostBehaves 2 none (callsIn 0 (ls1 ++ ls2 ++ ls3)) ∧ UsableLoads 2 0 (ls1 ++ ls2) ∧
    4 * ((ceilTimes kUpperFadeTimeS exampleFormat.sampleRate).toNat + exampleFormat.maximumBlockSize) ≤ totalLen blocks ∧ 0 < totalLen more := by
  obtain ⟨v0, _⟩ := example_convolver
  obtain ⟨build, hB⟩ := constructs_exists referenceFFT_lawful 2 v0
  let ops := convolverOps referenceFFT
  let req : Buf × ConvolverSpec := (exampleIR, exampleSpec)
  let pl : List (Label (Buf × ConvolverSpec)) := emptyCall 0 (.prepare exampleFormat fun _ _ => 0)
  obtain ⟨s1, h1, g1, g2, g3, s2, h2, k1, k2, k3⟩ : ∃ s1, Exec ops build ([.create 0] ++ pl) s1 ∧ (s1.engs 0).pc = .idle ∧ (s1.engs 0).status = .alive ∧ (s1.engs 0).delivered = [] ∧
      ∃ s2, Run ops build s1 (loadCall 0 req ++ jobRun 0) s2 ∧ (s2.engs 0).pc = .idle ∧ (s2.engs 0).status = .alive ∧ (s2.engs 0).delivered = [⟨0, build req exampleFormat⟩] := by
    refine ⟨_, .cons (.create rfl) (.cons (.call rfl rfl) (.cons (.service rfl) (.cons (.serviced rfl) (.cons (.body rfl rfl) (.nil _))))), rfl, rfl, rfl, _,
      (.cons (.loadLock rfl ⟨rfl, rfl⟩) (.cons (.loadRemove rfl) (.cons (.loadFlag rfl (by exact Option.some_ne_none exampleFormat)) (.cons (.loadAdd rfl rfl)
    (.cons (.pick rfl) (.cons (.build (j := ⟨0, 0, req, exampleFormat, false, .building⟩) ?_ rfl)
    (.cons (.jobLock (j := ⟨0, 0, req, exampleFormat, false, .built (build req exampleFormat)⟩) ?_ rfl rfl ⟨rfl, rfl⟩)
    (.cons (.jobPush (j := ⟨0, 0, req, exampleFormat, false, .locked (build req exampleFormat)⟩) ?_ rfl rfl rfl ?_)
    (.cons (.jobDone (j := ⟨0, 0, req, exampleFormat, false, .pushed⟩) ?_ rfl rfl) (.nil _)))))))))), ?_, ?_, ?_⟩
    · exact List.Mem.head _
    · exact List.Mem.head _
    · exact List.Mem.head _
    · show (0 : ℕ) < _
      decide
    · exact List.Mem.head _
    · rfl
    · rfl
    · rfl
  have hx := exec_append h1 h2
  have hcalls : callsIn 0 ([.create 0] ++ pl ++ (loadCall 0 req ++ jobRun 0)) = [.prepare exampleFormat fun _ _ => 0] := rfl
  have hloads : loadsIn ([.create 0] ++ pl ++ (loadCall 0 req ++ jobRun 0)) = [(0, req)] := rfl
  have hU : UsableLoads 2 0 ([.create 0] ++ pl ++ (loadCall 0 req ++ jobRun 0)) := by
    intro i ir cs hi p hp
    unfold formatsIn at hp
    rw [hcalls] at hp
    rw [hloads] at hi
    have hp : p ∈ [exampleFormat] := hp
    rw [List.mem_singleton] at hp
    have := List.mem_of_getElem? hi
    rw [List.mem_singleton] at this
    have : (ir, cs) = (exampleIR, exampleSpec) := congrArg Prod.snd this
    cases this
    subst hp
    exact exampleUsable
  have hbeh : ∀ n, HostBehaves 2 none ([.prepare exampleFormat fun _ _ => 0] ++ (List.replicate n exampleBlock).map Call.process) := by
    intro n
    refine ⟨exampleFormat_valid, ?_⟩
    show HostBehaves 2 (some 64) ((List.replicate n exampleBlock).map Call.process)
    induction n with
    | zero => trivial
    | succ n ih => exact ⟨rfl, fun m hm => (by cases hm; exact le_rfl), ih⟩
  obtain ⟨la, s2', q1, q2, q3, q4, q5, q6, q7⟩ := can_process (accepts_convolver referenceFFT_lawful 2) (List.replicate 1 exampleBlock) hx k2 k1 (by rw [hcalls]; exact hbeh 1)
    (usable_good hB hU)
  have hx2 := exec_append hx q1
  have hcalls2 : callsIn 0 ([.create 0] ++ pl ++ (loadCall 0 req ++ jobRun 0) ++ la) = [.prepare exampleFormat fun _ _ => 0] ++ (List.replicate 1 exampleBlock).map Call.process := by
    rw [callsIn_append, q2, hcalls]
  have hU2 : UsableLoads 2 0 ([.create 0] ++ pl ++ (loadCall 0 req ++ jobRun 0) ++ la) := by
    intro i ir cs hi p hp
    refine hU i ir cs ?_ p ?_
    · rw [loadsIn_append, q3, List.append_nil] at hi; exact hi
    · unfold formatsIn at hp ⊢
      rw [hcalls2] at hp
      rw [hcalls]
      exact hp
  obtain ⟨lb, s3, r1, r2, r3, r4, r5, r6, r7⟩ := can_process (accepts_convolver referenceFFT_lawful 2) (List.replicate 12008 exampleBlock ++ List.replicate 10 exampleBlock) hx2 q4 q5
    (by
      rw [hcalls2, List.append_assoc, ← List.map_append, List.replicate_append_replicate, List.replicate_append_replicate]
      exact hbeh _)
    (usable_good hB hU2)
  refine ⟨build, [.create 0] ++ pl, loadCall 0 req ++ jobRun 0 ++ la, lb, s1, s2', s3, ⟨0, build req exampleFormat⟩, List.replicate 12008 exampleBlock, List.replicate 10 exampleBlock,
    referenceFFT_lawful, hB, h1, g1, ?_, rfl, Run.append h2 q1, ?_, q5, q7 (Or.inr (by simp)), ?_, r1, r4, r5, r6, r2, ?_, ?_, ?_, ?_⟩
  · intro r hr
    have hr : Label.loadLock 0 r ∈ ([.create 0, .call 0 (.prepare exampleFormat fun _ _ => 0), .service 0, .serviced 0, .body 0] : List (Label (Buf × ConvolverSpec))) := hr
    simp at hr
  · intro k hk
    rw [callsIn_append, q2] at hk
    have hk : k ∈ [Call.process exampleBlock] := hk
    exact ⟨_, List.mem_singleton.mp hk⟩
  · rw [q6, k3]; rfl
  · rw [callsIn_append, r2, ← List.append_assoc, hcalls2, List.append_assoc, ← List.map_append, List.replicate_append_replicate, List.replicate_append_replicate]
    exact hbeh _
  · rw [← List.append_assoc]; exact hU2
  · have : exampleFormat.sampleRate = ((48000 : ℕ) : ℚ) := by norm_num [exampleFormat]
    rw [this, upper_exact (by norm_num), totalLen_replicate]
    show 4 * (192000 + 64) ≤ 12008 * 64
    norm_num
  · rw [totalLen_replicate]
    show 0 < 10 * 64
    norm_num

end Zones.Props
