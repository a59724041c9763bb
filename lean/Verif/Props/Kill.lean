import Verif.Proofs.Kill
import Verif.Props.FairExamples

/-!
# C106: destroying an engine never waits for its background thread for ever, and what a killed background thread leaves behind

The destructor gives the background thread 100 milliseconds and then kills it. `Model/Kill.lean` adds such destructors to the system of the other properties; the
kill may come at any point of the thread's work.
-/

open Zones.Spec Zones.Model Zones.Proofs

namespace Zones.Props

variable {V R : Type} {ops : ConvOps V} {build : R → ProcSpec → V} {ls : List (KLabel R)} {k k' : KSys V R}

/-- **C106.** Whatever happens in a system whose destructors may kill background threads, all other threads could have done, step for step, in one whose destructors wait; and then
everything would be the same: what the blocks contain, which responses have been delivered and are playing, what the listeners were told, what is still running, and whether an
engine has been used after its destruction. The only difference is in which convolvers have been destroyed. -/
theorem C106_as_if_waited (h : KExec ops build ls k) : ∃ ls' s, Exec ops build ls' s ∧ foreground ls' = foreground (ls.map KLabel.asIfWaited) ∧
    s.jobs = k.sys.jobs ∧ s.async = k.sys.async ∧ s.next = k.sys.next ∧ ∀ e, SameButFreed (k.sys.engs e) (s.engs e) := by
  obtain ⟨ls', t, φ, hs⟩ := Kill.sim h
  refine ⟨ls', t, hs.exec, hs.labels, ?_, ?_, ?_, fun e => ?_⟩
  · rw [hs.same]; rfl
  · rw [hs.same]; rfl
  · rw [hs.same]; rfl
  · rw [hs.same]; rfl

/-- **C106.** No convolver is destroyed twice, and at any time the convolvers made for an engine are, each exactly once: with the job that built it, in the engine, destroyed, or
lost; at most one convolver of each engine is ever lost. -/
theorem C106_exactly_one_place (h : KExec ops build ls k) (e : ℕ) :
    (k.sys.engs e).made.Nodup ∧
      (k.sys.engs e).made.Perm (inJobs k.sys e ++ (k.sys.engs e).holding.map Held.id ++ (k.sys.engs e).freed.map Prod.fst ++ k.lost e) ∧ (k.lost e).length ≤ 1 := by
  obtain ⟨ls', t, φ, hs⟩ := Kill.sim h
  obtain ⟨h1, h2⟩ := C36_exactly_one_place hs.exec e
  have e1 : (t.engs e).made = (k.sys.engs e).made := by rw [hs.same]; rfl
  have e2 : (t.engs e).holding = (k.sys.engs e).holding := by rw [hs.same]; rfl
  have e3 : inJobs t e = inJobs k.sys e := by rw [hs.same]; rfl
  rw [e1] at h1 h2
  rw [e2, e3] at h2
  refine ⟨h1, h2.trans ?_, hs.one e⟩
  rw [List.append_assoc, List.append_assoc, List.append_assoc]
  refine List.Perm.append_left _ (List.Perm.append_left _ (hs.freed e))

/-- **C106.** A convolver is lost only if the destructor of its engine killed the background thread. -/
theorem C106_lost_only_by_kill (h : KExec ops build ls k) {e i : ℕ} (hi : i ∈ k.lost e) : .kill e ∈ ls ∧ (k.sys.engs e).status = .dead := by
  obtain ⟨ls', t, φ, hs⟩ := Kill.sim h
  have hφ : φ e ≠ none := fun hc => by rw [hs.whole e hc] at hi; cases hi
  exact ⟨hs.killed e hφ, (hs.frozen e hφ).dead⟩

/-- **C106.** Once an engine and its jobs are gone, every convolver made for it has been destroyed exactly once, but for at most one, and but for none if the
background thread was given the time to stop. -/
theorem C106_all_but_one_destroyed (h : KExec ops build ls k) (e : ℕ) (hd : (k.sys.engs e).status = .dead) (hj : ∀ j ∈ k.sys.jobs, j.eng ≠ e) :
    ((k.sys.engs e).freed.map Prod.fst).Nodup ∧ (k.sys.engs e).made.Perm ((k.sys.engs e).freed.map Prod.fst ++ k.lost e) ∧
      (k.lost e).length ≤ 1 ∧ (.kill e ∉ ls → k.lost e = []) := by
  obtain ⟨h1, h2, h3⟩ := C106_exactly_one_place h e
  obtain ⟨ls', t, φ, hs⟩ := Kill.sim h
  have e1 : inJobs k.sys e = [] := by
    refine List.eq_nil_iff_forall_not_mem.mpr fun i hi => ?_
    obtain ⟨j, hj', he, _⟩ := (inJobs_mem e i).mp hi
    exact hj j hj' he
  have e2 : (k.sys.engs e).holding = [] := by
    have h4 : (t.engs e).holding = (k.sys.engs e).holding := by rw [hs.same]; rfl
    rw [← h4]
    refine (exec_more hs.exec).deadEmpty e ?_
    rw [hs.same]; exact hd
  rw [e1, e2] at h2
  refine ⟨?_, h2, h3, fun hk => List.eq_nil_iff_forall_not_mem.mpr fun i hi => hk (C106_lost_only_by_kill h hi).1⟩
  have := h2.nodup_iff.mp h1
  exact (List.nodup_append.mp this).1

/-- **C106.** The destructor never has to wait for ever: an engine that is not in use can be destroyed at once, whatever its background thread is doing. -/
theorem C106_never_waits {e : ℕ} (ha : (k.sys.engs e).status = .alive) (hp : (k.sys.engs e).pc = .idle)
    (hl : (k.sys.engs e).loader = none) : ∃ l k', (l = .sys (.destroy e) ∨ l = .kill e) ∧ KStep ops build k l k' ∧ (k'.sys.engs e).status = .dead := by
  cases hb : (k.sys.engs e).bg with
  | none => exact ⟨_, _, Or.inl rfl, .sys (.destroy ha hp hl hb), by simp [setEng_engs]⟩
  | some n => exact ⟨_, _, Or.inr rfl, .kill ha hp hl hb, by simp [setEng_engs, Eng.killed]⟩

/-- Two sequences of steps. -/
theorem krun_append {k0 : KSys V R} {ls' : List (KLabel R)} (h : KRun ops build k0 ls k) (h' : KRun ops build k ls' k') : KRun ops build k0 (ls ++ ls') k' := by
  induction h with
  | nil => exact h'
  | cons h1 _ ih => exact .cons h1 (ih h')

/-- Steps that lead on from a state. -/
theorem kexec_append {ls' : List (KLabel R)} (h : KExec ops build ls k) (h' : KRun ops build k ls' k') : KExec ops build (ls ++ ls') k' := krun_append h h'

/-- What is lost stays lost. -/
theorem lost_stays {ls' : List (KLabel R)} (h : KRun ops build k ls' k') {e i : ℕ} (hi : i ∈ k.lost e) : i ∈ k'.lost e := by
  induction h with
  | nil => exact hi
  | cons h1 _ ih =>
    refine ih ?_
    cases h1 with
    | sys h => exact hi
    | kill => exact hi
    | killVisiting ha hp hl hb hc =>
      simp only [Function.update_apply]
      split_ifs with hh
      · subst hh; exact List.mem_append_left _ hi
      · exact hi

/-- **C106.** Whenever the background thread has a convolver in its hands, a destructor that kills it does lose that convolver: whatever happens afterwards, it is never destroyed. -/
theorem C106_kill_leaks (h : KExec ops build ls k) {e n : ℕ} {g : Held V} {rest : List (Option (Held V))} (ha : (k.sys.engs e).status = .alive) (hp : (k.sys.engs e).pc = .idle)
    (hl : (k.sys.engs e).loader = none) (hb : (k.sys.engs e).bg = some (n + 1)) (hc : (k.sys.engs e).ntf = some g :: rest) :
    ∃ k1, KStep ops build k (.kill e) k1 ∧ ∀ ls' k2, KRun ops build k1 ls' k2 → g.id ∉ (k2.sys.engs e).freed.map Prod.fst := by
  refine ⟨_, .killVisiting ha hp hl hb hc, fun ls' k2 hr hm => ?_⟩
  have hx := kexec_append h (.cons (.killVisiting ha hp hl hb hc) hr)
  have hlost := lost_stays hr (e := e) (i := g.id) (by simp)
  obtain ⟨h1, h2, _⟩ := C106_exactly_one_place hx e
  have h3 := h2.nodup_iff.mp h1
  have h4 := List.nodup_append.mp h3
  exact h4.2.2 g.id (List.mem_append_right _ hm) g.id hlost rfl

/-! ## A concrete case -/

theorem visit_more (s : Sys V R) {c : Call} {done rest : List (Held V)} {n : ℕ} {g : Held V} (hpc : (s.engs 0).pc = .serving c done (n + 1)) (hc : (s.engs 0).cmd = g :: rest)
    (hr : (s.engs 0).ntf = []) (ht : (s.engs 0).ntfTaken = 0) :
    ∃ s', Run ops build s [.visit 0] s' ∧ s'.jobs = s.jobs ∧ s'.engs 0 = { s.engs 0 with
      core := ((s.engs 0).core.handle ops g).1
      ntf := ((s.engs 0).core.handle ops g).2.take 399
      freed := (s.engs 0).freed ++ ((((s.engs 0).core.handle ops g).2.drop 399).flatMap Option.toList).map fun h => (h.id, Site.audio)
      cmd := rest
      cmdTaken := (s.engs 0).cmdTaken + 1
      pc := .serving c (done ++ [g]) n } := by
  refine ⟨_, Run.single (.visit hpc hc), rfl, ?_⟩
  rw [setEng_engs, if_pos rfl, visit_eq]
  have : ntfRoom (s.engs 0) = 399 := by unfold ntfRoom queueRoom; rw [hr, ht]; rfl
  simp [this, hr]

/-- Four responses are loaded and found by one `reset`; the third is replaced by the fourth before it is heard, and given to the background thread. -/
theorem example_disposal (p : ProcSpec) (req : R) : ∃ ls s, Exec ops build ls s ∧ (s.engs 0).status = .alive ∧ (s.engs 0).pc = .idle ∧ (s.engs 0).loader = none ∧
    (s.engs 0).bg = some 1 ∧ (s.engs 0).ntf = [some ⟨2, build req p⟩] ∧ (s.engs 0).made = [0, 1, 2, 3] ∧ (s.engs 0).freed = [(0, .audio)] ∧ s.jobs = [] := by
  obtain ⟨lsA, s1, h1, a1, a2, a3, a4, a5, a6, a7, a8, a9, a10, a11, a12⟩ : ∃ lsA s1, Exec ops build lsA s1 ∧ (s1.engs 0).status = .alive ∧ (s1.engs 0).pc = .idle ∧
      (s1.engs 0).cmd = [⟨0, build req p⟩, ⟨1, build req p⟩, ⟨2, build req p⟩, ⟨3, build req p⟩] ∧ (s1.engs 0).ntf = [] ∧ (s1.engs 0).ntfTaken = 0 ∧ (s1.engs 0).bg = none ∧
      ((s1.engs 0).core.active = none ∧ (s1.engs 0).core.fade = none ∧ (s1.engs 0).core.pending = none) ∧ s1.jobs = [] ∧ (s1.engs 0).loader = none ∧
      (s1.engs 0).made = [0, 1, 2, 3] ∧ (s1.engs 0).freed = [] ∧ (s1.engs 0).cmdTaken = 0 := by
    obtain ⟨s0, g0, b0, b1, b2, b3, b4, b5, b6, b7, b8, b9, b10, b11, b12, b13, b14⟩ : ∃ s0, Exec ops build ([.create 0] ++ emptyCall 0 (.prepare p fun _ _ => 0)) s0 ∧ s0.next = 0 ∧
        (s0.engs 0).status = .alive ∧ (s0.engs 0).pc = .idle ∧ (s0.engs 0).cmd = [] ∧ (s0.engs 0).cmdTaken = 0 ∧ (s0.engs 0).ntf = [] ∧ (s0.engs 0).ntfTaken = 0 ∧ (s0.engs 0).bg = none ∧
        ((s0.engs 0).core.active = none ∧ (s0.engs 0).core.fade = none ∧ (s0.engs 0).core.pending = none) ∧ s0.jobs = [] ∧ (s0.engs 0).core.spec = some p ∧
        (s0.engs 0).loader = none ∧ (s0.engs 0).holder = none ∧ (s0.engs 0).made = [] ∧ (s0.engs 0).freed = [] := by
      refine ⟨_, .cons (.create rfl) (.cons (.call rfl rfl) (.cons (.service rfl) (.cons (.serviced rfl) (.cons (.body rfl rfl) (.nil _))))), ?_⟩
      exact ⟨rfl, rfl, rfl, rfl, rfl, rfl, rfl, rfl, ⟨rfl, rfl, rfl⟩, rfl, rfl, rfl, rfl, rfl, rfl⟩
    obtain ⟨t1, r1, c1, d1, f1, e1⟩ := load_once (ops := ops) (build := build) s0 p req b1 b10 b11 b12 b9 (by simp [b3, b4])
    obtain ⟨t2, r2, c2, d2, f2, e2⟩ := load_once (ops := ops) (build := build) t1 p req (by rw [e1]; exact b1) (by rw [e1]; exact b10) (by rw [e1]; exact b11) (by rw [e1]; exact b12) d1
      (by rw [e1]; simp [b3, b4])
    obtain ⟨t3, r3, c3, d3, f3, e3⟩ := load_once (ops := ops) (build := build) t2 p req (by rw [e2, e1]; exact b1) (by rw [e2, e1]; exact b10) (by rw [e2, e1]; exact b11)
      (by rw [e2, e1]; exact b12) d2 (by rw [e2, e1]; simp [b3, b4])
    obtain ⟨t4, r4, c4, d4, f4, e4⟩ := load_once (ops := ops) (build := build) t3 p req (by rw [e3, e2, e1]; exact b1) (by rw [e3, e2, e1]; exact b10) (by rw [e3, e2, e1]; exact b11)
      (by rw [e3, e2, e1]; exact b12) d3 (by rw [e3, e2, e1]; simp [b3, b4])
    refine ⟨_, t4, exec_append (exec_append (exec_append (exec_append g0 r1) r2) r3) r4, ?_⟩
    rw [e4, e3, e2, e1]
    simp only [b1, b2, b3, b4, b5, b6, b7, b8, c3, c2, c1, b0, d4, b11, b13, b14]
    simp
  have hget : ∀ (s : Sys V R) (x : Eng V R), (s.setEng 0 x).engs 0 = x := fun s x => by rw [setEng_engs, if_pos rfl]
  have hs1 : Step ops build s1 (.call 0 .reset) _ := .call a1 a2
  have hs2 : Step ops build _ (.service 0) _ := .service (s := s1.setEng 0 { s1.engs 0 with
        core := (s1.engs 0).core.callHead .reset
        loading := if Call.reset.resets then false else (s1.engs 0).loading
        pc := .entered .reset }) (e := 0) (k := .reset) (by rw [hget])
  generalize hv0 : Sys.setEng (Sys.setEng s1 0 _) 0 _ = v0 at hs2
  rw [hget] at hv0
  have hvj : v0.jobs = [] := by rw [← hv0]; exact a8
  have hv := congrArg (fun s => s.engs 0) hv0
  simp only [hget, a3] at hv
  obtain ⟨v1, q1, j1, u1⟩ := visit_more (ops := ops) (build := build) v0 (by rw [← hv]; rfl) (by rw [← hv]) (by rw [← hv]; exact a4) (by rw [← hv]; exact a5)
  have i1 : (v0.engs 0).core.handle ops ⟨0, build req p⟩ = ({ (v0.engs 0).core with active := some ⟨0, build req p⟩ }, []) := by
    unfold Core.handle
    have : (v0.engs 0).core.active = none := by rw [← hv]; exact a7.1
    rw [this]
  rw [i1] at u1
  obtain ⟨v2, q2, j2, u2⟩ := visit_more (ops := ops) (build := build) v1 (congrArg Eng.pc u1) (congrArg Eng.cmd u1) (by rw [u1]; rfl) (by rw [u1, ← hv]; exact a5)
  have i2 : (v1.engs 0).core.handle ops ⟨1, build req p⟩ = (Core.beginFade ops { (v1.engs 0).core with pending := none } ⟨1, build req p⟩, []) := by
    unfold Core.handle
    have e1 : (v1.engs 0).core.active = some ⟨0, build req p⟩ := by rw [u1]
    have e2 : (v1.engs 0).core.fade = none := by rw [u1, ← hv]; exact a7.2.1
    have e3 : (v1.engs 0).core.pending = none := by rw [u1, ← hv]; exact a7.2.2
    simp only [e1, e2, e3]
  rw [i2] at u2
  obtain ⟨v3, q3, j3, u3⟩ := visit_more (ops := ops) (build := build) v2 (congrArg Eng.pc u2) (congrArg Eng.cmd u2) (by rw [u2]; rfl) (by rw [u2, u1, ← hv]; exact a5)
  have i3 : (v2.engs 0).core.handle ops ⟨2, build req p⟩ = ({ (v2.engs 0).core with pending := some ⟨2, build req p⟩ }, []) := by
    unfold Core.handle
    have e1 : (v2.engs 0).core.active = some ⟨0, build req p⟩ := by rw [u2]; show (v1.engs 0).core.active = _; rw [u1]
    have e2 : (v2.engs 0).core.fade = some ⟨1, build req p⟩ := by rw [u2]; rfl
    have e3 : (v2.engs 0).core.pending = none := by rw [u2]; rfl
    simp only [e1, e2, e3]
  rw [i3] at u3
  obtain ⟨v4, q4, j4, u4⟩ := visit_more (ops := ops) (build := build) v3 (congrArg Eng.pc u3) (congrArg Eng.cmd u3) (by rw [u3]; rfl) (by rw [u3, u2, u1, ← hv]; exact a5)
  have e1 : (v3.engs 0).core.active = some ⟨0, build req p⟩ := by rw [u3]; show (v2.engs 0).core.active = _; rw [u2]; show (v1.engs 0).core.active = _; rw [u1]
  have e2 : (v3.engs 0).core.fade = some ⟨1, build req p⟩ := by rw [u3]; show (v2.engs 0).core.fade = _; rw [u2]; rfl
  have e3 : (v3.engs 0).core.pending = some ⟨2, build req p⟩ := by rw [u3]
  have i4 : (v3.engs 0).core.handle ops ⟨3, build req p⟩ = ({ (v3.engs 0).core with pending := some ⟨3, build req p⟩ }, [some ⟨2, build req p⟩]) := by
    unfold Core.handle
    simp only [e1, e2, e3]
  rw [i4] at u4
  have hs5 : Step ops build v4 (.serviced 0) _ := .serviced (e := 0) (congrArg Eng.pc u4)
  generalize hw : Sys.setEng v4 0 _ = w at hs5
  have hwe := congrArg (fun s => s.engs 0) hw
  simp only [hget] at hwe
  have hs6 : Step ops build w (.body 0) _ := .body (e := 0) (congrArg Eng.pc hwe.symm) rfl
  generalize hx : Sys.setEng w 0 _ = x at hs6
  have hxe := congrArg (fun s => s.engs 0) hx
  simp only [hget, finish_eq] at hxe
  have hj : x.jobs = [] := by
    have q1 : x.jobs = w.jobs := by rw [← hx]; rfl
    have q2 : w.jobs = v4.jobs := by rw [← hw]; rfl
    rw [q1, q2, j4, j3, j2, j1, hvj]
  have hres : ((w.engs 0).core.resetBody ops).2.pushed = [] ∧ ((w.engs 0).core.resetBody ops).2.destroyed = [⟨0, build req p⟩] := by
    have g1 : (w.engs 0).core.active = some ⟨0, build req p⟩ := by rw [← hwe, u4]; exact e1
    have g3 : (w.engs 0).core.pending = some ⟨3, build req p⟩ := by rw [← hwe, u4]
    unfold Core.resetBody
    rw [g3, g1]
    exact ⟨rfl, rfl⟩
  have hf : (w.engs 0).freed = [] := by rw [← hwe, u4, u3, u2, u1, ← hv]; simp [a11]
  have hn : (w.engs 0).ntf = [some ⟨2, build req p⟩] := by rw [← hwe, u4]; rfl
  have hrun : Exec ops build _ x := exec_append h1 (.cons hs1 (.cons hs2 (Run.append q1 (Run.append q2 (Run.append q3 (Run.append q4 (.cons hs5 (Run.single hs6))))))))
  have hal : (x.engs 0).status = .alive := by rw [← hxe]; show (w.engs 0).status = _; rw [← hwe, u4, u3, u2, u1, ← hv]; exact a1
  have hbg : (x.engs 0).bg = none := by rw [← hxe]; show (w.engs 0).bg = _; rw [← hwe, u4, u3, u2, u1, ← hv]; exact a6
  have hnt : (x.engs 0).ntf = [some ⟨2, build req p⟩] := by
    rw [← hxe]
    show (w.engs 0).ntf ++ ((w.engs 0).core.resetBody ops).2.pushed.take _ = _
    rw [hres.1, hn]; simp
  have hlast := Step.bgBegin (ops := ops) (build := build) hal hbg
  refine ⟨_, _, exec_append hrun (Run.single hlast), ?_⟩
  rw [hget]
  refine ⟨hal, ?_, ?_, ?_, hnt, ?_, ?_, hj⟩
  · rw [← hxe]
  · show (x.engs 0).loader = none
    rw [← hxe]; show (w.engs 0).loader = _; rw [← hwe, u4, u3, u2, u1, ← hv]; exact a9
  · show some (x.engs 0).ntf.length = _
    rw [hnt]; rfl
  · show (x.engs 0).made = _
    rw [← hxe]; show (w.engs 0).made = _; rw [← hwe, u4, u3, u2, u1, ← hv]; exact a10
  · show (x.engs 0).freed = _
    rw [← hxe]
    show (w.engs 0).freed ++ ((((w.engs 0).core.resetBody ops).2.pushed.drop _).flatMap Option.toList).map _ ++ (((w.engs 0).core.resetBody ops).2.destroyed.map _) = _
    rw [hres.1, hres.2, hf]; simp

/-- An execution of a system without kills. -/
theorem kexec_of_exec {ls : List (Label R)} {s s' : Sys V R} {lost : ℕ → List ℕ} (h : Run ops build s ls s') : KRun ops build ⟨s, lost⟩ (ls.map .sys) ⟨s', lost⟩ := by
  induction h with
  | nil => exact .nil _
  | cons h1 _ ih => exact .cons (.sys h1) ih

/-- The hypotheses of `C106_kill_leaks` can be met, and what it says can happen: an engine is destroyed while its background thread is destroying a convolver. All jobs are done; the
other three convolvers have been destroyed, the third one never is. -/
theorem example_kill (p : ProcSpec) (req : R) : ∃ ls k, KExec ops build ls k ∧ (k.sys.engs 0).status = .dead ∧ k.sys.jobs = [] ∧ (k.sys.engs 0).made = [0, 1, 2, 3] ∧
    k.lost 0 = [2] ∧ ((k.sys.engs 0).freed.map Prod.fst).Perm [0, 1, 3] := by
  obtain ⟨ls, s, h, b1, b2, b3, b4, b5, b6, b7, b8⟩ := example_disposal (ops := ops) (build := build) p req
  have hk : KExec ops build (ls.map .sys) ⟨s, fun _ => []⟩ := kexec_of_exec h
  have hs : KStep ops build ⟨s, fun _ => []⟩ (.kill 0) _ := .killVisiting b1 b2 b3 b4 b5
  have hx := kexec_append hk (.cons hs (.nil _))
  have hd : ∀ x : Eng V R, ((s.setEng 0 x).engs 0) = x := fun x => by rw [setEng_engs, if_pos rfl]
  obtain ⟨_, h2, _⟩ := C106_all_but_one_destroyed hx 0 (by rw [hd]; rfl) (by show ∀ j ∈ s.jobs, _; rw [b8]; nofun)
  refine ⟨_, _, hx, ?_, b8, ?_, ?_, ?_⟩
  · rw [hd]; rfl
  · rw [hd]; exact b6
  · simp
  · rw [hd] at h2
    have h3 : (({ s.engs 0 with ntf := [] } : Eng V R).killed).made = [0, 1, 2, 3] := b6
    rw [h3] at h2
    simp only [Function.update_self, List.nil_append, Option.toList_some, List.map_cons, List.map_nil] at h2
    rw [hd]
    refine List.Perm.symm ((List.perm_append_right_iff [2]).mp (List.Perm.trans ?_ h2))
    decide

end Zones.Props
