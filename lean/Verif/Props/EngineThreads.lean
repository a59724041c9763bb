import Verif.Proofs.EngineOnly
import Verif.Props.EngineSys
import Verif.Proofs.EngineTaken

/-!
# The concurrent system, continued: C41, C43, C44, C52–C54
-/

open Zones.Spec Zones.Model Zones.Proofs

namespace Zones.Props

variable {V R : Type} {ops : ConvOps V} {build : R → ProcSpec → V} {ls ls' : List (Label R)} {s s' : Sys V R}

/-! ## C52 -/

/-- **C52.** Whatever the threads do, whenever an engine is between two audio-side calls, its state and everything it has output are those
of a sequential history: the audio-side calls one after another, each finding some convolvers in the queue, which together with
those still waiting are exactly the delivered ones, in order: as many as the call took from the queue. If the host behaves and the requested convolvers are good, this is one
of the histories that C32–C35, C38, C39, C42, C45 and C49 are about. -/
theorem C52_sequential (h : Exec ops build ls s) {e : ℕ} (ha : (s.engs e).status = .alive) (hi : (s.engs e).pc = .idle) :
    ∃ hist, hist.map Prod.snd = callsIn e ls ∧ hist.flatMap Prod.fst ++ (s.engs e).cmd = (s.engs e).delivered ∧ hist.map (fun b => b.1.length) = takenBy e ls ∧
      perform ops {} hist = some ((s.engs e).core, (s.engs e).outs) ∧
      ∀ N Good, HostBehaves N none (callsIn e ls) → GoodLoads build Good e ls → Reaches ops N Good hist (s.engs e).core := by
  have hk := exec_known h
  have hd : (s.engs e).status ≠ .dead := by rw [ha]; simp
  have hc := (hk.traced e).calls
  have hf := (hk.inv.flow e).flow hd
  obtain ⟨c0, h1, h2⟩ := (hk.inv.flow e).refines hd
  rw [hi] at hc hf h2
  have h2 : (s.engs e).core = c0 := h2
  obtain ⟨c1, h3⟩ := exec_outs h e hd
  have h4 : c1 = (s.engs e).core := by
    have := perform_calls ops (s.engs e).hist {}
    rw [h3, h1] at this
    rw [h2]
    simpa using this
  subst h4
  have ht := taken_hist h e
  rw [hi] at ht
  refine ⟨(s.engs e).hist, by simpa [APc.calling] using hc, by simpa [APc.visited] using hf, by simpa [takenNow] using ht, h3, fun N Good hH hG => ⟨?_, by rw [h2]; exact h1⟩⟩
  have := history_fits h ha hH hG
  rw [hi] at this
  simpa [APc.calling] using this

/-- **C52.** During an audio-side call this holds for the calls completed so far; the call in progress has put out nothing yet. -/
theorem C52_sequential_in_call (h : Exec ops build ls s) {e : ℕ} (hi : (s.engs e).pc ≠ .idle) :
    ∃ hist k c0, hist.map Prod.snd ++ [k] = callsIn e ls ∧ perform ops {} hist = some (c0, (s.engs e).outs) ∧
      ∃ found, hist.flatMap Prod.fst ++ found ++ (s.engs e).cmd = (s.engs e).delivered ∧ hist.map (fun b => b.1.length) ++ [found.length] = takenBy e ls ∧
        (s.engs e).core = (c0.callHead k).service ops found := by
  have hk := exec_known h
  have hd : (s.engs e).status ≠ .dead := by rw [(hk.inv.flow e).alive hi]; simp
  have hc := (hk.traced e).calls
  have hf := (hk.inv.flow e).flow hd
  have ht := taken_hist h e
  obtain ⟨c0, h1, h2⟩ := (hk.inv.flow e).refines hd
  obtain ⟨c1, h3⟩ := exec_outs h e hd
  have h4 : c1 = c0 := by
    have := perform_calls ops (s.engs e).hist {}
    rw [h3, h1] at this
    simpa using this
  subst h4
  cases hp : (s.engs e).pc with
  | idle => exact absurd hp hi
  | entered k =>
    rw [hp] at hc hf h2 ht
    exact ⟨_, k, c1, hc, h3, [], hf, ht, h2⟩
  | serving k d n =>
    rw [hp] at hc hf h2 ht
    exact ⟨_, k, c1, hc, h3, d, hf, ht, h2⟩
  | served k d =>
    rw [hp] at hc hf h2 ht
    exact ⟨_, k, c1, hc, h3, d, hf, ht, h2⟩

/-- **C52.** A call finds, at the latest, everything that waited in the queue when it began: what was delivered before a call is heard by it. -/
theorem C52_call_finds_what_waits {e : ℕ} {k : Call} (hr : Run ops build s (.call e k :: ls') s') (hc : callsIn e ls' = []) (hi : (s'.engs e).pc = .idle) :
    ∃ found, (s'.engs e).hist = (s.engs e).hist ++ [(found, k)] ∧ (s.engs e).cmd <+: found := by
  cases hr with
  | @cons _ s1 _ _ _ hs t =>
    have h1 : Finding (s.engs e).hist (s.engs e).cmd k (s1.engs e) := by
      cases hs with
      | call ha h =>
        rw [setEng_engs, if_pos rfl]
        exact ⟨rfl, rfl, List.prefix_rfl⟩
    have key : ∀ (a b : Sys V R) (xs : List (Label R)), Run ops build a xs b → callsIn e xs = [] → Finding (s.engs e).hist (s.engs e).cmd k (a.engs e) →
        Finding (s.engs e).hist (s.engs e).cmd k (b.engs e) := by
      intro a b xs hr
      induction hr with
      | nil a => exact fun _ h => h
      | @cons a a1 a2 l xs hs t ih =>
        intro hc hF
        have e1 : callsIn e (l :: xs) = callsIn e [l] ++ callsIn e xs := callsIn_append e [l] xs
        rw [e1, List.append_eq_nil_iff] at hc
        refine ih hc.2 (hF.step hs fun k' hk' => ?_)
        subst hk'
        have := hc.1
        simp [callsIn] at this
    have := key s1 s' ls' t hc h1
    unfold Finding at this
    rw [hi] at this
    exact this

/-! ## C53 -/

/-- **C53.** In every reachable state, an engine in an audio-side call can finish it by steps of that thread alone: it never waits for
a load, a lock or another thread, whatever these are doing. It takes at most 402 steps (399 of them for waiting convolvers). -/
theorem C53_audio_calls_never_wait {N : ℕ} {Good : V → Prop} (hA : Accepts ops N Good) (h : Exec ops build ls s) {e : ℕ}
    (hH : HostBehaves N none (callsIn e ls)) (hG : GoodLoads build Good e ls) (hpc : (s.engs e).pc ≠ .idle) :
    ∃ ls' s', (∀ l ∈ ls', audioSteps e l) ∧ ls'.length ≤ 402 ∧ Run ops build s ls' s' ∧ (s'.engs e).pc = .idle := by
  have hF := (exec_inv h).flow e
  obtain ⟨ls1, s1, k, d, h1, h2, h3, h4⟩ := gets_served (build := build) hF hpc
  have hx := exec_append h h3
  obtain ⟨q1, q2⟩ := audioSteps_quiet h1
  have eL : loadsIn (ls ++ ls1) = loadsIn ls := by rw [loadsIn_append, q1, List.append_nil]
  have eC : callsIn e (ls ++ ls1) = callsIn e ls := by rw [callsIn_append, q2, List.append_nil]
  have hF1 := (exec_inv hx).flow e
  have ha1 : (s1.engs e).status = .alive := hF1.alive (by rw [h4]; simp)
  have hw := history_fits hx (N := N) (Good := Good) ha1 (by rw [eC]; exact hH) (by
    intro i req p hi hp
    rw [eL] at hi
    unfold formatsIn at hp
    rw [eC] at hp
    exact hG i req p hi hp)
  rw [h4] at hw
  obtain ⟨c, _, hc⟩ := C49_defined hA hw
  obtain ⟨c0, g1, g2⟩ := hF1.refines (by rw [ha1]; simp)
  rw [h4] at g2
  have hc : ({} : Core V).calls ops ((s1.engs e).hist ++ [(d, k)]) = some c := hc
  rw [calls_snoc, g1, Option.bind_some, Option.map_eq_some_iff] at hc
  obtain ⟨r, hr, _⟩ := hc
  have hr : (s1.engs e).core.callBody ops k = some r := by
    rw [show (s1.engs e).core = _ from g2]; exact hr
  refine ⟨ls1 ++ [.body e], _, fun l hl => ?_, ?_, Run.append h3 (Run.single (.body h4 hr)), ?_⟩
  · rcases List.mem_append.mp hl with hl | hl
    · exact h1 l hl
    · rw [List.mem_singleton] at hl; subst hl; exact rfl
  · have := hF.cmdFits
    unfold queueRoom at this
    rw [List.length_append, List.length_singleton]
    omega
  · rw [setEng_engs, if_pos rfl, finish_eq]

open Classical in
/-- **C53.** And it takes no more than that under any interleaving: from the beginning of a call until the next one, its thread makes at most
402 steps. -/
theorem C53_bounded_steps (h : Exec ops build ls s) (e : ℕ) (hr : Run ops build s ls' s') (hc : callsIn e ls' = []) :
    ls'.countP (fun l => decide (audioSteps e l)) ≤ 402 := by
  have key : ∀ (s s' : Sys V R) (ls' : List (Label R)), Run ops build s ls' s' → Inv ops s → callsIn e ls' = [] →
      ls'.countP (fun l => decide (audioSteps e l)) + APc.left (s'.engs e).pc ≤ APc.left (s.engs e).pc := by
    intro s s' ls' hr
    induction hr with
    | nil s => intro _ _; simp
    | @cons s s1 s2 l ls' hs t ih =>
      intro hI hc
      have e1 : callsIn e (l :: ls') = callsIn e [l] ++ callsIn e ls' := callsIn_append e [l] ls'
      rw [e1, List.append_eq_nil_iff] at hc
      have := ih (hI.step hs) hc.2
      rw [List.countP_cons]
      rcases left_step hI.flow hs e with ⟨h1, h2⟩ | h1 | ⟨k, rfl⟩
      · rw [decide_eq_false h2, ← h1]; simpa using this
      · split_ifs <;> omega
      · have := hc.1
        simp [callsIn] at this
  have h1 := key s s' ls' hr (exec_inv h) hc
  have h2 : APc.left (s.engs e).pc ≤ 402 := by
    have hF := (exec_inv h).flow e
    cases hp : (s.engs e).pc with
    | idle => exact Nat.zero_le _
    | entered k => exact le_rfl
    | serving k d n =>
      have := hF.serving _ _ _ hp
      have := hF.cmdFits
      unfold queueRoom at this
      show n + 2 ≤ 402
      omega
    | served k d => show 1 ≤ 402; omega
  omega

/-! ## C54 -/

/-- **C54.** The load mutex is never held for ever: whoever holds it — a `LoadIR` call or a job — can release it by at most three steps
of its own, whatever else is going on. So no `LoadIR` call and no job is ever in a deadlock. -/
theorem C54_lock_gets_released (h : Exec ops build ls s) {e : ℕ} (ha : (s.engs e).status = .alive) :
    ∃ ls' s', ls'.length ≤ 3 ∧ Run ops build s ls' s' ∧ (s'.engs e).unlocked ∧
      ∀ l ∈ ls', l = .loadRemove e ∨ l = .loadFlag e ∨ l = .loadAdd e ∨ ∃ i, (s.engs e).holder = some i ∧ (l = .jobCheck i ∨ l = .jobDone i) := by
  have hI := exec_inv h
  have hM := exec_more h
  cases hl : (s.engs e).loader with
  | some x =>
    obtain ⟨i, req, p⟩ := x
    have hh : (s.engs e).holder = none := hI.locks.excl e (by rw [hl]; simp)
    have add : ∀ {s : Sys V R}, (s.engs e).loader = some (i, req, .flagged) → (s.engs e).core.spec ≠ none → (s.engs e).holder = none →
        ∃ s', Run ops build s [.loadAdd e] s' ∧ (s'.engs e).unlocked := by
      intro s h1 h2 h3
      obtain ⟨p, hp⟩ := Option.ne_none_iff_exists'.mp h2
      refine ⟨_, Run.single (.loadAdd h1 hp), ?_⟩
      show ((s.setEng e _).engs e).unlocked
      rw [setEng_engs, if_pos rfl]
      exact ⟨rfl, h3⟩
    have flag : ∀ {s : Sys V R}, (s.engs e).loader = some (i, req, .removed) → (s.engs e).holder = none →
        ∃ ls' s', ls'.length ≤ 2 ∧ Run ops build s ls' s' ∧ (s'.engs e).unlocked ∧ ∀ l ∈ ls', l = .loadFlag e ∨ l = .loadAdd e := by
      intro s h1 h3
      by_cases hsp : (s.engs e).core.spec = none
      · refine ⟨[.loadFlag e], _, by simp, Run.single (.loadSkip h1 hsp), ?_, by simp⟩
        rw [setEng_engs, if_pos rfl]
        exact ⟨rfl, h3⟩
      · have hstep : Step ops build s (.loadFlag e) _ := .loadFlag h1 hsp
        obtain ⟨s', g1, g2⟩ := add (s := s.setEng e { s.engs e with
          loader := some (i, req, .flagged)
          loading := true
          notified := (s.engs e).notified ++ [true] }) (by rw [setEng_engs, if_pos rfl]) (by rw [setEng_engs, if_pos rfl]; exact hsp)
          (by rw [setEng_engs, if_pos rfl]; exact h3)
        exact ⟨[.loadFlag e, .loadAdd e], s', by simp, .cons hstep g1, g2, by simp⟩
    cases p with
    | locked =>
      have hstep : Step ops build s (.loadRemove e) _ := .loadRemove hl
      obtain ⟨ls', s', g1, g2, g3, g4⟩ := flag (s := { s.setEng e { s.engs e with loader := some (i, req, .removed) } with jobs := removeAllJobs s.jobs })
        (by show ((s.setEng e _).engs e).loader = _; rw [setEng_engs, if_pos rfl]) (by show ((s.setEng e _).engs e).holder = _; rw [setEng_engs, if_pos rfl]; exact hh)
      refine ⟨.loadRemove e :: ls', s', by simp; omega, .cons hstep g2, g3, fun l hl => ?_⟩
      rcases List.mem_cons.mp hl with hl | hl
      · exact Or.inl hl
      · rcases g4 l hl with hl | hl
        · exact Or.inr (Or.inl hl)
        · exact Or.inr (Or.inr (Or.inl hl))
    | removed =>
      obtain ⟨ls', s', g1, g2, g3, g4⟩ := flag hl hh
      refine ⟨ls', s', by omega, g2, g3, fun l hl => ?_⟩
      rcases g4 l hl with hl | hl
      · exact Or.inr (Or.inl hl)
      · exact Or.inr (Or.inr (Or.inl hl))
    | flagged =>
      obtain ⟨s', g1, g2⟩ := add hl (hM.flagged e i req hl) hh
      exact ⟨[.loadAdd e], s', by simp, g1, g2, fun l hl => Or.inr (Or.inr (Or.inl (by simpa using hl)))⟩
  | none =>
    cases hh : (s.engs e).holder with
    | none => exact ⟨[], s, by simp, .nil s, ⟨hl, hh⟩, fun l hl => (by cases hl)⟩
    | some i =>
      obtain ⟨j, hj, rfl, rfl, hold⟩ := hI.locks.hjob e i hh
      have done : ∀ {s : Sys V R} {j : Job V R}, j ∈ s.jobs → j.pc = .pushed → (s.engs j.eng).status = .alive → (s.engs j.eng).loader = none →
          ∃ s', Run ops build s [.jobDone j.id] s' ∧ (s'.engs j.eng).unlocked := by
        intro s j h1 h2 h3 h4
        refine ⟨_, Run.single (.jobDone h1 h2 h3), ?_⟩
        show (((s.dropJob j.id).setEng j.eng _).engs j.eng).unlocked
        rw [setEng_engs, if_pos rfl]
        exact ⟨h4, rfl⟩
      rcases holds_iff.mp hold with ⟨v, hv⟩ | hp
      · by_cases hst : j.stop = true
        · refine ⟨[.jobCheck j.id], _, by simp, Run.single (.jobStop hj hv ha hst), ?_, fun l hl => Or.inr (Or.inr (Or.inr ⟨j.id, rfl, Or.inl (by simpa using hl)⟩))⟩
          rw [setEng_engs, if_pos rfl]
          exact ⟨hl, rfl⟩
        · have hst : j.stop = false := by simpa using hst
          have fin : ∀ x : Eng V R, x.status = .alive → x.loader = none →
              Step ops build s (.jobCheck j.id) ((s.setJob { j with pc := .pushed }).setEng j.eng x) →
              ∃ ls' s', ls'.length ≤ 3 ∧ Run ops build s ls' s' ∧ (s'.engs j.eng).unlocked ∧
      ∀ l ∈ ls', l = .loadRemove j.eng ∨ l = .loadFlag j.eng ∨ l = .loadAdd j.eng ∨ ∃ i, some j.id = some i ∧ (l = .jobCheck i ∨ l = .jobDone i) := by
            intro x h1 h2 hs
            obtain ⟨s', g1, g2⟩ := done (s := (s.setJob { j with pc := .pushed }).setEng j.eng x) (j := { j with pc := .pushed })
              (setJob_mem (s := s) hj rfl) rfl (by rw [setEng_engs, if_pos rfl]; exact h1) (by rw [setEng_engs, if_pos rfl]; exact h2)
            exact ⟨[.jobCheck j.id, .jobDone j.id], s', by simp, .cons hs g1, g2, fun l hl => Or.inr (Or.inr (Or.inr ⟨j.id, rfl, by simpa using hl⟩))⟩
          by_cases hroom : (s.engs j.eng).cmd.length + (s.engs j.eng).cmdTaken < queueRoom
          · exact fin _ (by exact ha) (by exact hl) (.jobPush hj hv ha hst hroom)
          · exact fin _ (by exact ha) (by exact hl) (.jobRefused hj hv ha hst hroom)
      · obtain ⟨s', g1, g2⟩ := done hj hp ha hl
        exact ⟨[.jobDone j.id], s', by simp, g1, g2, fun l hl => Or.inr (Or.inr (Or.inr ⟨j.id, rfl, Or.inr (by simpa using hl)⟩))⟩

/-- **C54, what the code does in a listener.** `LoadIR` calls the listeners while it holds the load mutex. As long as that call has
not gone on to add its job, no other call of `LoadIR` on that engine gets past the lock: a listener that calls it deadlocks. -/
theorem C54_load_in_listener_deadlocks {e : ℕ} (h : Exec ops build ls s) (hs : Step ops build s (.loadFlag e) s') (hsp : (s.engs e).core.spec ≠ none)
    {s'' : Sys V R} (hr : Run ops build s' ls' s'') (hw : .loadAdd e ∉ ls') : ∀ req, .loadLock e req ∉ ls' := by
  have h0 : ∃ i req, (s'.engs e).loader = some (i, req, .flagged) := by
    cases hs with
    | loadFlag h1 h2 => exact ⟨_, _, by rw [setEng_engs, if_pos rfl]⟩
    | loadSkip h1 h2 => exact absurd h2 hsp
  have hI := (exec_inv h).step hs
  have key : ∀ (a b : Sys V R) (xs : List (Label R)), Run ops build a xs b → Inv ops a → .loadAdd e ∉ xs → ∀ i r, (a.engs e).loader = some (i, r, .flagged) →
      ∀ req, .loadLock e req ∉ xs := by
    intro a b xs hr
    induction hr with
    | nil a => exact fun _ _ _ _ _ req h => (by cases h)
    | @cons a a1 a2 l xs hs t ih =>
      intro hI hw i r hl req hm
      obtain ⟨g1, g2⟩ := flagged_step hI.flow hs hl (fun hc => hw (by rw [hc]; exact List.mem_cons_self ..))
      rcases List.mem_cons.mp hm with hm | hm
      · exact g2 req hm.symm
      · exact ih (hI.step hs) (fun hc => hw (List.mem_cons_of_mem _ hc)) i r g1 req hm
  obtain ⟨i, r, hl⟩ := h0
  exact key s' s'' ls' hr hI hw i r hl

/-! ## C43 -/

/-- **C43.** Destroying an engine is safe if the pool has no job of it and no completion callback of it is waiting on the message thread:
nothing accesses it afterwards. -/
theorem C43_safe_destruction {e : ℕ} (h : Exec ops build ls s) (hs : Step ops build s (.destroy e) s') (hj : ∀ j ∈ s.jobs, j.eng ≠ e)
    (hc : e ∉ s.async) {s'' : Sys V R} (hr : Run ops build s' ls' s'') : (s''.engs e).touched = false := by
  have hI := exec_inv h
  have hu := exec_untouched h e
  have hI' := hI.step hs
  have hG : Gone e s' := by
    cases hs with
    | destroy ha hp hl hb =>
      refine ⟨?_, ?_, ?_, hj, hc⟩
      · rw [setEng_engs, if_pos rfl]
      · rw [setEng_engs, if_pos rfl]
        exact hu (by rw [ha]; simp)
      · rw [setEng_engs, if_pos rfl]; exact hl
  exact (run_induct (P := fun s => Inv ops s ∧ Gone e s) (fun s l s' hp hs => ⟨hp.1.step hs, hp.2.step hp.1 hs⟩) hr ⟨hI', hG⟩).2.untouched

/-- **C43, what the code does otherwise.** If the pool still has a job of the engine — waiting, running, or superseded but not yet
finished — the workers can go on to access the destroyed engine: the destructor does not wait for it. -/
theorem C43_destruction_during_load {e : ℕ} (h : Exec ops build ls s) (hs : Step ops build s (.destroy e) s') {j : Job V R} (hj : j ∈ s.jobs)
    (he : j.eng = e) : ∃ ls' s'', (∀ l ∈ ls', workerSteps l) ∧ Run ops build s' ls' s'' ∧ (s''.engs e).touched = true := by
  have hn := (exec_inv h).ids.nodup
  subst he
  have hd : s'.jobs = s.jobs ∧ (s'.engs j.eng).status = .dead := by
    cases hs with
    | destroy ha hp hl hb => exact ⟨rfl, by rw [setEng_engs, if_pos rfl]⟩
  obtain ⟨s'', ⟨ls', h1, h2⟩, h3⟩ := job_touches (ops := ops) (build := build) (s := s') (by rw [hd.1]; exact hn) (by rw [hd.1]; exact hj) hd.2
  exact ⟨ls', s'', h1, h2, h3⟩

/-- **C43, what the code does otherwise.** Likewise if its completion callback is still waiting on the message thread. -/
theorem C43_destruction_before_callback {e : ℕ} (h : Exec ops build ls s) (hs : Step ops build s (.destroy e) s') (hc : e ∈ s.async) :
    ∃ ls' s'', (∀ l ∈ ls', l = .async) ∧ Run ops build s' ls' s'' ∧ (s''.engs e).touched = true := by
  have hx : Exec ops build (ls ++ [.destroy e]) s' := exec_append h (Run.single hs)
  have hb := (exec_more hx).asyncBorn
  cases hs with
  | destroy ha hp hl hb' => exact async_touches s.async _ rfl hc hb (by rw [setEng_engs, if_pos rfl])

/-! ## C44 -/

/-- **C44, what the code does with a shared pool.** A `LoadIR` call on any engine cancels the loads of all engines: once it has done so, an engine gets
only convolvers of loads that had not got to adding their job by then, or that begin later. -/
theorem C44_load_cancels_everyone {e e' : ℕ} (h : Exec ops build (ls ++ [.loadRemove e']) s) (hr : Run ops build s ls' s') :
    ∃ new, (s'.engs e).delivered = (s.engs e).delivered ++ new ∧
      ∀ d ∈ new, (loadsIn ls).length ≤ d.id ∨ ∃ req p, (s.engs e).loader = some (d.id, req, p) := by
  obtain ⟨s0, h0, hs⟩ := exec_snoc h
  have hnext := (exec_known h).origins.next
  have eL : loadsIn (ls ++ [.loadRemove e']) = loadsIn ls := by rw [loadsIn_append]; exact List.append_nil _
  rw [eL] at hnext
  have hO : Only e (fun i => (loadsIn ls).length ≤ i ∨ ∃ req p, (s.engs e).loader = some (i, req, p)) s := by
    refine ⟨fun j hj he hst _ => ?_, fun i r p hl => Or.inr ⟨r, p, hl⟩, fun k hk => Or.inl (by rw [← hnext]; exact hk)⟩
    cases hs with
    | loadRemove hl =>
      obtain ⟨k, _, _, rfl⟩ := mem_removeAll.mp hj
      cases hst
  exact (hO.run hr).2

/-- Whether a step concerns engine `e`. -/
def concerns (s : Sys V R) (e : ℕ) : Label R → Prop
  | .create e' | .loadLock e' _ | .loadRemove e' | .loadFlag e' | .loadAdd e' | .call e' _ | .service e' | .visit e' | .serviced e' | .body e'
  | .bgBegin e' | .bgVisit e' | .bgEnd e' | .destroy e' => e' = e
  | .pick => ∃ j, s.jobs.find? Job.waiting = some j ∧ j.eng = e
  | .build i | .jobLock i | .jobCheck i | .jobDone i => ∃ j ∈ s.jobs, j.id = i ∧ j.eng = e
  | .async => s.async.head? = some e

/-- **C44.** Apart from that, engines are independent: a step that concerns another engine changes nothing of this one, nor its jobs. -/
theorem C44_otherwise_independent {e : ℕ} {l : Label R} (h : Exec ops build ls s) (hs : Step ops build s l s') (hc : ¬ concerns s e l) :
    s'.engs e = s.engs e ∧
    ((∀ e', l ≠ .loadRemove e') → s'.jobs.filter (fun j => decide (j.eng = e)) = s.jobs.filter fun j => decide (j.eng = e)) := by
  have hsame := @same_job V R s (exec_inv h).ids.nodup
  have set : ∀ {j j' : Job V R}, j ∈ s.jobs → j'.id = j.id → j'.eng = j.eng → j.eng ≠ e →
      (s.setJob j').jobs.filter (fun j => decide (j.eng = e)) = s.jobs.filter fun j => decide (j.eng = e) := by
    intro j j' hj hid heng hne
    unfold Sys.setJob
    simp only
    have : ∀ xs : List (Job V R), (∀ x ∈ xs, x ∈ s.jobs) → (xs.map fun i => if i.id = j'.id then j' else i).filter (fun j => decide (j.eng = e)) =
        xs.filter fun j => decide (j.eng = e) := by
      intro xs
      induction xs with
      | nil => intro _; rfl
      | cons x xs ih =>
        intro hx
        have ih := ih fun y hy => hx y (List.mem_cons_of_mem _ hy)
        rw [List.map_cons, List.filter_cons, List.filter_cons, ih]
        by_cases hc : x.id = j'.id
        · have := hsame (hx x (List.mem_cons_self ..)) hj (hc.trans hid)
          subst this
          rw [if_pos hc, heng]
          simp [hne]
        · rw [if_neg hc]
    exact this s.jobs fun x hx => hx
  have drop : ∀ {j : Job V R}, j ∈ s.jobs → j.eng ≠ e →
      (s.dropJob j.id).jobs.filter (fun j => decide (j.eng = e)) = s.jobs.filter fun j => decide (j.eng = e) := by
    intro j hj hne
    unfold Sys.dropJob
    simp only
    rw [List.filter_filter]
    refine List.filter_congr fun x hx => ?_
    by_cases hxe : x.eng = e
    · have : x.id ≠ j.id := fun hc => hne (by rw [← hsame hx hj hc]; exact hxe)
      simp [hxe, this]
    · simp [hxe]
  have eng : ∀ {e0 : ℕ} {x : Eng V R}, s'.engs = Function.update s.engs e0 x → e0 ≠ e → s'.engs e = s.engs e := by
    intro e0 x h1 h2
    rw [h1, Function.update_apply, if_neg (Ne.symm h2)]
  cases hs
  case loadRemove e0 i req h1 => exact ⟨eng (by rfl) hc, fun h => absurd rfl (h e0)⟩
  case loadAdd e0 i req p h1 h2 =>
    have hc : e0 ≠ e := hc
    refine ⟨eng (by rfl) hc, fun _ => ?_⟩
    show (s.jobs ++ [_]).filter _ = _
    rw [List.filter_append, List.filter_singleton]
    simp [hc]
  case pick j h1 =>
    have hne : j.eng ≠ e := fun h => hc ⟨j, h1, h⟩
    exact ⟨rfl, fun _ => set (mem_of_find h1).1 (by rfl) (by rfl) hne⟩
  case build j h1 h2 =>
    have hne : j.eng ≠ e := fun h => hc ⟨j, h1, rfl, h⟩
    exact ⟨eng (by rfl) hne, fun _ => set h1 (by rfl) (by rfl) hne⟩
  case jobLock j v h1 h2 h5 h6 =>
    have hne : j.eng ≠ e := fun h => hc ⟨j, h1, rfl, h⟩
    exact ⟨eng (by rfl) hne, fun _ => set h1 (by rfl) (by rfl) hne⟩
  case jobLockDead j v h1 h2 h5 => exact ⟨eng (by rfl) fun h => hc ⟨j, h1, rfl, h⟩, fun _ => rfl⟩
  case jobStop j v h1 h2 h5 h6 =>
    have hne : j.eng ≠ e := fun h => hc ⟨j, h1, rfl, h⟩
    exact ⟨eng (by rfl) hne, fun _ => drop h1 hne⟩
  case jobPush j v h1 h2 h5 h6 h7 =>
    have hne : j.eng ≠ e := fun h => hc ⟨j, h1, rfl, h⟩
    exact ⟨eng (by rfl) hne, fun _ => set h1 (by rfl) (by rfl) hne⟩
  case jobRefused j v h1 h2 h5 h6 h7 =>
    have hne : j.eng ≠ e := fun h => hc ⟨j, h1, rfl, h⟩
    exact ⟨eng (by rfl) hne, fun _ => set h1 (by rfl) (by rfl) hne⟩
  case jobCheckDead j v h1 h2 h5 => exact ⟨eng (by rfl) fun h => hc ⟨j, h1, rfl, h⟩, fun _ => rfl⟩
  case jobDone j h1 h2 h5 =>
    have hne : j.eng ≠ e := fun h => hc ⟨j, h1, rfl, h⟩
    exact ⟨eng (by rfl) hne, fun _ => drop h1 hne⟩
  case jobDoneDead j h1 h2 h5 => exact ⟨eng (by rfl) fun h => hc ⟨j, h1, rfl, h⟩, fun _ => rfl⟩
  case async e0 rest h1 h2 => exact ⟨eng (by rfl) fun h => hc (by show s.async.head? = _; rw [h1, h]; rfl), fun _ => rfl⟩
  case asyncDead e0 rest h1 h2 => exact ⟨eng (by rfl) fun h => hc (by show s.async.head? = _; rw [h1, h]; rfl), fun _ => rfl⟩
  all_goals exact ⟨eng (by rfl) hc, fun _ => rfl⟩

end Zones.Props
