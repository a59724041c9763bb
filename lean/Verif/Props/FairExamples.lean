import Verif.Props.Fair
import Verif.Props.EngineExamples
import Mathlib.Tactic.IntervalCases

/-!
# Endless behaviours

They show that the hypotheses of C61–C64 are met: an engine is prepared, a response is loaded, and then the host processes blocks for ever.
-/

open Zones.Spec Zones.Model Zones.Proofs

namespace Zones.Props

variable {V R : Type} {ops : ConvOps V} {build : R → ProcSpec → V}

/-! ## Behaviours that go on for ever -/

/-- A behaviour in the making: what has happened, and what is going to happen next. -/
structure Conf (ops : ConvOps V) (build : R → ProcSpec → V) (P : List (Label R) → Sys V R → Prop) where
  past : List (Label R)
  state : Sys V R
  todo : List (Label R)
  exec : Exec ops build past state
  ok : ∃ s', Run ops build state todo s' ∧ P (past ++ todo) s'

variable {P : List (Label R) → Sys V R → Prop}

/-- The next step of a behaviour in the making. -/
theorem conf_next {A Q : Label R → Prop} (hgo : ∀ ls s, Exec ops build ls s → P ls s → ∃ l ls' s', Run ops build s (l :: ls') s' ∧ P (ls ++ l :: ls') s' ∧ Q l ∧ A l ∧ ∀ l' ∈ ls', A l')
    (c : Conf ops build P) : ∃ (l : Label R) (c' : Conf ops build P), Step ops build c.state l c'.state ∧ c'.past = c.past ++ [l] ∧
      (c.todo = l :: c'.todo ∨ c.todo = [] ∧ Q l ∧ A l ∧ ∀ l' ∈ c'.todo, A l') := by
  obtain ⟨past, s, todo, hx, s', hr, hP⟩ := c
  cases todo with
  | cons l todo =>
    cases hr with
    | @cons _ s1 _ _ _ hs ht =>
      exact ⟨l, ⟨past ++ [l], s1, todo, exec_append hx (Run.single hs), s', ht, by rw [List.append_assoc]; exact hP⟩, hs, rfl, Or.inl rfl⟩
  | nil =>
    cases hr
    rw [List.append_nil] at hP
    obtain ⟨l, ls', s2, hr2, hP2, hQ, hA, hA'⟩ := hgo _ _ hx hP
    cases hr2 with
    | @cons _ s1 _ _ _ hs ht =>
      exact ⟨l, ⟨past ++ [l], s1, ls', exec_append hx (Run.single hs), s2, ht, by rw [List.append_assoc]; exact hP2⟩, hs, rfl, Or.inr ⟨rfl, hQ, hA, hA'⟩⟩

/-- A behaviour that begins with the steps `ls0` and then goes on for ever. -/
theorem behaviour_exists {A Q : Label R → Prop} (hgo : ∀ ls s, Exec ops build ls s → P ls s → ∃ l ls' s', Run ops build s (l :: ls') s' ∧ P (ls ++ l :: ls') s' ∧ Q l ∧ A l ∧ ∀ l' ∈ ls', A l')
    {ls0 : List (Label R)} {s0 : Sys V R} (h0 : Exec ops build ls0 s0) (hP : P ls0 s0) :
    ∃ b : Behaviour ops build, (∀ n, (b.upTo n).length = n) ∧ b.upTo ls0.length = ls0 ∧ P (b.upTo ls0.length) (b.state ls0.length) ∧ (∀ n, ∃ m, n ≤ m ∧ P (b.upTo m) (b.state m)) ∧
      (∀ n, ∃ m, n ≤ m ∧ ∃ l, b.act m = some l ∧ Q l) ∧ ∀ m, ls0.length ≤ m → ∀ l, b.act m = some l → A l := by
  choose lab nxt h1 h2 h3 using conf_next (ops := ops) (build := build) hgo
  let c0 : Conf ops build P := ⟨[], {}, ls0, .nil _, s0, h0, hP⟩
  let conf : ℕ → Conf ops build P := fun n => Nat.rec c0 (fun _ c => nxt c) n
  have hc : ∀ n, conf (n + 1) = nxt (conf n) := fun n => rfl
  let b : Behaviour ops build :=
    { state := fun n => (conf n).state
      act := fun n => some (lab (conf n))
      start := rfl
      step := fun n l hl => by
        simp only [Option.some.injEq] at hl
        subst hl
        exact h1 (conf n)
      rest := fun n h => by cases h }
  have hpast : ∀ n, b.upTo n = (conf n).past := by
    intro n
    induction n with
    | zero => rfl
    | succ n ih =>
      rw [upTo_add, ih, hc, h2]
      show _ ++ ([] ++ [lab (conf (n + 0))]) = _
      rfl
  have hlen : ∀ n, (conf n).past.length = n := by
    intro n
    induction n with
    | zero => rfl
    | succ n ih => rw [hc, h2, List.length_append, ih]; rfl
  -- what is to be done gets done
  have hdo : ∀ k n, (conf n).todo.length = k → (conf (n + k)).past = (conf n).past ++ (conf n).todo ∧ (conf (n + k)).todo = [] := by
    intro k
    induction k with
    | zero =>
      intro n hk
      rw [List.length_eq_zero_iff.mp hk, List.append_nil]
      exact ⟨rfl, List.length_eq_zero_iff.mp hk⟩
    | succ k ih =>
      intro n hk
      rcases h3 (conf n) with h | ⟨h, _⟩
      · have hk' : (conf (n + 1)).todo.length = k := by rw [hc]; rw [h, List.length_cons] at hk; omega
        obtain ⟨g1, g2⟩ := ih (n + 1) hk'
        rw [show n + (k + 1) = n + 1 + k by omega]
        refine ⟨?_, g2⟩
        rw [g1, hc, h2, List.append_assoc]
        congr 1
        exact h.symm
      · rw [h] at hk; cases hk
  have hempty : ∀ n, (conf n).todo = [] → P (b.upTo n) (b.state n) := by
    intro n hn
    obtain ⟨s', hr, hp⟩ := (conf n).ok
    rw [hn] at hr hp
    rw [List.append_nil] at hp
    rw [hpast]
    have : s' = (conf n).state := by cases hr; rfl
    rw [this] at hp
    exact hp
  have hempties : ∀ n, ∃ m, n ≤ m ∧ (conf m).todo = [] := fun n => ⟨n + (conf n).todo.length, by omega, (hdo _ n rfl).2⟩
  refine ⟨b, fun n => by rw [hpast, hlen], ?_, hempty _ ?_, fun n => ?_, fun n => ?_, ?_⟩
  · rw [hpast]
    have := (hdo ls0.length 0 rfl).1
    rw [Nat.zero_add] at this
    rw [this]
    rfl
  · have := (hdo ls0.length 0 rfl).2
    rwa [Nat.zero_add] at this
  · obtain ⟨m, hm, he⟩ := hempties n
    exact ⟨m, hm, hempty m he⟩
  · obtain ⟨m, hm, he⟩ := hempties n
    rcases h3 (conf m) with h | ⟨_, h, _⟩
    · rw [he] at h; cases h
    · exact ⟨m, hm, _, rfl, h⟩
  · have key : ∀ m, ls0.length ≤ m → ∀ l ∈ (conf m).todo, A l := by
      intro m hm
      induction m, hm using Nat.le_induction with
      | base =>
        have := (hdo ls0.length 0 rfl).2
        rw [Nat.zero_add] at this
        rw [this]
        intro l hl; cases hl
      | succ m hm ih =>
        rw [hc]
        rcases h3 (conf m) with h | ⟨_, _, _, h⟩
        · intro l hl
          exact ih l (by rw [h]; exact List.mem_cons_of_mem _ hl)
        · exact h
    intro m hm l hl
    have hl : lab (conf m) = l := by simpa [b] using hl
    subst hl
    rcases h3 (conf m) with h | ⟨_, _, h, _⟩
    · exact key m hm _ (by rw [h]; exact List.mem_cons_self ..)
    · exact h

/-- If nothing is being loaded, no step of a load can be taken. -/
theorem nothing_to_load {s : Sys V R} (hj : s.jobs = []) (hl : ∀ e, (s.engs e).loader = none) (l : Label R) (h : loadingSteps l) : ¬ Enabled ops build s l := by
  rintro ⟨s', hs⟩
  cases hs <;> try (exact h.elim)
  case loadRemove g => rw [hl] at g; cases g
  case loadFlag g _ => rw [hl] at g; cases g
  case loadSkip g _ => rw [hl] at g; cases g
  case loadAdd g _ => rw [hl] at g; cases g
  case pick g => rw [hj] at g; cases g
  case build g _ => rw [hj] at g; cases g
  case jobLock g _ _ _ => rw [hj] at g; cases g
  case jobLockDead g _ _ => rw [hj] at g; cases g
  case jobStop g _ _ _ => rw [hj] at g; cases g
  case jobPush g _ _ _ _ => rw [hj] at g; cases g
  case jobRefused g _ _ _ _ => rw [hj] at g; cases g
  case jobCheckDead g _ _ => rw [hj] at g; cases g
  case jobDone g _ _ => rw [hj] at g; cases g
  case jobDoneDead g _ _ => rw [hj] at g; cases g

/-- The steps of the audio side of engine `e`. -/
def audioSide (e : ℕ) (l : Label R) : Prop := audioSteps e l ∨ ∃ blk, l = .call e (.process blk)

theorem audioSide_quiet {e : ℕ} {l : Label R} (h : audioSide e l) : Label.quiet l = true := by
  rcases h with h | ⟨blk, rfl⟩
  · cases l <;> first | rfl | exact h.elim
  · rfl

theorem quiet_run {s s' : Sys V R} {ls : List (Label R)} (h : Run ops build s ls s') (hq : ∀ l ∈ ls, Label.quiet l = true) (hj : s.jobs = [] ∧ ∀ e, (s.engs e).loader = none) :
    s'.jobs = [] ∧ ∀ e, (s'.engs e).loader = none := by
  induction h with
  | nil => exact hj
  | cons h t ih =>
    obtain ⟨q1, q2, q3⟩ := step_quiet h (hq _ (List.mem_cons_self ..))
    exact ih (fun l hl => hq l (List.mem_cons_of_mem _ hl)) ⟨by rw [q1]; exact hj.1, fun e => by rw [(q3 e).loader]; exact hj.2 e⟩

/-- The hypotheses of `C63_finally_convolution` can be met (and those of C61 and C62 with them): an engine is created, prepared (48 kHz, blocks of 64), the example response is loaded, and then
blocks are processed for ever. -/
theorem example_for_ever : ∃ (build : Buf × ConvolverSpec → ProcSpec → Convolver) (b : Behaviour (convolverOps referenceFFT) build), Lawful referenceFFT ∧
    Constructs referenceFFT 2 build ∧ b.Fair loadingSteps ∧ ((b.state 5).engs 0).pc = .idle ∧ (∀ req, .loadLock 0 req ∉ b.upTo 5) ∧
    (formatsIn 0 (b.upTo 5)).getLast? = some exampleFormat ∧ b.act 5 = some (.loadLock 0 (exampleIR, exampleSpec)) ∧ b.NoLoadsFrom (5 + 1) ∧
    (∀ m, 5 ≤ m → ∀ e', b.act m = some (.loadRemove e') → e' = 0) ∧ b.NoDanglingFrom 5 ∧
    (∀ m, b.act m = some (.jobCheck (loadsIn (b.upTo 5)).length) → ((b.state m).engs 0).cmd.length + ((b.state m).engs 0).cmdTaken < 399) ∧
    KeepsCalling b 0 ∧ (∀ m, 5 ≤ m → ∀ k, b.act m = some (.call 0 k) → ∃ blk, k = .process blk ∧ 0 < blk.n) ∧
    (∀ m, HostBehaves 2 none (callsIn 0 (b.upTo m))) ∧ ∀ m, UsableLoads 2 0 (b.upTo m) := by
  obtain ⟨v0, _⟩ := example_convolver
  obtain ⟨build, hB⟩ := constructs_exists referenceFFT_lawful 2 v0
  let ops := convolverOps referenceFFT
  let req : Buf × ConvolverSpec := (exampleIR, exampleSpec)
  let pl : List (Label (Buf × ConvolverSpec)) := [.create 0] ++ emptyCall 0 (.prepare exampleFormat fun _ _ => 0)
  let ls0 : List (Label (Buf × ConvolverSpec)) := pl ++ (loadCall 0 req ++ jobRun 0)
  obtain ⟨s0, h0, k1, k2, k3, k4⟩ : ∃ s0, Exec ops build ls0 s0 ∧ (s0.engs 0).pc = .idle ∧ (s0.engs 0).status = .alive ∧ s0.jobs = [] ∧ ∀ e, (s0.engs e).loader = none := by
    refine ⟨_, .cons (.create rfl) (.cons (.call rfl rfl) (.cons (.service rfl) (.cons (.serviced rfl) (.cons (.body rfl rfl)
      (.cons (.loadLock rfl ⟨rfl, rfl⟩) (.cons (.loadRemove rfl) (.cons (.loadFlag rfl (by exact Option.some_ne_none exampleFormat)) (.cons (.loadAdd rfl rfl)
    (.cons (.pick rfl) (.cons (.build (j := ⟨0, 0, req, exampleFormat, false, .building⟩) ?_ rfl)
    (.cons (.jobLock (j := ⟨0, 0, req, exampleFormat, false, .built (build req exampleFormat)⟩) ?_ rfl rfl ⟨rfl, rfl⟩)
    (.cons (.jobPush (j := ⟨0, 0, req, exampleFormat, false, .locked (build req exampleFormat)⟩) ?_ rfl rfl rfl ?_)
    (.cons (.jobDone (j := ⟨0, 0, req, exampleFormat, false, .pushed⟩) ?_ rfl rfl) (.nil _)))))))))))))), ?_, ?_, ?_, ?_⟩
    · exact List.Mem.head _
    · exact List.Mem.head _
    · exact List.Mem.head _
    · show (0 : ℕ) < _
      decide
    · exact List.Mem.head _
    · rfl
    · rfl
    · rfl
    · intro e
      by_cases hc : e = 0
      · subst hc; rfl
      · simp [Sys.setEng, Sys.setJob, Sys.dropJob, Function.update_apply, hc]
  have hcalls0 : callsIn 0 ls0 = [.prepare exampleFormat fun _ _ => 0] := rfl
  have hloads0 : loadsIn ls0 = [(0, req)] := rfl
  have hbeh : ∀ n, HostBehaves 2 none ([.prepare exampleFormat fun _ _ => 0] ++ (List.replicate n exampleBlock).map Call.process) := by
    intro n
    refine ⟨exampleFormat_valid, ?_⟩
    show HostBehaves 2 (some 64) ((List.replicate n exampleBlock).map Call.process)
    induction n with
    | zero => trivial
    | succ n ih => exact ⟨rfl, fun m hm => (by cases hm; exact le_rfl), ih⟩
  have hformats : ∀ (ls : List (Label (Buf × ConvolverSpec))) n, callsIn 0 ls <+: ([.prepare exampleFormat fun _ _ => 0] ++ (List.replicate n exampleBlock).map Call.process) →
      ∀ p ∈ formatsIn 0 ls, p = exampleFormat := by
    intro ls n hls p hp
    unfold formatsIn at hp
    rw [List.mem_filterMap] at hp
    obtain ⟨k, hk, hkp⟩ := hp
    rcases List.mem_append.mp (hls.subset hk) with h | h
    · rw [List.mem_singleton] at h
      subst h
      exact (Option.some.inj hkp).symm
    · rw [List.mem_map] at h
      obtain ⟨_, _, rfl⟩ := h
      cases hkp
  -- between two calls
  let P : List (Label (Buf × ConvolverSpec)) → Sys Convolver (Buf × ConvolverSpec) → Prop := fun ls s =>
    (s.engs 0).status = .alive ∧ (s.engs 0).pc = .idle ∧ (s.jobs = [] ∧ ∀ e, (s.engs e).loader = none) ∧ loadsIn ls = [(0, req)] ∧
      ∃ n, callsIn 0 ls = [.prepare exampleFormat fun _ _ => 0] ++ (List.replicate n exampleBlock).map Call.process
  have hUP : ∀ ls n, loadsIn ls = [(0, req)] → callsIn 0 ls = [.prepare exampleFormat fun _ _ => 0] ++ (List.replicate n exampleBlock).map Call.process → UsableLoads 2 0 ls := by
    intro ls n hl hc i ir cs hi p hp
    rw [hl] at hi
    have hp := hformats ls n (by rw [hc]) p hp
    have := List.mem_of_getElem? hi
    rw [List.mem_singleton] at this
    have : (ir, cs) = (exampleIR, exampleSpec) := congrArg Prod.snd this
    cases this
    subst hp
    exact exampleUsable
  have hgo : ∀ ls s, Exec ops build ls s → P ls s → ∃ l ls' s', Run ops build s (l :: ls') s' ∧ P (ls ++ l :: ls') s' ∧ l = .call 0 (.process exampleBlock) ∧
      (audioSteps 0 l ∨ l = .call 0 (.process exampleBlock)) ∧ ∀ l' ∈ ls', (audioSteps 0 l' ∨ l' = .call 0 (.process exampleBlock)) := by
    rintro ls s hx ⟨ha, hi, hj, hl, n, hc⟩
    have hs : Step ops build s (.call 0 (.process exampleBlock)) _ := .call ha hi
    generalize hs1 : (s.setEng 0 { s.engs 0 with
          core := (s.engs 0).core.callHead (.process exampleBlock)
          loading := if (Call.process exampleBlock).resets then false else (s.engs 0).loading
          pc := .entered (.process exampleBlock) }) = s1 at hs
    have hx1 := exec_append hx (Run.single hs)
    have eC : callsIn 0 (ls ++ [.call 0 (.process exampleBlock)]) = [.prepare exampleFormat fun _ _ => 0] ++ (List.replicate (n + 1) exampleBlock).map Call.process := by
      rw [callsIn_append, hc, List.replicate_succ', List.map_append, List.append_assoc]
      rfl
    have eL : loadsIn (ls ++ [.call 0 (.process exampleBlock)]) = [(0, req)] := by
      rw [loadsIn_append, hl]; rfl
    have hp1 : (s1.engs 0).pc = .entered (.process exampleBlock) := by rw [← hs1, setEng_engs, if_pos rfl]
    have ha1 : (s1.engs 0).status = .alive := by rw [← hs1, setEng_engs, if_pos rfl]; exact ha
    obtain ⟨la, s2, g1, _, g2, g3⟩ := C53_audio_calls_never_wait (accepts_convolver referenceFFT_lawful 2) hx1 (by rw [eC]; exact hbeh _) (usable_good hB (hUP _ _ eL eC)) (by rw [hp1]; simp)
    obtain ⟨q1, q2⟩ := audioSteps_quiet g1
    obtain ⟨d1, d2⟩ := audio_delivered g2 g1
    refine ⟨_, la, s2, .cons hs g2, ⟨d2.trans ha1, g3, ?_, ?_, n + 1, ?_⟩, rfl, Or.inr rfl, fun l' hl' => Or.inl (g1 l' hl')⟩
    · refine quiet_run (.cons hs g2) (fun l hl => ?_) hj
      rcases List.mem_cons.mp hl with rfl | hl
      · exact audioSide_quiet (Or.inr ⟨_, rfl⟩)
      · exact audioSide_quiet (Or.inl (g1 l hl))
    · have := loadsIn_append (ls ++ [.call 0 (.process exampleBlock)]) la
      rw [q1, List.append_nil, eL, List.append_assoc] at this
      exact this
    · have := callsIn_append 0 (ls ++ [.call 0 (.process exampleBlock)]) la
      rw [q2 0, List.append_nil, eC, List.append_assoc] at this
      exact this
  obtain ⟨b, _, b1, b0, b2, b3, b4⟩ := behaviour_exists hgo h0 (show P ls0 s0 from ⟨k2, k1, ⟨k3, k4⟩, hloads0, 0, hcalls0⟩)
  have hlen : ls0.length = 14 := rfl
  rw [hlen] at b0 b1 b4
  -- the beginning
  have hsplit : ∀ k, k ≤ 14 → b.upTo k = ls0.take k := by
    intro k hk
    have h1 := upTo_add b k (14 - k)
    rw [show k + (14 - k) = 14 by omega, b1] at h1
    have hn : ∀ n, (b.during 0 n).length ≤ n := by
      intro n
      induction n with
      | zero => exact le_rfl
      | succ n ih =>
        show (b.during 0 n ++ (b.act (0 + n)).toList).length ≤ n + 1
        rw [List.length_append]
        cases b.act (0 + n) <;> simp <;> omega
    have hn' : ∀ a n, (b.during a n).length ≤ n := by
      intro a n
      induction n with
      | zero => exact le_rfl
      | succ n ih =>
        show (b.during a n ++ (b.act (a + n)).toList).length ≤ n + 1
        rw [List.length_append]
        cases b.act (a + n) <;> simp <;> omega
    have h2 := congrArg List.length h1
    rw [hlen, List.length_append] at h2
    have h3 : (b.upTo k).length ≤ k := hn k
    have h4 := hn' k (14 - k)
    have h5 : (b.upTo k).length = k := by omega
    rw [h1]
    exact (List.take_left' h5).symm
  have hact : ∀ k, k < 14 → b.act k = ls0[k]? := by
    intro k hk
    have h1 := hsplit (k + 1) (by omega)
    rw [upTo_add, hsplit k (by omega), List.take_succ] at h1
    have h2 : (b.act (k + 0)).toList = ls0[k]?.toList := (List.append_cancel_left_eq ..).mp h1
    rw [Nat.add_zero] at h2
    cases ha : b.act k with
    | none =>
      rw [ha] at h2
      cases hb : ls0[k]? with
      | none => rfl
      | some l => rw [hb] at h2; cases h2
    | some l =>
      rw [ha] at h2
      cases hb : ls0[k]? with
      | none => rw [hb] at h2; cases h2
      | some l' =>
        rw [hb] at h2
        simp only [Option.toList_some, List.cons.injEq, and_true] at h2
        rw [h2]
  have b4' : ∀ m, 14 ≤ m → ∀ l, b.act m = some l → audioSteps 0 l ∨ l = .call 0 (.process exampleBlock) := b4
  have hcases : ∀ m l, b.act m = some l → (m < 14 ∧ ls0[m]? = some l) ∨ (14 ≤ m ∧ (audioSteps 0 l ∨ l = .call 0 (.process exampleBlock))) := by
    intro m l hl
    rcases Nat.lt_or_ge m 14 with h | h
    · exact Or.inl ⟨h, by rw [← hact m h]; exact hl⟩
    · exact Or.inr ⟨h, b4' m h l hl⟩
  -- nothing is loaded after the beginning
  have hquiet : ∀ m, 14 ≤ m → (b.state m).jobs = [] ∧ ∀ e, ((b.state m).engs e).loader = none := by
    intro m hm
    obtain ⟨q, rfl⟩ := Nat.exists_eq_add_of_le hm
    refine quiet_run (during_run b 14 q) (fun l hl => ?_) b0.2.2.1
    obtain ⟨i, _, hi⟩ := mem_during.mp hl
    rcases b4' (14 + i) (by omega) l hi with h | rfl
    · exact audioSide_quiet (Or.inl h)
    · rfl
  have hK : KeepsCalling b 0 := fun n => by
    obtain ⟨m, hm, l, hl, rfl⟩ := b3 n
    exact ⟨m, hm, _, hl⟩
  have hload : ∀ m l, b.act m = some l → (∀ r, l = .loadLock 0 r → m = 5) ∧ (∀ e r, l = .loadLock e r → e = 0) ∧ (∀ e, l = .loadRemove e → e = 0) ∧ (∀ e, l ≠ .destroy e) ∧
      (∀ i, l = .jobCheck i → m = 12) ∧ (∀ k, l = .call 0 k → 5 ≤ m → k = .process exampleBlock) := by
    intro m l hl
    rcases hcases m l hl with ⟨h1, h2⟩ | ⟨h1, h2⟩
    · interval_cases m <;> (simp only [ls0, pl, emptyCall, loadCall, jobRun, List.cons_append, List.nil_append, List.getElem?_cons_zero, List.getElem?_cons_succ, Option.some.injEq] at h2; subst h2; simp)
    · rcases h2 with h2 | rfl
      · cases l <;> first | exact h2.elim | simp
      · simp
  have hS : ∀ m, ∃ n, callsIn 0 (b.upTo m) <+: ([.prepare exampleFormat fun _ _ => 0] ++ (List.replicate n exampleBlock).map Call.process) ∧ loadsIn (b.upTo m) <+: [(0, req)] := by
    intro m
    obtain ⟨m', hm, _, _, _, hl, n, hc⟩ := b2 m
    obtain ⟨q, rfl⟩ := Nat.exists_eq_add_of_le hm
    rw [upTo_add, loadsIn_append] at hl
    rw [upTo_add, callsIn_append] at hc
    exact ⟨n, ⟨_, hc⟩, ⟨_, hl⟩⟩
  refine ⟨build, b, referenceFFT_lawful, hB, ?_, ?_, ?_, ?_, ?_, ?_, ?_, ?_, ?_, hK, ?_, ?_, ?_⟩
  · -- fairness
    intro n hn
    obtain ⟨l, hl, hen⟩ := hn (n + 14) (by omega)
    obtain ⟨q1, q2⟩ := hquiet (n + 14) (by omega)
    exact absurd hen (nothing_to_load q1 q2 l hl)
  · have hs := b.step 4 (.body 0) (by rw [hact 4 (by omega)]; rfl)
    generalize b.state (4 + 1) = s' at hs
    cases hs with
    | body h1 h2 => rw [setEng_engs, if_pos rfl, finish_eq]
  · intro r
    rw [hsplit 5 (by omega)]
    simp [ls0, pl, emptyCall]
  · rw [hsplit 5 (by omega)]; rfl
  · rw [hact 5 (by omega)]; rfl
  · intro m hm e r hc
    have h := hload m _ hc
    have := h.2.1 e r rfl
    subst this
    have := h.1 r rfl
    omega
  · intro m _ e' hc
    exact (hload m _ hc).2.2.1 e' rfl
  · refine ⟨fun j hj => ?_, fun m _ e hc => absurd rfl ((hload m _ hc).2.2.2.1 e)⟩
    have := (exec_known (upTo_exec b 5)).origins.job j hj
    rw [hsplit 5 (by omega)] at this
    cases this
  · intro m hm
    have h12 := (hload m _ hm).2.2.2.2.1 _ rfl
    subst h12
    have hI := exec_inv (upTo_exec b 12)
    have hd : ((b.state 12).engs 0).delivered.length ≤ 1 := by
      have h1 := hI.order.sorted 0
      have h2 := hI.order.dlt 0
      have h3 : (b.state 12).next = 1 := by
        rw [(exec_known (upTo_exec b 12)).origins.next, hsplit 12 (by omega)]; rfl
      rw [h3] at h2
      generalize ((b.state 12).engs 0).delivered = d at h1 h2
      rcases d with _ | ⟨x, _ | ⟨y, d⟩⟩
      · simp
      · simp
      · have := h2 x (by simp)
        have := h2 y (by simp)
        have := List.rel_of_pairwise_cons h1 (a' := y) (by simp)
        omega
    have hf := congrArg List.length ((hI.flow 0).flow (keeps_alive hK 12))
    have ht := (hI.flow 0).taken
    rw [List.length_append, List.length_append] at hf
    have : ((b.state 12).engs 0).cmdTaken ≤ (APc.visited ((b.state 12).engs 0).pc).length := by
      rw [ht]
      cases ((b.state 12).engs 0).pc <;> simp [APc.visited]
    omega
  · intro m hm k hk
    have := (hload m _ hk).2.2.2.2.2 k rfl hm
    subst this
    exact ⟨_, rfl, by decide⟩
  · intro m
    obtain ⟨n, ⟨t, ht⟩, _⟩ := hS m
    have := hbeh n
    rw [← ht] at this
    exact hostBehaves_prefix _ _ none this
  · intro m i ir cs hi p hp
    obtain ⟨n, ⟨t, ht⟩, ⟨u, hu⟩⟩ := hS m
    have h1 : (ir, cs) = (exampleIR, exampleSpec) := by
      have h1 : (0, ir, cs) ∈ [(0, req)] := by rw [← hu]; exact List.mem_append_left _ (List.mem_of_getElem? hi)
      rw [List.mem_singleton] at h1
      exact congrArg Prod.snd h1
    have h2 := hformats (b.upTo m) n ⟨t, ht⟩ p hp
    cases h1
    subst h2
    exact exampleUsable

/-! ## The background thread and the message thread -/

/-- A load on a prepared engine, from `LoadIR` to the end of its job. -/
theorem load_once (s : Sys V R) (p : ProcSpec) (req : R) (ha : (s.engs 0).status = .alive) (hp : (s.engs 0).core.spec = some p) (hl : (s.engs 0).loader = none)
    (hh : (s.engs 0).holder = none) (hj : s.jobs = []) (hr : (s.engs 0).cmd.length + (s.engs 0).cmdTaken < 399) :
    ∃ s', Run ops build s (loadCall 0 req ++ jobRun s.next) s' ∧ s'.next = s.next + 1 ∧ s'.jobs = [] ∧ s'.async = s.async ++ [0] ∧
      s'.engs 0 = { s.engs 0 with
        loading := false
        notified := (s.engs 0).notified ++ [true]
        made := (s.engs 0).made ++ [s.next]
        cmd := (s.engs 0).cmd ++ [⟨s.next, build req p⟩]
        delivered := (s.engs 0).delivered ++ [⟨s.next, build req p⟩] } := by
  obtain ⟨engs, jobs, async, next⟩ := s
  simp only at ha hp hl hh hj hr
  subst hj
  refine ⟨_, .cons (.loadLock ha ⟨hl, hh⟩) (.cons (.loadRemove (by rfl)) (.cons (.loadFlag (by rfl) ?_) (.cons (.loadAdd (p := p) (by rfl) ?_)
    (.cons (.pick (by rfl)) (.cons (.build (j := ⟨next, 0, req, p, false, .building⟩) ?_ rfl)
    (.cons (.jobLock (j := ⟨next, 0, req, p, false, .built (build req p)⟩) ?_ rfl ?_ ⟨?_, ?_⟩)
    (.cons (.jobPush (j := ⟨next, 0, req, p, false, .locked (build req p)⟩) ?_ rfl ?_ rfl ?_)
    (.cons (.jobDone (j := ⟨next, 0, req, p, false, .pushed⟩) ?_ rfl ?_) (.nil _))))))))), ?_, ?_, ?_, ?_⟩
  all_goals
    simp [Sys.setEng, Sys.setJob, Sys.dropJob, removeAllJobs, Job.waiting, ha, hp, hl, hh, queueRoom]
  omega

/-- A visit of the audio thread. -/
theorem visit_once (s : Sys V R) {k : Call} {done rest : List (Held V)} {n : ℕ} {g : Held V} (hpc : (s.engs 0).pc = .serving k done (n + 1)) (hc : (s.engs 0).cmd = g :: rest)
    (hr : (s.engs 0).ntf = []) (ht : (s.engs 0).ntfTaken = 0) :
    ∃ s', Run ops build s [.visit 0] s' ∧ s'.async = s.async ∧ (s'.engs 0).status = (s.engs 0).status ∧ (s'.engs 0).pc = .serving k (done ++ [g]) n ∧ (s'.engs 0).cmd = rest ∧
      (s'.engs 0).core = ((s.engs 0).core.handle ops g).1 ∧ (s'.engs 0).ntf = ((s.engs 0).core.handle ops g).2.take 399 ∧ (s'.engs 0).ntfTaken = 0 ∧ (s'.engs 0).bg = (s.engs 0).bg := by
  refine ⟨_, Run.single (.visit hpc hc), rfl, ?_⟩
  rw [setEng_engs, if_pos rfl, visit_eq]
  have : ntfRoom (s.engs 0) = 399 := by unfold ntfRoom queueRoom; rw [hr, ht]; rfl
  simp [this, hr, ht]

/-- Steps of the background thread and of the message thread. -/
def otherSide (l : Label R) : Prop := l = .bgBegin 0 ∨ l = .bgVisit 0 ∨ l = .bgEnd 0 ∨ l = .async

/-- The hypotheses of C64 can be met: four responses are loaded and found by one `process` call (the first becomes active, the second begins to fade in, the third is replaced by the
fourth before it is heard); then the background thread and the message thread do their work for ever. -/
theorem example_background (p : ProcSpec) (req : R) : ∃ b : Behaviour ops build, b.Fair (backgroundSteps 0) ∧ b.Fair (fun l => l = .async) ∧
    (∀ m, 40 ≤ m → ((b.state m).engs 0).status = .alive) ∧ some ⟨2, build req p⟩ ∈ ((b.state 47).engs 0).ntf ∧
    b.act 40 = some (.jobDone 3) ∧ (∃ j ∈ (b.state 40).jobs, j.id = 3 ∧ j.eng = 0) ∧ ∀ m, 40 ≤ m → ∀ r, b.act m ≠ some (.loadLock 0 r) := by
  let lsA : List (Label R) := [.create 0] ++ emptyCall 0 (.prepare p fun _ _ => 0) ++ (loadCall 0 req ++ jobRun 0) ++ (loadCall 0 req ++ jobRun 1) ++ (loadCall 0 req ++ jobRun 2) ++
    (loadCall 0 req ++ jobRun 3)
  let lsB : List (Label R) := [.call 0 (.process (⟨0, 0, fun _ _ => 0⟩ : Buf)), .service 0, .visit 0, .visit 0, .visit 0, .visit 0]
  obtain ⟨s1, h1, a1, a2, a3, a4, a5, a6, a7, a8, a9⟩ : ∃ s1, Exec ops build lsA s1 ∧ (s1.engs 0).status = .alive ∧ (s1.engs 0).pc = .idle ∧
      (s1.engs 0).cmd = [⟨0, build req p⟩, ⟨1, build req p⟩, ⟨2, build req p⟩, ⟨3, build req p⟩] ∧ (s1.engs 0).ntf = [] ∧ (s1.engs 0).ntfTaken = 0 ∧ (s1.engs 0).bg = none ∧
      s1.async = [0, 0, 0, 0] ∧ ((s1.engs 0).core.active = none ∧ (s1.engs 0).core.fade = none ∧ (s1.engs 0).core.pending = none) ∧ s1.jobs = [] := by
    obtain ⟨s0, g0, b0, b1, b2, b3, b4, b5, b6, b7, b8, b9, b10, b11, b12, b13⟩ : ∃ s0, Exec ops build ([.create 0] ++ emptyCall 0 (.prepare p fun _ _ => 0)) s0 ∧ s0.next = 0 ∧
        (s0.engs 0).status = .alive ∧ (s0.engs 0).pc = .idle ∧ (s0.engs 0).cmd = [] ∧ (s0.engs 0).cmdTaken = 0 ∧ (s0.engs 0).ntf = [] ∧ (s0.engs 0).ntfTaken = 0 ∧ (s0.engs 0).bg = none ∧
        s0.async = [] ∧ ((s0.engs 0).core.active = none ∧ (s0.engs 0).core.fade = none ∧ (s0.engs 0).core.pending = none) ∧ s0.jobs = [] ∧ (s0.engs 0).core.spec = some p ∧
        (s0.engs 0).loader = none ∧ (s0.engs 0).holder = none := by
      refine ⟨_, .cons (.create rfl) (.cons (.call rfl rfl) (.cons (.service rfl) (.cons (.serviced rfl) (.cons (.body rfl rfl) (.nil _))))), ?_⟩
      exact ⟨rfl, rfl, rfl, rfl, rfl, rfl, rfl, rfl, rfl, ⟨rfl, rfl, rfl⟩, rfl, rfl, rfl, rfl⟩
    obtain ⟨t1, r1, c1, d1, f1, e1⟩ := load_once (ops := ops) (build := build) s0 p req b1 b11 b12 b13 b10 (by simp [b3, b4])
    obtain ⟨t2, r2, c2, d2, f2, e2⟩ := load_once (ops := ops) (build := build) t1 p req (by rw [e1]; exact b1) (by rw [e1]; exact b11) (by rw [e1]; exact b12) (by rw [e1]; exact b13) d1
      (by rw [e1]; simp [b3, b4])
    obtain ⟨t3, r3, c3, d3, f3, e3⟩ := load_once (ops := ops) (build := build) t2 p req (by rw [e2, e1]; exact b1) (by rw [e2, e1]; exact b11) (by rw [e2, e1]; exact b12)
      (by rw [e2, e1]; exact b13) d2 (by rw [e2, e1]; simp [b3, b4])
    obtain ⟨t4, r4, c4, d4, f4, e4⟩ := load_once (ops := ops) (build := build) t3 p req (by rw [e3, e2, e1]; exact b1) (by rw [e3, e2, e1]; exact b11) (by rw [e3, e2, e1]; exact b12)
      (by rw [e3, e2, e1]; exact b13) d3 (by rw [e3, e2, e1]; simp [b3, b4])
    rw [c3, c2, c1, b0] at r4
    rw [c2, c1, b0] at r3
    rw [c1, b0] at r2
    rw [b0] at r1
    refine ⟨t4, exec_append (exec_append (exec_append (exec_append g0 r1) r2) r3) r4, ?_⟩
    rw [e4, e3, e2, e1]
    simp only [f4, f3, f2, f1, b1, b2, b3, b5, b6, b7, b8, b9, c3, c2, c1, b0, d4]
    simp
  have hget : ∀ (s : Sys V R) (x : Eng V R), (s.setEng 0 x).engs 0 = x := fun s x => by rw [setEng_engs, if_pos rfl]
  obtain ⟨s2, h2, k1, k2, k3, k4, k5⟩ : ∃ s2, Run ops build s1 lsB s2 ∧ (s2.engs 0).status = .alive ∧ (s2.engs 0).ntf = [some ⟨2, build req p⟩] ∧ (s2.engs 0).ntfTaken = 0 ∧ (s2.engs 0).bg = none ∧
      s2.async = [0, 0, 0, 0] := by
    have hs1 : Step ops build s1 (.call 0 (.process ⟨0, 0, fun _ _ => 0⟩)) _ := .call a1 a2
    have hs2 : Step ops build _ (.service 0) _ := .service (s := s1.setEng 0 { s1.engs 0 with
          core := (s1.engs 0).core.callHead (.process ⟨0, 0, fun _ _ => 0⟩)
          loading := if (Call.process (⟨0, 0, fun _ _ => 0⟩ : Buf)).resets then false else (s1.engs 0).loading
          pc := .entered (.process ⟨0, 0, fun _ _ => 0⟩) }) (e := 0) (k := .process ⟨0, 0, fun _ _ => 0⟩) (by rw [hget])
    generalize hv0 : Sys.setEng (Sys.setEng s1 0 _) 0 _ = v0 at hs2
    rw [hget] at hv0
    have hv := congrArg (fun s => s.engs 0) hv0
    have hva : v0.async = [0, 0, 0, 0] := by rw [← hv0]; exact a7
    simp only [hget, a3] at hv
    obtain ⟨v1, q1, x1, y1, z1, w1, u1, m1, n1, o1⟩ := visit_once (ops := ops) (build := build) v0 (by rw [← hv]; rfl) (by rw [← hv]) (by rw [← hv]; exact a4) (by rw [← hv]; exact a5)
    have i1 : (v0.engs 0).core.handle ops ⟨0, build req p⟩ = ({ (v0.engs 0).core with active := some ⟨0, build req p⟩ }, []) := by
      unfold Core.handle
      have : (v0.engs 0).core.active = none := by rw [← hv]; exact a8.1
      rw [this]
    rw [i1] at u1 m1
    obtain ⟨v2, q2, x2, y2, z2, w2, u2, m2, n2, o2⟩ := visit_once (ops := ops) (build := build) v1 z1 w1 m1 n1
    have i2 : (v1.engs 0).core.handle ops ⟨1, build req p⟩ = (Core.beginFade ops { (v1.engs 0).core with pending := none } ⟨1, build req p⟩, []) := by
      unfold Core.handle
      have e1 : (v1.engs 0).core.active = some ⟨0, build req p⟩ := by rw [u1]
      have e2 : (v1.engs 0).core.fade = none := by rw [u1, ← hv]; exact a8.2.1
      have e3 : (v1.engs 0).core.pending = none := by rw [u1, ← hv]; exact a8.2.2
      simp only [e1, e2, e3]
    rw [i2] at u2 m2
    obtain ⟨v3, q3, x3, y3, z3, w3, u3, m3, n3, o3⟩ := visit_once (ops := ops) (build := build) v2 z2 w2 m2 n2
    have i3 : (v2.engs 0).core.handle ops ⟨2, build req p⟩ = ({ (v2.engs 0).core with pending := some ⟨2, build req p⟩ }, []) := by
      unfold Core.handle
      have e1 : (v2.engs 0).core.active = some ⟨0, build req p⟩ := by rw [u2]; show (v1.engs 0).core.active = _; rw [u1]
      have e2 : (v2.engs 0).core.fade = some ⟨1, build req p⟩ := by rw [u2]; rfl
      have e3 : (v2.engs 0).core.pending = none := by rw [u2]; rfl
      simp only [e1, e2, e3]
    rw [i3] at u3 m3
    obtain ⟨v4, q4, x4, y4, z4, w4, u4, m4, n4, o4⟩ := visit_once (ops := ops) (build := build) v3 z3 w3 m3 n3
    have i4 : ((v3.engs 0).core.handle ops ⟨3, build req p⟩).2 = [some ⟨2, build req p⟩] := by
      unfold Core.handle
      have e1 : (v3.engs 0).core.active = some ⟨0, build req p⟩ := by rw [u3]; show (v2.engs 0).core.active = _; rw [u2]; show (v1.engs 0).core.active = _; rw [u1]
      have e2 : (v3.engs 0).core.fade = some ⟨1, build req p⟩ := by rw [u3]; show (v2.engs 0).core.fade = _; rw [u2]; rfl
      have e3 : (v3.engs 0).core.pending = some ⟨2, build req p⟩ := by rw [u3]
      rw [e1, e2, e3]
    rw [i4] at m4
    refine ⟨v4, .cons hs1 (.cons hs2 (Run.append q1 (Run.append q2 (Run.append q3 q4)))), ?_, m4, n4, ?_, ?_⟩
    · rw [y4, y3, y2, y1, ← hv]; exact a1
    · rw [o4, o3, o2, o1, ← hv]; exact a6
    · rw [x4, x3, x2, x1, hva]
  have h0 := exec_append h1 h2
  let P : List (Label R) → Sys V R → Prop := fun ls s => (s.engs 0).status = .alive ∧ (s.engs 0).bg = none ∧ (s.engs 0).ntfTaken = 0 ∧
    (ls.length = 47 ∧ (s.engs 0).ntf = [some ⟨2, build req p⟩] ∧ s.async = [0, 0, 0, 0] ∨ 47 < ls.length ∧ (s.engs 0).ntf = [] ∧ s.async = [])
  have hgo : ∀ ls s, Exec ops build ls s → P ls s → ∃ l ls' s', Run ops build s (l :: ls') s' ∧ P (ls ++ l :: ls') s' ∧ l = .bgBegin 0 ∧
      otherSide l ∧ ∀ l' ∈ ls', otherSide l' := by
    rintro ls s _ ⟨c1, c2, c3, ⟨c4, c5, c6⟩ | ⟨c4, c5, c6⟩⟩
    · obtain ⟨engs, jobs, async, next⟩ := s
      simp only at c1 c2 c3 c5 c6
      subst c6
      refine ⟨.bgBegin 0, [.bgVisit 0, .bgEnd 0, .async, .async, .async, .async], _, .cons (.bgBegin c1 c2) (.cons (.bgVisit (n := 0) (o := some ⟨2, build req p⟩) (rest := []) ?_ ?_) (.cons (.bgEnd ?_)
        (.cons (.async rfl ?_) (.cons (.async rfl ?_) (.cons (.async rfl ?_) (.cons (.async rfl ?_) (.nil _))))))), ⟨?_, ?_, ?_, Or.inr ⟨?_, ?_, ?_⟩⟩, rfl, ?_, ?_⟩
      all_goals simp [Sys.setEng, c1, c3, c4, c5, otherSide]
    · refine ⟨.bgBegin 0, [.bgEnd 0], _, .cons (.bgBegin c1 c2) (.cons (.bgEnd ?_) (.nil _)), ⟨?_, ?_, ?_, Or.inr ⟨?_, ?_, ?_⟩⟩, rfl, ?_, ?_⟩
      all_goals simp [Sys.setEng, c1, c3, c5, c6, otherSide]
      omega
  obtain ⟨b, bl, b1, b0, b2, b3, b4⟩ := behaviour_exists hgo h0 (show P (lsA ++ lsB) s2 from ⟨k1, k4, k3, Or.inl ⟨rfl, k2, k5⟩⟩)
  have hlen : (lsA ++ lsB).length = 47 := rfl
  rw [hlen] at b0 b1 b4
  have hsplit : ∀ k, k ≤ 47 → b.upTo k = (lsA ++ lsB).take k := by
    intro k hk
    have h1 := upTo_add b k (47 - k)
    rw [show k + (47 - k) = 47 by omega, b1] at h1
    rw [h1]
    exact (List.take_left' (bl k)).symm
  have hact : b.act 40 = some (.jobDone 3) := by
    have h1 := hsplit 41 (by omega)
    rw [upTo_add b 40 1, hsplit 40 (by omega)] at h1
    have h2 : (b.act 40).toList = [.jobDone 3] := (List.append_cancel_left_eq ..).mp h1
    cases ha : b.act 40 with
    | none => rw [ha] at h2; cases h2
    | some l => rw [ha] at h2; simpa using h2
  refine ⟨b, fun n _ => ?_, fun n hn => ?_, fun m hm => ?_, ?_, hact, ?_, ?_⟩
  · obtain ⟨m, hm, l, hl, rfl⟩ := b3 n
    exact ⟨m, hm, _, hl, rfl⟩
  · exfalso
    obtain ⟨m, hm, _, _, _, h | h⟩ := b2 (n + 48)
    · have := bl m; omega
    · obtain ⟨l, rfl, s', hs⟩ := hn m (by omega)
      cases hs with
      | async g _ => rw [h.2.2] at g; cases g
      | asyncDead g _ => rw [h.2.2] at g; cases g
  · cases hst : ((b.state m).engs 0).status with
    | alive => rfl
    | dead =>
      obtain ⟨m', hm', ha, _⟩ := b2 m
      obtain ⟨q, rfl⟩ := Nat.exists_eq_add_of_le hm'
      exact absurd hst (not_dead_before (during_run b m q) (by rw [ha]; simp))
    | unborn =>
      have hx := upTo_exec b m
      have := ((exec_known hx).traced 0).unborn hst
      have hc := ((exec_known hx).traced 0).calls
      rw [this.2, this.1] at hc
      obtain ⟨q, rfl⟩ := Nat.exists_eq_add_of_le hm
      rw [upTo_add, callsIn_append, hsplit 40 (by omega)] at hc
      cases hc
  · rcases b0 with ⟨_, _, _, h | h⟩
    · rw [h.2.1]; simp
    · rw [bl] at h; omega
  · have hs := b.step 40 _ hact
    have ho := (exec_known (upTo_exec b 40)).origins.job
    rw [hsplit 40 (by omega)] at ho
    generalize hl : (Label.jobDone 3 : Label R) = l at hs
    generalize b.state (40 + 1) = s' at hs
    have key : ∀ j ∈ (b.state 40).jobs, j.id = 3 → j.eng = 0 := by
      intro j hj h3
      have := ho j hj
      rw [h3] at this
      exact (congrArg Prod.fst (Option.some.inj this)).symm
    cases hs <;> try (cases hl)
    case jobDone j h1 h2 h3 =>
      simp only [Label.jobDone.injEq] at hl
      exact ⟨j, h1, hl.symm, key j h1 hl.symm⟩
    case jobDoneDead j h1 h2 h3 =>
      simp only [Label.jobDone.injEq] at hl
      exact ⟨j, h1, hl.symm, key j h1 hl.symm⟩
  · intro m hm r hc
    rcases Nat.lt_or_ge m 47 with h | h
    · have hin : Label.loadLock 0 r ∈ b.during 40 7 := mem_during.mpr ⟨m - 40, by omega, by rw [show 40 + (m - 40) = m by omega]; exact hc⟩
      have h1 := upTo_add b 40 7
      rw [b1, hsplit 40 (by omega)] at h1
      have h2 : b.during 40 7 = [.jobDone 3] ++ lsB := (List.append_cancel_left (as := (lsA ++ lsB).take 40) h1).symm
      rw [h2] at hin
      simp [lsB] at hin
    · rcases b4 m h _ hc with h | h | h | h <;> cases h

/-! ## The theorems, applied -/

/-- C61, C62 and C63, applied to `example_for_ever`: loading comes to an end, the job of the load hands over its convolver, an audio-side call finds it, and finally the output is the
convolution with the response of the load. -/
example : ∃ (build : Buf × ConvolverSpec → ProcSpec → Convolver) (b : Behaviour (convolverOps referenceFFT) build),
    (∃ m, 6 ≤ m ∧ ∀ m', m ≤ m' → (b.state m').jobs = [] ∧ ∀ e, ((b.state m').engs e).loader = none) ∧
    (∃ m, 5 < m ∧ b.act m = some (.jobCheck (loadsIn (b.upTo 5)).length) ∧ ∃ p ∈ formatsIn 0 (b.upTo m),
      ((b.state (m + 1)).engs 0).delivered = ((b.state m).engs 0).delivered ++ [⟨(loadsIn (b.upTo 5)).length, build (exampleIR, exampleSpec) p⟩] ∧
      ∃ m', m + 1 ≤ m' ∧ ∃ call ∈ ((b.state m').engs 0).hist, (⟨(loadsIn (b.upTo 5)).length, build (exampleIR, exampleSpec) p⟩ : Held Convolver) ∈ call.1) ∧
    ∃ m, 5 ≤ m ∧ ((b.state m).engs 0).pc = .idle ∧ ∀ q, ((b.state (m + q)).engs 0).pc = .idle →
      ∃ more outs, callsIn 0 (b.during m q) = more.map Call.process ∧ ((b.state (m + q)).engs 0).outs = ((b.state m).engs 0).outs ++ outs ∧ SameShape more outs ∧
        ∀ o < 2, ∀ t, t < totalLen more → exampleIR.n ≤ t + 1 → stream outs o t = routedConv exampleIR exampleSpec.inputRouting exampleSpec.outputRouting (stream more) o t := by
  obtain ⟨build, b, hF, hB, hf, h1, h2, h3, h4, h5, h6, h7, h8, h9, h10, h11, h12⟩ := example_for_ever
  refine ⟨build, b, ?_, ?_, C63_finally_convolution hF hB hf h1 h2 h3 le_rfl h4 h5 h6 h7 h8 h9 h10 h11 h12⟩
  · refine C61_loads_end hf h5 ⟨?_, fun m hm => h7.2 m (by omega)⟩
    have hs := b.step 5 _ h4
    have hd := h7.1
    generalize b.state (5 + 1) = s' at hs
    cases hs with
    | loadLock g1 g2 =>
      intro j hj
      have := hd j hj
      rw [setEng_engs]
      by_cases hc : j.eng = 0
      · rw [if_pos hc]; exact g1
      · rw [if_neg hc]; exact this
  · obtain ⟨m, g1, g2, g3⟩ := C61_last_load_arrives hf h4 (fun hc => by rw [hc] at h3; cases h3) h5 h6 h7
    refine ⟨m, g1, g2, ?_⟩
    rcases g3 with ⟨p, hp, g3⟩ | ⟨g3, _⟩
    · exact ⟨p, hp, g3, C62_delivered_is_picked_up h9 (n := m + 1) (by rw [g3]; simp)⟩
    · have := h8 m g2
      omega

/-- C64, applied to `example_background`: the replaced convolver is destroyed by the background thread and the listeners are told. -/
example (p : ProcSpec) (req : R) : ∃ b : Behaviour ops build,
    (∃ m, 47 ≤ m ∧ ((b.state (m + 1)).engs 0).freed = ((b.state m).engs 0).freed ++ [(2, .background)]) ∧
    ∃ m, 40 < m ∧ b.act m = some .async ∧ ((b.state (m + 1)).engs 0).notified = ((b.state m).engs 0).notified ++ [false] := by
  obtain ⟨b, h1, h2, h3, h4, h5, h6, h7⟩ := example_background (ops := ops) (build := build) p req
  exact ⟨b, C64_replaced_is_destroyed h1 (fun m hm => h3 m (by omega)) h4, C64_listeners_are_told h2 h5 h6 h7 h3⟩

end Zones.Props
