import Verif.Spec.Listeners
import Verif.Props.FairExamples
import Verif.Proofs.Races

/-!
# C108: what the listeners are told
-/

open Zones.Spec Zones.Model Zones.Proofs

namespace Zones.Props

variable {V R : Type} {ops : ConvOps V} {build : R → ProcSpec → V} {ls ls' : List (LLabel R)} {x x' : LSys V R}

/-! ## Executions -/

theorem LRun.append {x y z : LSys V R} (h : LRun ops build x ls y) (h' : LRun ops build y ls' z) : LRun ops build x (ls ++ ls') z := by
  induction h with
  | nil => exact h'
  | cons a _ ih => exact .cons a (ih h')

/-- Induction from the beginning of an execution. -/
theorem lexec_induct {P : List (LLabel R) → LSys V R → Prop} (h0 : P [] {})
    (hs : ∀ ls x l x', LExec ops build ls x → P ls x → LStep ops build x l x' → P (ls ++ [l]) x') (h : LExec ops build ls x) : P ls x := by
  have key : ∀ (x : LSys V R) ls x', LRun ops build x ls x' → ∀ pre, LExec ops build pre x → P pre x → P (pre ++ ls) x' := by
    intro x ls x' hr
    induction hr with
    | nil => intro pre _ hp; simpa using hp
    | cons a _ ih =>
      intro pre he hp
      have := ih _ (LRun.append he (.cons a (.nil _))) (hs _ _ _ _ he hp a)
      simpa using this
  simpa using key _ _ _ h [] (.nil _) h0

theorem sysSteps_append (xs ys : List (LLabel R)) : sysSteps (xs ++ ys) = sysSteps xs ++ sysSteps ys := by
  induction xs with
  | nil => rfl
  | cons a xs ih => cases a <;> simp [sysSteps, ih]

theorem after_sys (x : LSys V R) (l : Label R) (s' : Sys V R) : (x.after l s').sys = s' := by
  unfold LSys.after
  repeat' split
  all_goals rfl

theorem after_log (x : LSys V R) (l : Label R) (s' : Sys V R) : (x.after l s').log = x.log := by
  unfold LSys.after
  repeat' split
  all_goals rfl

/-- **C108.** What the system does, it does as if it had no listeners. -/
theorem C108_listeners_change_nothing (h : LExec ops build ls x) : Exec ops build (sysSteps ls) x.sys := by
  refine lexec_induct (P := fun ls x => Exec ops build (sysSteps ls) x.sys) (.nil _) ?_ h
  intro ls x l x' _ ih hs
  rw [sysSteps_append]
  cases hs with
  | sys hs => rw [after_sys]; exact exec_append ih (Run.single hs)
  | _ => simpa [sysSteps] using ih

/-! ## Steps of the system -/

theorem step_loading {s s' : Sys V R} {l : Label R} (h : Step ops build s l s') (e : ℕ) : (s'.engs e).loading = (s.engs e).loading ∨
    (l = .loadFlag e ∧ (∃ p, (s'.engs e).loader = some p) ∧ (s'.engs e).loading = true) ∨
    (∃ k, l = .call e k ∧ (∀ blk, k ≠ .process blk) ∧ (s'.engs e).loading = false) ∨ e ∈ s'.async := by
  cases h
  case loadFlag e' i req h1 h2 =>
    by_cases he : e = e'
    · subst he
      refine Or.inr (Or.inl ⟨rfl, ⟨(i, req, .flagged), ?_⟩, ?_⟩) <;> simp [setEng_engs]
    · left; simp [setEng_engs, he]
  case call e' k h1 h2 =>
    by_cases he : e = e'
    · subst he
      cases k with
      | process blk => left; simp [setEng_engs, Call.resets]
      | _ => right; right; left; exact ⟨_, rfl, nofun, by simp [setEng_engs, Call.resets]⟩
    · left; simp [setEng_engs, he]
  case jobDone j h1 h2 h3 =>
    by_cases he : e = j.eng
    · subst he; right; right; right; simp
    · left; simp [setEng_engs, he]
  case visit e' n k done g rest h1 h2 =>
    left
    by_cases he : e = e'
    · subst he; simp [setEng_engs, visit_eq]
    · simp [setEng_engs, he]
  case body e' k done r h1 h2 =>
    left
    by_cases he : e = e'
    · subst he; simp [setEng_engs, finish_eq]
    · simp [setEng_engs, he]
  all_goals
    left
    simp only [setEng_engs, setJob_engs, dropJob_engs]
    try split
    all_goals first | rfl | (rename_i hh; subst hh; rfl)

theorem step_async {s s' : Sys V R} {l : Label R} (h : Step ops build s l s') {e : ℕ} (he : e ∈ s.async) : e ∈ s'.async ∨ l = .async ∧ ∃ rest, s.async = e :: rest := by
  cases h
  case jobDone j h1 h2 h3 => left; simp; left; exact he
  case async e' rest h1 h2 =>
    rw [h1] at he
    rcases List.mem_cons.mp he with rfl | hm
    · right; exact ⟨rfl, _, h1⟩
    · left; exact hm
  case asyncDead e' rest h1 h2 =>
    rw [h1] at he
    rcases List.mem_cons.mp he with rfl | hm
    · right; exact ⟨rfl, _, h1⟩
    · left; exact hm
  all_goals left; exact he

theorem step_dead {s s' : Sys V R} {l : Label R} (h : Step ops build s l s') {e : ℕ} (he : (s'.engs e).status ≠ .dead) : (s.engs e).status ≠ .dead ∧ l ≠ .destroy e := by
  obtain ⟨b1, b2, _⟩ := status_back h e
  refine ⟨fun hc => ?_, ?_⟩
  · cases hs : (s'.engs e).status with
    | dead => exact he hs
    | unborn => rw [(b2 hs).1] at hc; cases hc
    | alive =>
      rcases b1 hs with rfl | ⟨h1, _⟩
      · cases h with
        | create h => rw [h] at hc; cases hc
      · rw [h1] at hc; cases hc
  · rintro rfl
    cases h
    exact he (by simp [setEng_engs])

theorem after_regs (x : LSys V R) (l : Label R) (s' : Sys V R) {e : ℕ} (h : l ≠ .destroy e) : (x.after l s').regs e = x.regs e := by
  unfold LSys.after
  split
  case h_4 e' => 
    have : e ≠ e' := fun hc => h (by rw [hc])
    simp [this]
  all_goals repeat' split
  all_goals rfl

theorem after_regs_destroy (x : LSys V R) (s' : Sys V R) {e : ℕ} : (x.after (.destroy e) s').regs e = [] := by
  simp [LSys.after]

theorem after_loud (x : LSys V R) (l : Label R) (s' : Sys V R) (e : ℕ) :
    (x.after l s').loud e = x.loud e ∨ l = .loadFlag e ∧ (x.after l s').loud e = x.regs e ∧ ∃ p, (s'.engs e).loader = some p := by
  unfold LSys.after
  split
  case h_1 e' =>
    split
    case h_1 i r p hp =>
      by_cases he : e = e'
      · subst he; right; exact ⟨rfl, by simp, _, hp⟩
      · left; simp [he]
    · left; rfl
  all_goals left
  all_goals repeat' split
  all_goals rfl

theorem after_loud_flag (x : LSys V R) (s' : Sys V R) {e : ℕ} (h : ∃ p, (s'.engs e).loader = some p) : (x.after (.loadFlag e) s').loud e = x.regs e := by
  obtain ⟨⟨i, r, p⟩, h⟩ := h
  simp [LSys.after, h]

theorem after_msg (x : LSys V R) {l : Label R} (s' : Sys V R) (h : l ≠ .async) : (x.after l s').msg = x.msg := by
  unfold LSys.after
  split
  case h_2 => exact absurd rfl h
  all_goals repeat' split
  all_goals rfl

theorem after_msg_async (x : LSys V R) (s' : Sys V R) {e : ℕ} {rest : List ℕ} (h : x.sys.async = e :: rest) : (x.after .async s').msg = (e, x.regs e) := by
  simp [LSys.after, h]

/-! ## What the listeners show -/

theorem callsOf_append (e l : ℕ) (xs ys : List Told) : callsOf e l (xs ++ ys) = callsOf e l xs ++ callsOf e l ys := List.filter_append ..

theorem callsOf_one (e l : ℕ) (t : Told) : callsOf e l [t] = if t.eng = e ∧ t.listener = l then [t] else [] := by
  unfold callsOf
  by_cases h : t.eng = e ∧ t.listener = l <;> simp [h]

theorem resetSince_more {e l : ℕ} (h : ResetSince ops build ls x e l) (a : LLabel R) (hl : callsOf e l x'.log = callsOf e l x.log) : ResetSince ops build (ls ++ [a]) x' e l := by
  obtain ⟨b, k, c, y, h1, h2, h3, h4⟩ := h
  exact ⟨b, k, c ++ [a], y, by rw [h1]; simp, h2, h3, by rw [h4, hl]⟩

/-- A listener that is not in the list has not been called and is not going to be, unless it has been removed. -/
theorem unknown (h : LExec ops build ls x) {e l : ℕ} (hu : .unregister e l ∉ ls) (hd : (x.sys.engs e).status ≠ .dead) (hl : l ∉ x.regs e) :
    callsOf e l x.log = [] ∧ ¬ BeingCalled x e l := by
  revert hu hd hl
  refine lexec_induct (P := fun ls x => .unregister e l ∉ ls → (x.sys.engs e).status ≠ .dead → l ∉ x.regs e → callsOf e l x.log = [] ∧ ¬ BeingCalled x e l) ?_ ?_ h
  · intro _ _ _
    exact ⟨rfl, by rintro (h | ⟨_, h⟩) <;> exact absurd h List.not_mem_nil⟩
  · intro ls x a x' _ ih hs hu hd hl
    have hu' : .unregister e l ∉ ls := fun hc => hu (List.mem_append_left _ hc)
    have hua : a ≠ .unregister e l := fun hc => hu (by rw [hc]; simp)
    cases hs with
    | @sys  b s' hs h1 h2 h3 =>
      rw [after_sys] at hd
      obtain ⟨d1, d2⟩ := step_dead hs hd
      rw [after_regs x b s' d2] at hl
      obtain ⟨i1, i2⟩ := ih hu' d1 hl
      refine ⟨by rw [after_log]; exact i1, ?_⟩
      rintro (hc | ⟨hc1, hc2⟩)
      · rcases after_loud x b s' e with h | ⟨_, h, _⟩
        · rw [h] at hc; exact i2 (Or.inl hc)
        · rw [h] at hc; exact hl hc
      · by_cases hb : b = .async
        · subst hb
          have : ∃ e' rest, x.sys.async = e' :: rest := by cases hs <;> exact ⟨_, _, ‹_›⟩
          obtain ⟨e', rest, hr⟩ := this
          rw [after_msg_async x s' hr] at hc1 hc2
          simp only at hc1 hc2
          rw [hc1] at hc2
          exact hl hc2
        · rw [after_msg x s' hb] at hc1 hc2; exact i2 (Or.inr ⟨hc1, hc2⟩)
    | @tellLoadIR  e' l' rest hq =>
      obtain ⟨i1, i2⟩ := ih hu' hd hl
      have hne : ¬ (e' = e ∧ l' = l) := by
        rintro ⟨rfl, rfl⟩
        exact i2 (Or.inl (by rw [hq]; simp))
      refine ⟨?_, ?_⟩
      · simp only [callsOf_append, i1, callsOf_one, if_neg hne, List.append_nil]
      · rintro (hc | hc)
        · simp only [Function.update_apply] at hc
          split at hc
          case isTrue he => subst he; exact i2 (Or.inl (by rw [hq]; exact List.mem_cons_of_mem _ hc))
          · exact i2 (Or.inl hc)
        · exact i2 (Or.inr hc)
    | @tellMessages  l' rest hq =>
      obtain ⟨i1, i2⟩ := ih hu' hd hl
      have hne : ¬ (x.msg.1 = e ∧ l' = l) := by
        rintro ⟨h1, rfl⟩
        exact i2 (Or.inr ⟨h1, by rw [hq]; simp⟩)
      refine ⟨?_, ?_⟩
      · simp only [callsOf_append, i1, callsOf_one, if_neg hne, List.append_nil]
      · rintro (hc | ⟨hc1, hc2⟩)
        · exact i2 (Or.inl hc)
        · exact i2 (Or.inr ⟨hc1, by rw [hq]; exact List.mem_cons_of_mem _ hc2⟩)
    | @register  e' l' ha =>
      have hl0 : l ∉ x.regs e := by
        intro hc
        apply hl
        simp only [Function.update_apply]
        split
        case isTrue he => subst he; split <;> simp [hc]
        · exact hc
      obtain ⟨i1, i2⟩ := ih hu' hd hl0
      exact ⟨i1, i2⟩
    | @unregister  e' l' ha =>
      have hne : ¬ (e' = e ∧ l' = l) := fun hc => hua (by rw [hc.1, hc.2])
      have hl0 : l ∉ x.regs e := by
        intro hc
        apply hl
        simp only [Function.update_apply]
        split
        case isTrue he =>
          subst he
          exact (List.mem_erase_of_ne (fun h => hne ⟨rfl, h.symm⟩)).mpr hc
        · exact hc
      obtain ⟨i1, i2⟩ := ih hu' hd hl0
      refine ⟨i1, ?_⟩
      rintro (hc | ⟨hc1, hc2⟩)
      · simp only [Function.update_apply] at hc
        split at hc
        case isTrue he => subst he; exact i2 (Or.inl (List.mem_of_mem_erase hc))
        · exact i2 (Or.inl hc)
      · simp only at hc1 hc2
        split at hc2
        case isTrue he => exact i2 (Or.inr ⟨by rw [if_pos he] at hc1; rw [he]; exact hc1, List.mem_of_mem_erase hc2⟩)
        case isFalse he => rw [if_neg he] at hc1; exact i2 (Or.inr ⟨hc1, hc2⟩)

/-- **C108.** A listener that shows what `IsLoading` was when it was last called, and that has not been removed, shows what `IsLoading` is now, unless it is about to be called again: in a
round of calls that has begun, or one that waits for the message thread; or unless the engine has been reset, prepared or cleared since then, in which case nothing is loading. -/
theorem C108_listeners_are_up_to_date (h : LExec ops build ls x) {e l : ℕ} (hl : l ∈ x.regs e) (hu : .unregister e l ∉ ls) {t : Told}
    (ht : (callsOf e l x.log).getLast? = some t) : t.loading = (x.sys.engs e).loading ∨ BeingCalled x e l ∨ e ∈ x.sys.async ∨
      (x.sys.engs e).loading = false ∧ ResetSince ops build ls x e l := by
  revert hu hl t
  refine lexec_induct (P := fun ls x => ∀ (_ : l ∈ x.regs e) (_ : .unregister e l ∉ ls) {t : Told} (_ : (callsOf e l x.log).getLast? = some t),
    t.loading = (x.sys.engs e).loading ∨ BeingCalled x e l ∨ e ∈ x.sys.async ∨ (x.sys.engs e).loading = false ∧ ResetSince ops build ls x e l) ?_ ?_ h
  · intro hl
    cases hl
  · intro ls x a x' hx ih hs hl hu t ht
    have hu' : .unregister e l ∉ ls := fun hc => hu (List.mem_append_left _ hc)
    have hua : a ≠ .unregister e l := fun hc => hu (by rw [hc]; simp)
    cases hs with
    | @sys b s' hs h1 h2 h3 =>
      have hb : b ≠ .destroy e := by
        rintro rfl
        rw [after_regs_destroy] at hl
        cases hl
      rw [after_regs x b s' hb] at hl
      have hlog : callsOf e l (x.after b s').log = callsOf e l x.log := by rw [after_log]
      rw [hlog] at ht
      rw [after_sys]
      rcases step_loading hs e with k | ⟨rfl, k, _⟩ | ⟨c, rfl, hc, k⟩ | k
      · have hasync : b = .async → (∃ rest, x.sys.async = e :: rest) → BeingCalled (x.after b s') e l := by
          rintro rfl ⟨rest, hr⟩
          refine Or.inr ?_
          rw [after_msg_async x s' hr]
          exact ⟨rfl, hl⟩
        rw [k]
        rcases ih hl hu' ht with i | i | i | ⟨i, j⟩
        · exact Or.inl i
        · refine Or.inr (Or.inl ?_)
          rcases i with i | ⟨i1, i2⟩
          · left
            rcases after_loud x b s' e with g | ⟨_, g, _⟩
            · rw [g]; exact i
            · rw [g]; exact hl
          · right
            have : b ≠ .async := fun hc => by rw [h2 hc] at i2; cases i2
            rw [after_msg x s' this]
            exact ⟨i1, i2⟩
        · rcases step_async hs i with g | ⟨g1, g2⟩
          · exact Or.inr (Or.inr (Or.inl g))
          · exact Or.inr (Or.inl (hasync g1 g2))
        · exact Or.inr (Or.inr (Or.inr ⟨i, resetSince_more j _ hlog⟩))
      · refine Or.inr (Or.inl (Or.inl ?_))
        rw [after_loud_flag x s' k]
        exact hl
      · exact Or.inr (Or.inr (Or.inr ⟨k, ls, c, [], x, rfl, hc, hx, hlog.symm⟩))
      · exact Or.inr (Or.inr (Or.inl k))
    | @tellLoadIR e' l' rest hq =>
      simp only [callsOf_append, callsOf_one] at ht
      by_cases hne : e' = e ∧ l' = l
      · rw [if_pos hne, List.getLast?_concat] at ht
        obtain rfl := hne.1
        left
        rw [← Option.some.inj ht]
      · rw [if_neg hne, List.append_nil] at ht
        rcases ih hl hu' ht with i | i | i | ⟨i, j⟩
        · exact Or.inl i
        · refine Or.inr (Or.inl ?_)
          rcases i with i | i
          · left
            simp only [Function.update_apply]
            split
            case isTrue he =>
              subst he
              rw [hq] at i
              exact (List.mem_cons.mp i).resolve_left fun hc => hne ⟨rfl, hc.symm⟩
            · exact i
          · exact Or.inr i
        · exact Or.inr (Or.inr (Or.inl i))
        · refine Or.inr (Or.inr (Or.inr ⟨i, resetSince_more j _ ?_⟩))
          simp only [callsOf_append, callsOf_one, if_neg hne, List.append_nil]
    | @tellMessages l' rest hq =>
      simp only [callsOf_append, callsOf_one] at ht
      by_cases hne : x.msg.1 = e ∧ l' = l
      · rw [if_pos hne, List.getLast?_concat] at ht
        obtain rfl := hne.1
        left
        rw [← Option.some.inj ht]
      · rw [if_neg hne, List.append_nil] at ht
        rcases ih hl hu' ht with i | i | i | ⟨i, j⟩
        · exact Or.inl i
        · refine Or.inr (Or.inl ?_)
          rcases i with i | ⟨i1, i2⟩
          · exact Or.inl i
          · right
            rw [hq] at i2
            exact ⟨i1, (List.mem_cons.mp i2).resolve_left fun hc => hne ⟨i1, hc.symm⟩⟩
        · exact Or.inr (Or.inr (Or.inl i))
        · refine Or.inr (Or.inr (Or.inr ⟨i, resetSince_more j _ ?_⟩))
          simp only [callsOf_append, callsOf_one, if_neg hne, List.append_nil]
    | @register e' l' ha =>
      have hl0 : l ∈ x.regs e := by
        by_contra hc
        simp only [Function.update_apply] at hl
        split at hl
        case isFalse he => exact hc hl
        case isTrue he =>
          subst he
          obtain ⟨i1, _⟩ := unknown hx hu' (by rw [ha]; nofun) hc
          rw [i1] at ht
          cases ht
      rcases ih hl0 hu' ht with i | i | i | ⟨i, j⟩
      · exact Or.inl i
      · exact Or.inr (Or.inl i)
      · exact Or.inr (Or.inr (Or.inl i))
      · exact Or.inr (Or.inr (Or.inr ⟨i, resetSince_more j _ rfl⟩))
    | @unregister e' l' ha =>
      have hne : ¬ (e' = e ∧ l' = l) := fun hc => hua (by rw [hc.1, hc.2])
      have hl0 : l ∈ x.regs e := by
        simp only [Function.update_apply] at hl
        split at hl
        case isTrue he => subst he; exact List.mem_of_mem_erase hl
        · exact hl
      have hkeep : ∀ {xs : List ℕ}, e' = e → l ∈ xs → l ∈ xs.erase l' := fun he hm => (List.mem_erase_of_ne fun hc => hne ⟨he, hc.symm⟩).mpr hm
      rcases ih hl0 hu' ht with i | i | i | ⟨i, j⟩
      · exact Or.inl i
      · refine Or.inr (Or.inl ?_)
        rcases i with i | ⟨i1, i2⟩
        · left
          simp only [Function.update_apply]
          split
          case isTrue he => subst he; exact hkeep rfl i
          · exact i
        · right
          by_cases he : x.msg.1 = e'
          · simp only [if_pos he]
            exact ⟨by rw [← he]; exact i1, hkeep (by rw [← he]; exact i1) i2⟩
          · simp only [if_neg he]
            exact ⟨i1, i2⟩
      · exact Or.inr (Or.inr (Or.inl i))
      · exact Or.inr (Or.inr (Or.inr ⟨i, resetSince_more j _ rfl⟩))

/-! ## How often listeners are called -/

theorem async_step {s s' : Sys V R} {b : Label R} (h : Step ops build s b s') :
    (b = .async ∧ ∃ e rest, s.async = e :: rest ∧ s'.async = rest) ∨
    (∃ j ∈ s.jobs, b = .jobDone j.id ∧ (s.engs j.eng).status = .alive ∧ s'.async = s.async ++ [j.eng]) ∨
    (s'.async = s.async ∧ b ≠ .async ∧ ∀ i, b = .jobDone i → ∃ j ∈ s.jobs, j.id = i ∧ (s.engs j.eng).status ≠ .alive) := by
  cases h
  case async e rest h1 h2 => left; exact ⟨rfl, _, _, h1, rfl⟩
  case asyncDead e rest h1 h2 => left; exact ⟨rfl, _, _, h1, rfl⟩
  case jobDone j h1 h2 h3 => right; left; exact ⟨j, h1, rfl, h3, rfl⟩
  case jobDoneDead j h1 h2 h3 =>
    right; right
    refine ⟨rfl, nofun, fun i hi => ⟨j, h1, ?_, by rw [h3]; nofun⟩⟩
    exact Label.jobDone.inj hi
  all_goals right; right; exact ⟨rfl, nofun, nofun⟩

/-- What is true of the rounds of calls. -/
structure Rounds (x : LSys V R) : Prop where
  regs : ∀ e, (x.regs e).Nodup
  loud : ∀ e, (x.loud e).Nodup
  msg : x.msg.2.Nodup
  inLoad : ∀ e, x.loud e ≠ [] → ∃ i r, (x.sys.engs e).loader = some (i, r, .flagged)

theorem step_loader {s s' : Sys V R} {b : Label R} (h : Step ops build s b s') {e i : ℕ} {r : R} (hl : (s.engs e).loader = some (i, r, .flagged)) :
    (s'.engs e).loader = some (i, r, .flagged) ∨ b = .loadAdd e := by
  cases h
  case loadLock e' req h1 h2 =>
    left
    by_cases he : e = e'
    · subst he; rw [h2.1] at hl; cases hl
    · simp [setEng_engs, he, hl]
  case loadRemove e' i' req h1 =>
    left
    by_cases he : e = e'
    · subst he; rw [h1] at hl; cases hl
    · simp [setEng_engs, he, hl]
  case loadFlag e' i' req h1 h2 =>
    left
    by_cases he : e = e'
    · subst he; rw [h1] at hl; cases hl
    · simp [setEng_engs, he, hl]
  case loadSkip e' i' req h1 h2 =>
    left
    by_cases he : e = e'
    · subst he; rw [h1] at hl; cases hl
    · simp [setEng_engs, he, hl]
  case loadAdd e' i' req p h1 h2 =>
    by_cases he : e = e'
    · subst he; right; rfl
    · left; simp [setEng_engs, he, hl]
  case visit e' n k done g rest h1 h2 =>
    left
    by_cases he : e = e'
    · subst he; simp [setEng_engs, visit_eq, hl]
    · simp [setEng_engs, he, hl]
  case body e' k done r' h1 h2 =>
    left
    by_cases he : e = e'
    · subst he; simp [setEng_engs, finish_eq, hl]
    · simp [setEng_engs, he, hl]
  all_goals
    left
    simp only [setEng_engs, setJob_engs, dropJob_engs]
    try split
    all_goals first | exact hl | (rename_i hh; subst hh; exact hl)

theorem flag_step {s s' : Sys V R} {e : ℕ} (h : Step ops build s (.loadFlag e) s') : ∃ i r, (s.engs e).loader = some (i, r, .removed) ∧
    ((s'.engs e).loader = none ∨ (s'.engs e).loader = some (i, r, .flagged)) := by
  cases h
  case loadFlag i req h1 h2 => exact ⟨_, _, h1, Or.inr (by simp [setEng_engs])⟩
  case loadSkip i req h1 h2 => exact ⟨_, _, h1, Or.inl (by simp [setEng_engs])⟩

theorem rounds (h : LExec ops build ls x) : Rounds x := by
  refine lexec_induct (P := fun _ x => Rounds x) ⟨fun _ => List.nodup_nil, fun _ => List.nodup_nil, List.nodup_nil, fun _ h => absurd rfl h⟩ ?_ h
  intro ls x a x' _ ih hs
  obtain ⟨i1, i2, i3, i4⟩ := ih
  cases hs with
  | @sys b s' hs h1 h2 h3 =>
    refine ⟨fun e => ?_, fun e => ?_, ?_, fun e he => ?_⟩
    · by_cases hb : b = .destroy e
      · subst hb; rw [after_regs_destroy]; exact List.nodup_nil
      · rw [after_regs x b s' hb]; exact i1 e
    · rcases after_loud x b s' e with k | ⟨_, k, _⟩ <;> rw [k]
      · exact i2 e
      · exact i1 e
    · by_cases hb : b = .async
      · subst hb
        obtain ⟨e', rest, hr⟩ : ∃ e' rest, x.sys.async = e' :: rest := by cases hs <;> exact ⟨_, _, ‹_›⟩
        rw [after_msg_async x s' hr]; exact i1 e'
      · rw [after_msg x s' hb]; exact i3
    · rw [after_sys]
      rcases after_loud x b s' e with k | ⟨rfl, _, k⟩
      · rw [k] at he
        obtain ⟨i, r, hl⟩ := i4 e he
        rcases step_loader hs hl with g | g
        · exact ⟨i, r, g⟩
        · exact absurd (h1 e g) he
      · obtain ⟨i, r, _, g⟩ := flag_step hs
        obtain ⟨p, hp⟩ := k
        rcases g with g | g
        · rw [g] at hp; cases hp
        · exact ⟨i, r, g⟩
  | @tellLoadIR e' l' rest hq =>
    refine ⟨i1, fun e => ?_, i3, fun e he => ?_⟩
    · simp only [Function.update_apply]
      split
      case isTrue hc => have := i2 e'; rw [hq] at this; exact (List.nodup_cons.mp this).2
      · exact i2 e
    · simp only [Function.update_apply] at he
      split at he
      case isTrue hc => subst hc; exact i4 e (by rw [hq]; simp)
      · exact i4 e he
  | @tellMessages l' rest hq =>
    refine ⟨i1, i2, ?_, i4⟩
    rw [hq] at i3
    exact (List.nodup_cons.mp i3).2
  | @register e' l' ha =>
    refine ⟨fun e => ?_, i2, i3, i4⟩
    simp only [Function.update_apply]
    split
    · split
      · exact i1 e'
      case isFalse hc => exact List.nodup_append.mpr ⟨i1 e', List.nodup_singleton _, fun a ha b hb hab => hc (by simp at hb; rw [← hb, ← hab]; exact ha)⟩
    · exact i1 e
  | @unregister e' l' ha =>
    refine ⟨fun e => ?_, fun e => ?_, ?_, fun e he => ?_⟩
    · simp only [Function.update_apply]
      split
      · exact (i1 e').erase _
      · exact i1 e
    · simp only [Function.update_apply]
      split
      · exact (i2 e').erase _
      · exact i2 e
    · simp only
      split
      · exact i3.erase _
      · exact i3
    · simp only [Function.update_apply] at he
      split at he
      case isTrue hc => subst hc; exact i4 e fun hc => he (by rw [hc]; rfl)
      · exact i4 e he

theorem after_announced (x : LSys V R) (l : Label R) (s' : Sys V R) {e : ℕ} (h : l ≠ .loadFlag e ∨ (s'.engs e).loader = none) :
    (x.after l s').announced e = x.announced e := by
  unfold LSys.after
  split
  case h_1 e' =>
    split
    case h_1 i r p hp =>
      have : e ≠ e' := by
        rintro rfl
        rcases h with h | h
        · exact h rfl
        · rw [h] at hp; cases hp
      simp [this]
    · rfl
  all_goals repeat' split
  all_goals rfl

theorem after_announced_flag (x : LSys V R) (s' : Sys V R) {e i : ℕ} {p : R × LPc} (h : (s'.engs e).loader = some (i, p)) :
    (x.after (.loadFlag e) s').announced e = x.announced e ++ [i] := by
  simp [LSys.after, h]

theorem after_completed (x : LSys V R) (l : Label R) (s' : Sys V R) (h : ∀ i, l ≠ .jobDone i) : (x.after l s').completed = x.completed := by
  unfold LSys.after
  split
  case h_3 i => exact absurd rfl (h i)
  all_goals repeat' split
  all_goals rfl

theorem find_id {s : Sys V R} (hn : (s.jobs.map Job.id).Nodup) {j : Job V R} (hj : j ∈ s.jobs) : s.jobs.find? (fun k => k.id = j.id) = some j := by
  cases hf : s.jobs.find? fun k => k.id = j.id with
  | none => exact absurd (List.find?_eq_none.mp hf j hj) (by simp)
  | some k =>
    have h1 := List.find?_some hf
    have h2 := List.mem_of_find?_eq_some hf
    rw [same_job hn h2 hj (by simpa using h1)]

theorem after_completed_done (x : LSys V R) (s' : Sys V R) (hn : (x.sys.jobs.map Job.id).Nodup) {j : Job V R} (hj : j ∈ x.sys.jobs) :
    (x.after (.jobDone j.id) s').completed = if (x.sys.engs j.eng).status = .alive then Function.update x.completed j.eng (x.completed j.eng ++ [j.id]) else x.completed := by
  simp only [LSys.after, find_id hn hj]
  split <;> rfl

/-- Calls of listener `l` within `LoadIR`, with the one that is due. -/
def loudCalls (x : LSys V R) (e l : ℕ) : ℕ := ((callsOf e l x.log).filter fun t => t.caller = .loadIR).length + if l ∈ x.loud e then 1 else 0

/-- Calls of listener `l` on the message thread, with those that are due. -/
def messageCalls (x : LSys V R) (e l : ℕ) : ℕ :=
  ((callsOf e l x.log).filter fun t => t.caller = .messages).length + (if x.msg.1 = e ∧ l ∈ x.msg.2 then 1 else 0) + x.sys.async.count e

theorem calls_step (h : LExec ops build ls x) {e l : ℕ} (hl : l ∈ x.regs e) {a : LLabel R} (ha : a ≠ .unregister e l) (hs : LStep ops build x a x')
    (hd : (x'.sys.engs e).status ≠ .dead) : l ∈ x'.regs e ∧ loudCalls x' e l + (x.announced e).length = loudCalls x e l + (x'.announced e).length ∧
      messageCalls x' e l + (x.completed e).length = messageCalls x e l + (x'.completed e).length := by
  have hr := rounds h
  have hn := (exec_inv (C108_listeners_change_nothing h)).ids.nodup
  unfold loudCalls messageCalls
  cases hs with
  | @sys b s' hs h1 h2 h3 =>
    rw [after_sys] at hd
    obtain ⟨d1, d2⟩ := step_dead hs hd
    rw [after_regs x b s' d2, after_log, after_sys]
    refine ⟨hl, ?_, ?_⟩
    · by_cases hb : b = .loadFlag e ∧ (s'.engs e).loader ≠ none
      · obtain ⟨rfl, hb⟩ := hb
        obtain ⟨i, r, g1, g2⟩ := flag_step hs
        have g3 := g2.resolve_left hb
        have : x.loud e = [] := by
          by_contra hc
          obtain ⟨i', r', g⟩ := hr.inLoad e hc
          rw [g] at g1
          cases g1
        rw [after_loud_flag x s' ⟨_, g3⟩, after_announced_flag x s' g3, this]
        simp [hl]
        omega
      · have k : (x.after b s').loud e = x.loud e := by
          rcases after_loud x b s' e with k | ⟨rfl, _, p, k⟩
          · exact k
          · exact absurd ⟨rfl, by rw [k]; nofun⟩ hb
        have k2 : b ≠ .loadFlag e ∨ (s'.engs e).loader = none := by
          by_cases g : b = .loadFlag e
          · right; by_contra hc; exact hb ⟨g, hc⟩
          · exact Or.inl g
        rw [k, after_announced x b s' k2]
    · rcases async_step hs with ⟨rfl, e', rest, g1, g2⟩ | ⟨j, hj, rfl, g1, g2⟩ | ⟨g1, g2, g3⟩
      · rw [after_completed x .async s' (by nofun), after_msg_async x s' g1, h2 rfl, g1, g2]
        by_cases he : e' = e
        · subst he; simp [hl]; omega
        · simp [he]
      · rw [after_completed_done x s' hn hj, if_pos g1, after_msg x (l := .jobDone j.id) s' (by nofun), g2]
        by_cases he : j.eng = e
        · subst he; simp; omega
        · have : e ≠ j.eng := fun hc => he hc.symm
          simp [he, this]
      · rw [after_msg x s' g2, g1]
        by_cases hb : ∃ i, b = .jobDone i
        · obtain ⟨i, rfl⟩ := hb
          obtain ⟨j, hj, rfl, g⟩ := g3 i rfl
          rw [after_completed_done x s' hn hj, if_neg g]
        · rw [after_completed x b s' fun i hc => hb ⟨i, hc⟩]
  | @tellLoadIR e' l' rest hq =>
    refine ⟨hl, ?_, ?_⟩
    · simp only [callsOf_append, callsOf_one, List.filter_append, List.length_append]
      have hnd := hr.loud e'
      rw [hq] at hnd
      by_cases he : e' = e
      · subst he
        by_cases hll : l' = l
        · subst hll
          simp [hq, (List.nodup_cons.mp hnd).1]
        · have : l ≠ l' := fun hc => hll hc.symm
          simp [hq, hll, this]
      · have : e ≠ e' := fun hc => he hc.symm
        simp [he, this]
    · simp only [callsOf_append, callsOf_one, List.filter_append, List.length_append]
      split <;> simp
  | @tellMessages l' rest hq =>
    refine ⟨hl, ?_, ?_⟩
    · simp only [callsOf_append, callsOf_one, List.filter_append, List.length_append]
      split <;> simp
    · simp only [callsOf_append, callsOf_one, List.filter_append, List.length_append]
      have hnd := hr.msg
      rw [hq] at hnd
      by_cases he : x.msg.1 = e
      · by_cases hll : l' = l
        · subst hll
          simp [hq, he, (List.nodup_cons.mp hnd).1]
        · have : l ≠ l' := fun hc => hll hc.symm
          simp [hq, he, hll, this]
      · simp [he]
  | @register e' l' ha' =>
    refine ⟨?_, rfl, rfl⟩
    simp only [Function.update_apply]
    split
    case isTrue he => subst he; split <;> simp [hl]
    · exact hl
  | @unregister e' l' ha' =>
    have hne : ¬ (e' = e ∧ l' = l) := fun hc => ha (by rw [hc.1, hc.2])
    have hkeep : ∀ {xs : List ℕ}, e' = e → (l ∈ xs.erase l' ↔ l ∈ xs) := fun he => List.mem_erase_of_ne fun hc => hne ⟨he, hc.symm⟩
    refine ⟨?_, ?_, ?_⟩
    · simp only [Function.update_apply]
      split
      case isTrue he => subst he; exact (hkeep rfl).mpr hl
      · exact hl
    · simp only [Function.update_apply]
      by_cases he : e = e'
      · subst he; simp only [if_true, hkeep rfl]
      · simp only [if_neg he]
    · simp only
      by_cases he : x.msg.1 = e'
      · simp only [if_pos he]
        by_cases hee : e' = e
        · simp only [he, hkeep hee]
        · simp only [he, hee, false_and]
      · simp only [if_neg he]

/-- Nothing has been announced for the engine yet. -/
structure Unloaded (x : LSys V R) (e : ℕ) : Prop where
  loader : ∀ i r, (x.sys.engs e).loader ≠ some (i, r, .flagged)
  jobs : ∀ j ∈ x.sys.jobs, j.eng ≠ e
  async : e ∉ x.sys.async
  loud : x.loud e = []
  msg : x.msg.1 = e → x.msg.2 = []
  calls : ∀ l, callsOf e l x.log = []
  announced : x.announced e = []
  completed : x.completed e = []

theorem step_jobs {s s' : Sys V R} {b : Label R} (h : Step ops build s b s') {e : ℕ} (hj : ∀ j ∈ s.jobs, j.eng ≠ e) (hl : ∀ i r, (s.engs e).loader ≠ some (i, r, .flagged)) :
    ∀ j ∈ s'.jobs, j.eng ≠ e := by
  have keep : ∀ j' : Job V R, j'.eng ≠ e → ∀ j ∈ (s.setJob j').jobs, j.eng ≠ e := by
    intro j' h' j hm
    rcases mem_setJob hm with h1 | ⟨h1, _⟩
    · rw [h1]; exact h'
    · exact hj j h1
  cases h
  case loadRemove e' i req h1 =>
    intro j hm
    obtain ⟨k, hk, _, rfl⟩ := mem_removeAll.mp hm
    exact hj k hk
  case loadAdd e' i req p h1 h2 =>
    intro j hm
    rcases List.mem_append.mp hm with hm | hm
    · exact hj j hm
    · rw [List.mem_singleton] at hm
      subst hm
      rintro rfl
      exact hl _ _ h1
  case pick j h1 => exact keep _ (hj j (mem_of_find h1).1)
  case build j h1 h2 => exact keep _ (hj j h1)
  case jobLock j v h1 h2 h3 h4 => exact keep _ (hj j h1)
  case jobPush j v h1 h2 h3 h4 h5 => exact keep _ (hj j h1)
  case jobRefused j v h1 h2 h3 h4 h5 => exact keep _ (hj j h1)
  case jobStop j v h1 h2 h3 h4 => intro k hk; exact hj k ((dropJob_sub s j.id).subset hk)
  case jobDone j h1 h2 h3 => intro k hk; exact hj k ((dropJob_sub s j.id).subset hk)
  all_goals exact hj

theorem flagged_before {s s' : Sys V R} {b : Label R} (h : Step ops build s b s') {e : ℕ} (hb : ∀ e', b ≠ .loadFlag e') (hl : ∀ i r, (s.engs e).loader ≠ some (i, r, .flagged)) :
    ∀ i r, (s'.engs e).loader ≠ some (i, r, .flagged) := by
  intro i r hc
  cases h
  case loadFlag e' i' req h1 h2 => exact hb _ rfl
  case loadSkip e' i' req h1 h2 => exact hb _ rfl
  case visit e' n k done g rest h1 h2 =>
    by_cases he : e = e'
    · subst he; simp [setEng_engs, visit_eq] at hc; exact hl _ _ hc
    · simp [setEng_engs, he] at hc; exact hl _ _ hc
  case body e' k done r' h1 h2 =>
    by_cases he : e = e'
    · subst he; simp [setEng_engs, finish_eq] at hc; exact hl _ _ hc
    · simp [setEng_engs, he] at hc; exact hl _ _ hc
  all_goals
    simp only [setEng_engs, setJob_engs, dropJob_engs] at hc
    try split at hc
    all_goals first | exact hl _ _ hc | (rename_i hh; subst hh; first | exact hl _ _ hc | cases hc)

theorem lexec_split {ls₁ ls₂ : List (LLabel R)} {a : LLabel R} (h : LExec ops build (ls₁ ++ a :: ls₂) x) :
    ∃ y z, LExec ops build ls₁ y ∧ LStep ops build y a z ∧ LRun ops build z ls₂ x := by
  have key : ∀ (xs : List (LLabel R)) (u v : LSys V R), LRun ops build u (xs ++ a :: ls₂) v → ∃ y z, LRun ops build u xs y ∧ LStep ops build y a z ∧ LRun ops build z ls₂ v := by
    intro xs
    induction xs with
    | nil =>
      intro u v h
      cases h with
      | cons h t => exact ⟨u, _, .nil u, h, t⟩
    | cons c xs ih =>
      intro u v h
      cases h with
      | cons h t =>
        obtain ⟨y, z, h1, h2, h3⟩ := ih _ _ t
        exact ⟨y, z, .cons h h1, h2, h3⟩
  exact key ls₁ {} x h

theorem lrun_dead (h : LRun ops build x ls x') {e : ℕ} (hd : (x'.sys.engs e).status ≠ .dead) : (x.sys.engs e).status ≠ .dead := by
  induction h with
  | nil => exact hd
  | cons hs _ ih =>
    have := ih hd
    cases hs with
    | sys hs => rw [after_sys] at this; exact (step_dead hs this).1
    | _ => exact this

theorem unloaded (h : LExec ops build ls x) {e : ℕ} (hf : .sys (.loadFlag e) ∉ ls) : Unloaded x e := by
  revert hf
  refine lexec_induct (P := fun ls x => .sys (.loadFlag e) ∉ ls → Unloaded x e) ?_ ?_ h
  · exact fun _ => ⟨nofun, nofun, nofun, rfl, fun _ => rfl, fun _ => rfl, rfl, rfl⟩
  · intro ls x a x' hx ih hs hf
    have hn := (exec_inv (C108_listeners_change_nothing hx)).ids.nodup
    have hfa : a ≠ .sys (.loadFlag e) := fun hc => hf (by rw [hc]; simp)
    have i := ih fun hc => hf (List.mem_append_left _ hc)
    cases hs with
    | @sys b s' hs h1 h2 h3 =>
      have hb : b ≠ .loadFlag e := fun hc => hfa (by rw [hc])
      have hloud : (x.after b s').loud e = [] := by
        rcases after_loud x b s' e with k | ⟨k, _⟩
        · rw [k]; exact i.loud
        · exact absurd k hb
      have hann : (x.after b s').announced e = [] := by rw [after_announced x b s' (Or.inl hb)]; exact i.announced
      have hcalls : ∀ l, callsOf e l (x.after b s').log = [] := by rw [after_log]; exact i.calls
      have hl : ∀ i r, ((x.after b s').sys.engs e).loader ≠ some (i, r, .flagged) := by
        rw [after_sys]
        intro i' r' hc
        by_cases hk : ∃ e', b = .loadFlag e'
        · obtain ⟨e', rfl⟩ := hk
          have hee : e ≠ e' := fun hc => hb (by rw [hc])
          have : (s'.engs e).loader = (x.sys.engs e).loader := by cases hs <;> simp [setEng_engs, hee]
          rw [this] at hc
          exact i.loader _ _ hc
        · exact flagged_before hs (fun e' hc => hk ⟨e', hc⟩) i.loader _ _ hc
      have hjobs : ∀ j ∈ (x.after b s').sys.jobs, j.eng ≠ e := by rw [after_sys]; exact step_jobs hs i.jobs i.loader
      have hasync : e ∉ (x.after b s').sys.async ∧ (x.after b s').completed e = [] ∧ ((x.after b s').msg.1 = e → (x.after b s').msg.2 = []) := by
        rw [after_sys]
        rcases async_step hs with ⟨rfl, e', rest, g1, g2⟩ | ⟨j, hj, rfl, g1, g2⟩ | ⟨g1, g2, g3⟩
        · have ha := i.async
          rw [g1] at ha
          rw [after_completed x .async s' (by nofun), after_msg_async x s' g1, g2]
          exact ⟨fun hc => ha (List.mem_cons_of_mem _ hc), i.completed, fun hc => absurd (by rw [← show e' = e from hc]; simp) ha⟩
        · rw [after_completed_done x s' hn hj, if_pos g1, after_msg x (l := .jobDone j.id) s' (by nofun), g2]
          have he : e ≠ j.eng := fun hc => i.jobs j hj hc.symm
          refine ⟨by simp [i.async, he], by simp [he, i.completed], i.msg⟩
        · rw [after_msg x s' g2, g1]
          refine ⟨i.async, ?_, i.msg⟩
          by_cases hk : ∃ n, b = .jobDone n
          · obtain ⟨n, rfl⟩ := hk
            obtain ⟨j, hj, rfl, g⟩ := g3 n rfl
            rw [after_completed_done x s' hn hj, if_neg g]; exact i.completed
          · rw [after_completed x b s' fun n hc => hk ⟨n, hc⟩]; exact i.completed
      exact ⟨hl, hjobs, hasync.1, hloud, hasync.2.2, hcalls, hann, hasync.2.1⟩
    | @tellLoadIR e' l' rest hq =>
      have he : e' ≠ e := by rintro rfl; rw [i.loud] at hq; cases hq
      refine ⟨i.loader, i.jobs, i.async, ?_, i.msg, fun l => ?_, i.announced, i.completed⟩
      · simp only [Function.update_apply, if_neg (Ne.symm he)]; exact i.loud
      · rw [callsOf_append, i.calls, callsOf_one, if_neg fun hc => he hc.1]; rfl
    | @tellMessages l' rest hq =>
      have he : x.msg.1 ≠ e := by intro hc; rw [i.msg hc] at hq; cases hq
      refine ⟨i.loader, i.jobs, i.async, i.loud, fun hc => absurd hc he, fun l => ?_, i.announced, i.completed⟩
      rw [callsOf_append, i.calls, callsOf_one, if_neg fun hc => he hc.1]; rfl
    | @register e' l' ha => exact ⟨i.loader, i.jobs, i.async, i.loud, i.msg, i.calls, i.announced, i.completed⟩
    | @unregister e' l' ha =>
      refine ⟨i.loader, i.jobs, i.async, ?_, ?_, i.calls, i.announced, i.completed⟩
      · simp only [Function.update_apply]
        split
        case isTrue hc => subst hc; rw [i.loud]; rfl
        · exact i.loud
      · simp only
        split
        case isTrue hc => intro he; simp only at he; rw [i.msg (by rw [hc]; exact he)]; rfl
        · exact i.msg

/-- **C108.** A listener that has been added before anything was loaded, and not removed, is called once for each load: by `LoadIR` on its thread when the load begins, and on the message
thread when it has been delivered or refused. (What is still missing: the calls that are due in a round that has begun, and the rounds that wait for the message thread.) -/
theorem C108_called_once_for_each_load {ls₁ ls₂ : List (LLabel R)} {e l : ℕ} (h : LExec ops build (ls₁ ++ .register e l :: ls₂) x) (h1 : .sys (.loadFlag e) ∉ ls₁)
    (h2 : .unregister e l ∉ ls₂) (hd : (x.sys.engs e).status = .alive) :
    ((callsOf e l x.log).filter fun t => t.caller = .loadIR).length + (if l ∈ x.loud e then 1 else 0) = (x.announced e).length ∧
      ((callsOf e l x.log).filter fun t => t.caller = .messages).length + (if x.msg.1 = e ∧ l ∈ x.msg.2 then 1 else 0) + x.sys.async.count e = (x.completed e).length := by
  obtain ⟨y, z, g1, g2, g3⟩ := lexec_split h
  have u := unloaded g1 h1
  have hz : l ∈ z.regs e ∧ loudCalls z e l = (z.announced e).length ∧ messageCalls z e l = (z.completed e).length := by
    cases g2 with
    | register ha =>
      refine ⟨?_, ?_, ?_⟩
      · simp only [Function.update_self]; split <;> simp_all
      · unfold loudCalls
        simp only [u.calls, u.loud, u.announced]; simp
      · unfold messageCalls
        have : ¬ (y.msg.1 = e ∧ l ∈ y.msg.2) := fun hc => by rw [u.msg hc.1] at hc; cases hc.2
        simp only [u.calls, u.completed, if_neg this, List.count_eq_zero.mpr u.async]; simp
  have key : ∀ (z x : LSys V R) ls₂, LRun ops build z ls₂ x → ∀ ls₁, LExec ops build ls₁ z → .unregister e l ∉ ls₂ → (x.sys.engs e).status ≠ .dead →
      l ∈ z.regs e ∧ loudCalls z e l = (z.announced e).length ∧ messageCalls z e l = (z.completed e).length →
      loudCalls x e l = (x.announced e).length ∧ messageCalls x e l = (x.completed e).length := by
    intro z x ls₂ hr
    induction hr with
    | nil => exact fun _ _ _ _ h => h.2
    | @cons a b c m ms hs t ih =>
      intro ls₁ hx hu hd hz
      have hx' := LRun.append hx (.cons hs (.nil _))
      have hdb : (b.sys.engs e).status ≠ .dead := lrun_dead t hd
      obtain ⟨k1, k2, k3⟩ := calls_step hx hz.1 (fun hc => hu (by rw [hc]; simp)) hs hdb
      exact ih _ hx' (fun hc => hu (List.mem_cons_of_mem _ hc)) hd ⟨k1, by omega, by omega⟩
  exact key z x ls₂ g3 _ (LRun.append g1 (.cons g2 (.nil _))) h2 (by rw [hd]; nofun) hz

theorem jobs_from {s s' : Sys V R} {b : Label R} (h : Step ops build s b s') {j : Job V R} (hj : j ∈ s'.jobs) :
    (∃ k ∈ s.jobs, k.id = j.id ∧ k.eng = j.eng) ∨ b = .loadAdd j.eng ∧ ∃ r, (s.engs j.eng).loader = some (j.id, r, .flagged) := by
  have keep : ∀ j' : Job V R, j ∈ (s.setJob j').jobs → ∀ k ∈ s.jobs, k.id = j'.id → k.eng = j'.eng → ∃ k ∈ s.jobs, k.id = j.id ∧ k.eng = j.eng := by
    intro j' hm k hk h1 h2
    rcases mem_setJob hm with rfl | ⟨h3, _⟩
    · exact ⟨k, hk, h1, h2⟩
    · exact ⟨j, h3, rfl, rfl⟩
  cases h
  case loadRemove e' i req h1 =>
    obtain ⟨k, hk, _, rfl⟩ := mem_removeAll.mp hj
    exact Or.inl ⟨k, hk, rfl, rfl⟩
  case loadAdd e' i req p h1 h2 =>
    rcases List.mem_append.mp hj with hm | hm
    · exact Or.inl ⟨j, hm, rfl, rfl⟩
    · rw [List.mem_singleton] at hm
      subst hm
      exact Or.inr ⟨rfl, _, h1⟩
  case pick k h1 => exact Or.inl (keep _ hj k (mem_of_find h1).1 rfl rfl)
  case build k h1 h2 => exact Or.inl (keep { k with pc := .built (build k.req k.spec) } hj k h1 rfl rfl)
  case jobLock k v h1 h2 h3 h4 => exact Or.inl (keep { k with pc := .locked v } hj k h1 rfl rfl)
  case jobPush k v h1 h2 h3 h4 h5 => exact Or.inl (keep { k with pc := .pushed } hj k h1 rfl rfl)
  case jobRefused k v h1 h2 h3 h4 h5 => exact Or.inl (keep { k with pc := .pushed } hj k h1 rfl rfl)
  case jobStop k v h1 h2 h3 h4 => exact Or.inl ⟨j, (dropJob_sub s k.id).subset hj, rfl, rfl⟩
  case jobDone k h1 h2 h3 => exact Or.inl ⟨j, (dropJob_sub s k.id).subset hj, rfl, rfl⟩
  all_goals exact Or.inl ⟨j, hj, rfl, rfl⟩

theorem loader_from {s s' : Sys V R} {b : Label R} (h : Step ops build s b s') {e i : ℕ} {r : R} {p : LPc} (hl : (s'.engs e).loader = some (i, r, p)) :
    (s.engs e).loader = some (i, r, p) ∧ (p ≠ .flagged → b ≠ .loadFlag e) ∨ p = .locked ∧ i = s.next ∧ (∀ e', b ≠ .loadFlag e') ∨ p = .removed ∧ (s.engs e).loader = some (i, r, .locked) ∧ (∀ e', b ≠ .loadFlag e') ∨
      p = .flagged ∧ b = .loadFlag e ∧ (s.engs e).loader = some (i, r, .removed) := by
  cases h
  case loadLock e' req h1 h2 =>
    by_cases he : e = e'
    · subst he
      simp [setEng_engs] at hl
      exact Or.inr (Or.inl ⟨hl.2.2.symm, hl.1.symm, nofun⟩)
    · simp [setEng_engs, he] at hl; exact Or.inl ⟨hl, nofun⟩
  case loadRemove e' i' req h1 =>
    by_cases he : e = e'
    · subst he
      simp [setEng_engs] at hl
      obtain ⟨rfl, rfl, rfl⟩ := hl
      exact Or.inr (Or.inr (Or.inl ⟨rfl, h1, nofun⟩))
    · simp [setEng_engs, he] at hl; exact Or.inl ⟨hl, nofun⟩
  case loadFlag e' i' req h1 h2 =>
    by_cases he : e = e'
    · subst he
      simp [setEng_engs] at hl
      obtain ⟨rfl, rfl, rfl⟩ := hl
      exact Or.inr (Or.inr (Or.inr ⟨rfl, rfl, h1⟩))
    · simp [setEng_engs, he] at hl; exact Or.inl ⟨hl, fun _ hc => he (Label.loadFlag.inj hc).symm⟩
  case loadSkip e' i' req h1 h2 =>
    by_cases he : e = e'
    · subst he
      simp [setEng_engs] at hl
    · simp [setEng_engs, he] at hl; exact Or.inl ⟨hl, fun _ hc => he (Label.loadFlag.inj hc).symm⟩
  case visit e' n k done g rest h1 h2 =>
    by_cases he : e = e'
    · subst he; simp [setEng_engs, visit_eq] at hl; exact Or.inl ⟨hl, nofun⟩
    · simp [setEng_engs, he] at hl; exact Or.inl ⟨hl, nofun⟩
  case body e' k done r' h1 h2 =>
    by_cases he : e = e'
    · subst he; simp [setEng_engs, finish_eq] at hl; exact Or.inl ⟨hl, nofun⟩
    · simp [setEng_engs, he] at hl; exact Or.inl ⟨hl, nofun⟩
  all_goals
    simp only [setEng_engs, setJob_engs, dropJob_engs] at hl
    try split at hl
    all_goals first | exact Or.inl ⟨hl, nofun⟩ | (rename_i hh; subst hh; first | exact Or.inl ⟨hl, nofun⟩ | cases hl)

theorem next_le {s s' : Sys V R} {b : Label R} (h : Step ops build s b s') : s.next ≤ s'.next := by
  cases h <;> first | exact Nat.le_refl _ | exact Nat.le_succ _

/-- What is true of the loads of an engine. -/
structure Loads (x : LSys V R) (e : ℕ) : Prop where
  sorted : (x.announced e).Pairwise (· < ·)
  lt : ∀ i ∈ x.announced e, i < x.sys.next
  nodup : (x.completed e).Nodup
  sub : ∀ i ∈ x.completed e, i ∈ x.announced e
  jobs : ∀ j ∈ x.sys.jobs, j.eng = e → j.id ∈ x.announced e ∧ j.id ∉ x.completed e
  flagged : ∀ i r, (x.sys.engs e).loader = some (i, r, .flagged) → i ∈ x.announced e ∧ i ∉ x.completed e
  fresh : ∀ i r p, (x.sys.engs e).loader = some (i, r, p) → p ≠ .flagged → ∀ k ∈ x.announced e, k < i

theorem loads_inv (h : LExec ops build ls x) (e : ℕ) : Loads x e := by
  refine lexec_induct (P := fun _ x => Loads x e) ⟨List.Pairwise.nil, nofun, List.nodup_nil, nofun, nofun, nofun, nofun⟩ ?_ h
  intro ls x a x' hx i hs
  have hI := exec_inv (C108_listeners_change_nothing hx)
  cases hs with
  | @sys b s' hs h1 h2 h3 =>
    have hnext := next_le hs
    by_cases hb : b = .loadFlag e ∧ (s'.engs e).loader ≠ none
    · obtain ⟨rfl, hb⟩ := hb
      obtain ⟨k, r, g1, g2⟩ := flag_step hs
      have g3 := g2.resolve_left hb
      have hf := i.fresh k r _ g1 nofun
      have hk : k ∉ x.completed e := fun hc => absurd (hf k (i.sub k hc)) (Nat.lt_irrefl k)
      refine ⟨?_, ?_, ?_, ?_, ?_, ?_, ?_⟩
      · rw [after_announced_flag x s' g3]
        exact List.pairwise_append.mpr ⟨i.sorted, List.pairwise_singleton _ _, fun a ha b hb => by rw [List.mem_singleton] at hb; rw [hb]; exact hf a ha⟩
      · rw [after_announced_flag x s' g3, after_sys]
        intro n hn
        rcases List.mem_append.mp hn with hn | hn
        · exact lt_of_lt_of_le (i.lt n hn) hnext
        · rw [List.mem_singleton] at hn
          rw [hn]
          exact lt_of_lt_of_le (hI.ids.llt _ _ _ _ g1) hnext
      · rw [after_completed x _ s' (by nofun)]; exact i.nodup
      · rw [after_completed x _ s' (by nofun), after_announced_flag x s' g3]
        exact fun n hn => List.mem_append_left _ (i.sub n hn)
      · rw [after_completed x _ s' (by nofun), after_announced_flag x s' g3, after_sys]
        intro j hj he
        rcases jobs_from hs hj with ⟨k', hk', e1, e2⟩ | ⟨hc, _⟩
        · obtain ⟨p1, p2⟩ := i.jobs k' hk' (e2.trans he)
          rw [e1] at p1 p2
          exact ⟨List.mem_append_left _ p1, p2⟩
        · cases hc
      · rw [after_completed x _ s' (by nofun), after_announced_flag x s' g3, after_sys]
        intro n r' hn
        rw [g3] at hn
        cases hn
        exact ⟨by simp, hk⟩
      · rw [after_sys]
        intro n r' p hn hp
        rw [g3] at hn
        cases hn
        exact absurd rfl hp
    · have k2 : b ≠ .loadFlag e ∨ (s'.engs e).loader = none := by
        by_cases g : b = .loadFlag e
        · right; by_contra hc; exact hb ⟨g, hc⟩
        · exact Or.inl g
      have ha := after_announced x b s' k2
      have hfresh : ∀ i r p, ((x.after b s').sys.engs e).loader = some (i, r, p) → p ≠ .flagged → ∀ k ∈ (x.after b s').announced e, k < i := by
        rw [after_sys, ha]
        intro n r p hn hp k hk
        rcases loader_from hs hn with ⟨q, _⟩ | ⟨_, q, _⟩ | ⟨_, q, _⟩ | ⟨q, _⟩
        · exact i.fresh n r p q hp k hk
        · rw [q]; exact i.lt k hk
        · exact i.fresh n r _ q nofun k hk
        · exact absurd q hp
      have hlt : ∀ i ∈ (x.after b s').announced e, i < (x.after b s').sys.next := by
        rw [after_sys, ha]; exact fun n hn => lt_of_lt_of_le (i.lt n hn) hnext
      have hflag : ∀ n r, (s'.engs e).loader = some (n, r, .flagged) → n ∈ x.announced e ∧ n ∉ x.completed e ∧ ∀ j ∈ x.sys.jobs, j.id ≠ n := by
        intro n r hn
        rcases loader_from hs hn with ⟨q, _⟩ | ⟨q, _⟩ | ⟨q, _⟩ | ⟨_, q1, q2⟩
        · obtain ⟨p1, p2⟩ := i.flagged n r q
          exact ⟨p1, p2, hI.ids.lnew _ _ _ _ q⟩
        · cases q
        · cases q
        · exact absurd ⟨q1, by rw [hn]; nofun⟩ hb
      by_cases hk : ∃ n, b = .jobDone n
      · obtain ⟨n, rfl⟩ := hk
        obtain ⟨j, hj, rfl, hdrop⟩ : ∃ j ∈ x.sys.jobs, j.id = n ∧ ((x.sys.engs j.eng).status = .alive → ∀ k ∈ s'.jobs, k.id ≠ j.id) := by
          cases hs
          case jobDone j q1 q2 q3 => exact ⟨j, q1, rfl, fun _ k hk => (mem_dropJob.mp hk).2⟩
          case jobDoneDead j q1 q2 q3 => exact ⟨j, q1, rfl, fun hc => by rw [q3] at hc; cases hc⟩
        have hjobs : ∀ j ∈ s'.jobs, j.eng = e → j.id ∈ x.announced e ∧ j.id ∉ x.completed e := by
          intro k hk he
          rcases jobs_from hs hk with ⟨k', hk', e1, e2⟩ | ⟨hc, _⟩
          · have := i.jobs k' hk' (e2.trans he)
            rwa [e1] at this
          · cases hc
        by_cases he : (x.sys.engs j.eng).status = .alive ∧ j.eng = e
        · obtain ⟨hal, rfl⟩ := he
          have hcomp : (x.after (.jobDone j.id) s').completed j.eng = x.completed j.eng ++ [j.id] := by
            rw [after_completed_done x s' hI.ids.nodup hj, if_pos hal, Function.update_self]
          obtain ⟨p1, p2⟩ := i.jobs j hj rfl
          refine ⟨by rw [ha]; exact i.sorted, hlt, ?_, ?_, ?_, ?_, hfresh⟩
          · rw [hcomp]
            exact List.nodup_append.mpr ⟨i.nodup, List.nodup_singleton _, fun a ha b hb hab => p2 (by rw [List.mem_singleton] at hb; rw [← hb, ← hab]; exact ha)⟩
          · rw [hcomp, ha]
            intro n hn
            rcases List.mem_append.mp hn with hn | hn
            · exact i.sub n hn
            · rw [List.mem_singleton] at hn; rw [hn]; exact p1
          · rw [hcomp, ha, after_sys]
            intro k hk he
            obtain ⟨q1, q2⟩ := hjobs k hk he
            refine ⟨q1, fun hc => ?_⟩
            rcases List.mem_append.mp hc with hc | hc
            · exact q2 hc
            · rw [List.mem_singleton] at hc; exact hdrop hal k hk hc
          · rw [hcomp, ha, after_sys]
            intro n r hn
            obtain ⟨q1, q2, q3⟩ := hflag n r hn
            refine ⟨q1, fun hc => ?_⟩
            rcases List.mem_append.mp hc with hc | hc
            · exact q2 hc
            · rw [List.mem_singleton] at hc; exact q3 j hj hc.symm
        · have hcomp : (x.after (.jobDone j.id) s').completed e = x.completed e := by
            rw [after_completed_done x s' hI.ids.nodup hj]
            split
            case isTrue hal => rw [Function.update_of_ne]; exact fun hc => he ⟨hal, hc.symm⟩
            · rfl
          refine ⟨by rw [ha]; exact i.sorted, hlt, by rw [hcomp]; exact i.nodup, by rw [hcomp, ha]; exact i.sub, ?_, ?_, hfresh⟩
          · rw [hcomp, ha, after_sys]; exact hjobs
          · rw [hcomp, ha, after_sys]
            exact fun n r hn => ⟨(hflag n r hn).1, (hflag n r hn).2.1⟩
      · have hcomp := congrFun (after_completed x b s' fun n hc => hk ⟨n, hc⟩) e
        refine ⟨by rw [ha]; exact i.sorted, hlt, by rw [hcomp]; exact i.nodup, by rw [hcomp, ha]; exact i.sub, ?_, ?_, hfresh⟩
        · rw [hcomp, ha, after_sys]
          intro k hk he
          rcases jobs_from hs hk with ⟨k', hk', e1, e2⟩ | ⟨_, r, hc⟩
          · have := i.jobs k' hk' (e2.trans he)
            rwa [e1] at this
          · rw [he] at hc
            exact i.flagged _ _ hc
        · rw [hcomp, ha, after_sys]
          exact fun n r hn => ⟨(hflag n r hn).1, (hflag n r hn).2.1⟩
  | tellLoadIR => exact ⟨i.sorted, i.lt, i.nodup, i.sub, i.jobs, i.flagged, i.fresh⟩
  | tellMessages => exact ⟨i.sorted, i.lt, i.nodup, i.sub, i.jobs, i.flagged, i.fresh⟩
  | register => exact ⟨i.sorted, i.lt, i.nodup, i.sub, i.jobs, i.flagged, i.fresh⟩
  | unregister => exact ⟨i.sorted, i.lt, i.nodup, i.sub, i.jobs, i.flagged, i.fresh⟩

/-- **C108.** The loads counted in `C108_called_once_for_each_load` are different ones, and those that have been delivered or refused are among those that have begun. -/
theorem C108_loads_are_counted_once (h : LExec ops build ls x) (e : ℕ) :
    (x.announced e).Pairwise (· < ·) ∧ (x.completed e).Nodup ∧ ∀ i ∈ x.completed e, i ∈ x.announced e :=
  ⟨(loads_inv h e).sorted, (loads_inv h e).nodup, (loads_inv h e).sub⟩

/-! ## Removed listeners -/

/-- **C108.** A listener that has been removed is not called any more, not even in a round of calls that has begun, until it is added again. -/
theorem C108_removed_is_not_called {e l : ℕ} (h : LExec ops build ls x) (hs : LStep ops build x (.unregister e l) x') {x'' : LSys V R}
    (hr : LRun ops build x' ls' x'') (hn : .register e l ∉ ls') : callsOf e l x''.log = callsOf e l x.log := by
  have hd := rounds h
  have h0 : l ∉ x'.regs e ∧ ¬ BeingCalled x' e l ∧ callsOf e l x'.log = callsOf e l x.log := by
    cases hs with
    | unregister ha =>
      refine ⟨?_, ?_, rfl⟩
      · simp only [Function.update_self]
        exact fun hc => absurd rfl ((List.Nodup.mem_erase_iff (hd.regs e)).mp hc).1
      · rintro (hc | ⟨hc1, hc2⟩)
        · simp only [Function.update_self] at hc
          exact absurd rfl ((List.Nodup.mem_erase_iff (hd.loud e)).mp hc).1
        · simp only at hc1 hc2
          split at hc2
          · exact absurd rfl ((List.Nodup.mem_erase_iff hd.msg).mp hc2).1
          case isFalse he => rw [if_neg he] at hc1; exact he hc1
  obtain ⟨h1, h2, h3⟩ := h0
  rw [← h3]
  clear h3 hs h hd
  induction hr with
  | nil => rfl
  | @cons a b c m ms hs t ih =>
    have hm : m ≠ .register e l := fun hc => hn (by rw [hc]; simp)
    have hn' : .register e l ∉ ms := fun hc => hn (List.mem_cons_of_mem _ hc)
    cases hs with
    | @sys k s' hs g1 g2 g3 =>
      have r1 : l ∉ (a.after k s').regs e := by
        by_cases hk : k = .destroy e
        · subst hk; rw [after_regs_destroy]; exact List.not_mem_nil
        · rw [after_regs a k s' hk]; exact h1
      rw [ih hn' r1 ?_, after_log]
      rintro (hc | ⟨hc1, hc2⟩)
      · rcases after_loud a k s' e with q | ⟨_, q, _⟩ <;> rw [q] at hc
        · exact h2 (Or.inl hc)
        · exact h1 hc
      · by_cases hk : k = .async
        · subst hk
          obtain ⟨e', rest, hr⟩ : ∃ e' rest, a.sys.async = e' :: rest := by cases hs <;> exact ⟨_, _, ‹_›⟩
          rw [after_msg_async a s' hr] at hc1 hc2
          simp only at hc1 hc2
          rw [hc1] at hc2
          exact h1 hc2
        · rw [after_msg a s' hk] at hc1 hc2
          exact h2 (Or.inr ⟨hc1, hc2⟩)
    | @tellLoadIR e' l' rest hq =>
      have hne : ¬ (e' = e ∧ l' = l) := by
        rintro ⟨rfl, rfl⟩
        exact h2 (Or.inl (by rw [hq]; simp))
      rw [ih hn' h1 ?_, callsOf_append, callsOf_one, if_neg hne, List.append_nil]
      rintro (hc | hc)
      · simp only [Function.update_apply] at hc
        split at hc
        case isTrue he => subst he; exact h2 (Or.inl (by rw [hq]; exact List.mem_cons_of_mem _ hc))
        · exact h2 (Or.inl hc)
      · exact h2 (Or.inr hc)
    | @tellMessages l' rest hq =>
      have hne : ¬ (a.msg.1 = e ∧ l' = l) := by
        rintro ⟨k1, rfl⟩
        exact h2 (Or.inr ⟨k1, by rw [hq]; simp⟩)
      rw [ih hn' h1 ?_, callsOf_append, callsOf_one, if_neg hne, List.append_nil]
      rintro (hc | ⟨hc1, hc2⟩)
      · exact h2 (Or.inl hc)
      · exact h2 (Or.inr ⟨hc1, by rw [hq]; exact List.mem_cons_of_mem _ hc2⟩)
    | @register e' l' ha =>
      have hne : ¬ (e' = e ∧ l' = l) := fun hc => hm (by rw [hc.1, hc.2])
      rw [ih hn' ?_ h2]
      simp only [Function.update_apply]
      split
      case isTrue he =>
        subst he
        split
        · exact h1
        · simp only [List.mem_append, List.mem_singleton, not_or]
          exact ⟨h1, fun hc => hne ⟨rfl, hc.symm⟩⟩
      · exact h1
    | @unregister e' l' ha =>
      rw [ih hn' ?_ ?_]
      · simp only [Function.update_apply]
        split
        case isTrue he => subst he; exact fun hc => h1 (List.mem_of_mem_erase hc)
        · exact h1
      · rintro (hc | ⟨hc1, hc2⟩)
        · simp only [Function.update_apply] at hc
          split at hc
          case isTrue he => subst he; exact h2 (Or.inl (List.mem_of_mem_erase hc))
          · exact h2 (Or.inl hc)
        · simp only at hc1 hc2
          split at hc2
          case isTrue he => exact h2 (Or.inr ⟨by rw [if_pos he] at hc1; rw [he]; exact hc1, List.mem_of_mem_erase hc2⟩)
          case isFalse he => rw [if_neg he] at hc1; exact h2 (Or.inr ⟨hc1, hc2⟩)

/-! ## Rounds of calls come to an end -/

theorem drain_loud (x : LSys V R) (e : ℕ) : ∃ ls x', LRun ops build x ls x' ∧ sysSteps ls = [] ∧ x'.sys = x.sys ∧ x'.regs = x.regs ∧ x'.msg = x.msg ∧ x'.loud e = [] := by
  generalize hq : x.loud e = q
  induction q generalizing x with
  | nil => exact ⟨[], x, .nil x, rfl, rfl, rfl, rfl, hq⟩
  | cons l rest ih =>
    obtain ⟨ls, x', h1, h2, h3, h4, h5, h6⟩ := ih { x with
        loud := Function.update x.loud e rest
        log := x.log ++ [⟨e, l, .loadIR, (x.sys.engs e).loading⟩] } (by simp)
    exact ⟨_, x', .cons (.tellLoadIR hq) h1, h2, h3, h4, h5, h6⟩

theorem drain_messages (x : LSys V R) : ∃ ls x', LRun ops build x ls x' ∧ sysSteps ls = [] ∧ x'.sys = x.sys ∧ x'.regs = x.regs ∧ x'.loud = x.loud ∧ x'.msg.2 = [] := by
  generalize hq : x.msg.2 = q
  induction q generalizing x with
  | nil => exact ⟨[], x, .nil x, rfl, rfl, rfl, rfl, hq⟩
  | cons l rest ih =>
    obtain ⟨ls, x', h1, h2, h3, h4, h5, h6⟩ := ih { x with
        msg := (x.msg.1, rest)
        log := x.log ++ [⟨x.msg.1, l, .messages, (x.sys.engs x.msg.1).loading⟩] } rfl
    exact ⟨_, x', .cons (.tellMessages hq) h1, h2, h3, h4, h5, h6⟩

/-- **C108.** Nothing the system can do without listeners becomes impossible: any step can be taken after a number of calls of listeners, if there are any to be called at all. -/
theorem C108_listeners_prevent_nothing {l : Label R} {s' : Sys V R} (hs : Step ops build x.sys l s') :
    ∃ ls x₁ x', LRun ops build x ls x₁ ∧ sysSteps ls = [] ∧ x₁.sys = x.sys ∧ x₁.regs = x.regs ∧ LStep ops build x₁ (.sys l) x' ∧ x'.sys = s' := by
  obtain ⟨ls1, y, a1, a2, a3, a4, a5⟩ := drain_messages (ops := ops) (build := build) x
  by_cases hl : ∃ e, l = .loadAdd e
  · obtain ⟨e, rfl⟩ := hl
    obtain ⟨ls2, z, b1, b2, b3, b4, b5, b6⟩ := drain_loud (ops := ops) (build := build) y e
    refine ⟨ls1 ++ ls2, z, _, LRun.append a1 b1, by rw [sysSteps_append, a2, b2]; rfl, by rw [b3, a3], by rw [b4, a4],
      .sys (s' := s') (by rw [b3, a3]; exact hs) ?_ nofun nofun, after_sys ..⟩
    intro e' he
    rw [← Label.loadAdd.inj he]
    exact b6
  · exact ⟨ls1, y, _, a1, a2, a3, a4, .sys (s' := s') (by rw [a3]; exact hs) (fun e he => absurd ⟨e, he⟩ hl) (fun _ => a5.2) (fun _ _ _ => a5.2), after_sys ..⟩

end Zones.Props
