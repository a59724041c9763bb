import Verif.Proofs.EngineProgress
import Verif.Proofs.EngineRecord
import Verif.Spec.Fair
import Mathlib.Algebra.BigOperators.Group.Finset.Basic

/-! Endless behaviours: what must finally happen if the scheduler is fair. -/

open Zones.Model Zones.Spec

namespace Zones.Proofs

variable {V R : Type} {ops : ConvOps V} {build : R → ProcSpec → V}

set_option linter.unusedSimpArgs false
set_option linter.unusedVariables false

/-! ## Behaviours are runs -/

theorem during_run (b : Behaviour ops build) (n : ℕ) : ∀ k, Run ops build (b.state n) (b.during n k) (b.state (n + k))
  | 0 => .nil _
  | k + 1 => by
    refine Run.append (during_run b n k) ?_
    cases ha : b.act (n + k) with
    | none => rw [← Nat.add_assoc, b.rest _ ha]; exact .nil _
    | some l => exact Run.single (b.step _ _ ha)

theorem upTo_exec (b : Behaviour ops build) (n : ℕ) : Exec ops build (b.upTo n) (b.state n) := by
  have := during_run b 0 n
  rw [b.start, Nat.zero_add] at this
  exact this

theorem during_add (b : Behaviour ops build) (n k : ℕ) : ∀ m, b.during n (k + m) = b.during n k ++ b.during (n + k) m
  | 0 => by rw [Nat.add_zero]; exact (List.append_nil _).symm
  | m + 1 => by
    show b.during n (k + m) ++ (b.act (n + (k + m))).toList = b.during n k ++ (b.during (n + k) m ++ (b.act (n + k + m)).toList)
    rw [during_add b n k m, List.append_assoc, Nat.add_assoc]

theorem upTo_add (b : Behaviour ops build) (n k : ℕ) : b.upTo (n + k) = b.upTo n ++ b.during n k := by
  unfold Behaviour.upTo
  rw [during_add, Nat.zero_add]

theorem mem_during {b : Behaviour ops build} {n : ℕ} {l : Label R} : ∀ {k}, l ∈ b.during n k ↔ ∃ i, i < k ∧ b.act (n + i) = some l
  | 0 => by simp [Behaviour.during]
  | k + 1 => by
    show l ∈ b.during n k ++ _ ↔ _
    rw [List.mem_append, mem_during, Option.mem_toList]
    constructor
    · rintro (⟨i, h1, h2⟩ | h)
      · exact ⟨i, by omega, h2⟩
      · exact ⟨k, by omega, h⟩
    · rintro ⟨i, h1, h2⟩
      rcases Nat.lt_succ_iff_lt_or_eq.mp h1 with h | h
      · exact Or.inl ⟨i, h, h2⟩
      · subst h; exact Or.inr h2

/-- What every step preserves holds from then on. -/
theorem always {b : Behaviour ops build} {P : Sys V R → Prop} {n : ℕ} (h0 : P (b.state n))
    (hs : ∀ m, n ≤ m → ∀ l, b.act m = some l → P (b.state m) → P (b.state (m + 1))) : ∀ m, n ≤ m → P (b.state m) := by
  intro m hm
  induction m, hm using Nat.le_induction with
  | base => exact h0
  | succ m hm ih =>
    cases ha : b.act m with
    | none => rw [b.rest m ha]; exact ih
    | some l => exact hs m hm l ha ih

/-- A rank that steps of `T` lower and others do not raise gets to zero, if `T` is treated fairly and can make a step while the rank is not zero. -/
theorem rank_zero {b : Behaviour ops build} {T : Label R → Prop} (hf : b.Fair T) (rank : Sys V R → ℕ) {n : ℕ}
    (hT : ∀ m, n ≤ m → ∀ l, b.act m = some l → T l → rank (b.state m) ≠ 0 → rank (b.state (m + 1)) < rank (b.state m))
    (ho : ∀ m, n ≤ m → ∀ l, b.act m = some l → ¬ T l → rank (b.state m) ≠ 0 → rank (b.state (m + 1)) ≤ rank (b.state m))
    (he : ∀ m, n ≤ m → rank (b.state m) ≠ 0 → ∃ l, T l ∧ Enabled ops build (b.state m) l) : ∃ m, n ≤ m ∧ rank (b.state m) = 0 := by
  have key : ∀ r n', n ≤ n' → rank (b.state n') ≤ r → ∃ m, n' ≤ m ∧ rank (b.state m) = 0 := by
    intro r
    induction r with
    | zero => exact fun n' _ h => ⟨n', le_rfl, by omega⟩
    | succ r ih =>
      intro n' hn hr
      by_contra hno
      push Not at hno
      obtain ⟨m, hm, l, hl, hTl⟩ := hf n' fun m hm => he m (by omega) (hno m hm)
      have hle : ∀ m', n' ≤ m' → rank (b.state m') ≤ rank (b.state n') := by
        intro m' hm'
        induction m', hm' using Nat.le_induction with
        | base => exact le_rfl
        | succ m' hm' ih' =>
          cases ha : b.act m' with
          | none => rw [b.rest m' ha]; exact ih'
          | some l' =>
            by_cases hT' : T l'
            · exact le_trans (le_of_lt (hT m' (by omega) l' ha hT' (hno m' hm'))) ih'
            · exact le_trans (ho m' (by omega) l' ha hT' (hno m' hm')) ih'
      have h1 := hT m (by omega) l hl hTl (hno m hm)
      have h2 := hle m hm
      obtain ⟨m2, h3, h4⟩ := ih (m + 1) (by omega) (by omega)
      exact hno m2 (by omega) h4
  obtain ⟨m, h1, h2⟩ := key _ n le_rfl le_rfl
  exact ⟨m, h1, h2⟩

/-! ## The work left to loads -/

/-- Steps a job has left. -/
def jobLeft (j : Job V R) : ℕ := match j.pc with
  | .queued => 5
  | .building => 4
  | .built _ => 3
  | .locked _ => 2
  | .pushed => 1

/-- Steps a `LoadIR` call and its job have left. -/
def loaderLeft : Option (ℕ × R × LPc) → ℕ
  | none => 0
  | some (_, _, .locked) => 8
  | some (_, _, .removed) => 7
  | some (_, _, .flagged) => 6

def loadLeft (E : Finset ℕ) (s : Sys V R) : ℕ := (∑ e ∈ E, loaderLeft (s.engs e).loader) + (s.jobs.map jobLeft).sum

theorem sum_setJob {s : Sys V R} (hn : (s.jobs.map Job.id).Nodup) {j j' : Job V R} (hj : j ∈ s.jobs) (hid : j'.id = j.id) :
    ((s.setJob j').jobs.map jobLeft).sum + jobLeft j = (s.jobs.map jobLeft).sum + jobLeft j' := by
  unfold Sys.setJob
  simp only
  generalize s.jobs = js at hn hj ⊢
  rw [hid]
  induction js with
  | nil => cases hj
  | cons a as ih =>
    simp only [List.map_cons, List.nodup_cons] at hn ⊢
    by_cases ha : a.id = j.id
    · have hnot : ∀ b ∈ as, b.id ≠ j.id := fun b hb he => hn.1 (List.mem_map.mpr ⟨b, hb, by rw [he, ha]⟩)
      have haj : a = j := by
        rcases List.mem_cons.mp hj with h | h
        · exact h.symm
        · exact absurd rfl (hnot j h)
      have e : (as.map fun i => if i.id = j.id then j' else i) = as := by
        conv_rhs => rw [← List.map_id as]
        exact List.map_congr_left fun b hb => by rw [if_neg (hnot b hb)]; rfl
      rw [if_pos ha, e, haj]
      simp only [List.sum_cons]
      omega
    · have hj' : j ∈ as := by
        rcases List.mem_cons.mp hj with h | h
        · exact absurd (by rw [h]) ha
        · exact h
      have := ih hn.2 hj'
      rw [if_neg ha]
      simp only [List.sum_cons]
      omega

theorem sum_dropJob {s : Sys V R} (hn : (s.jobs.map Job.id).Nodup) {j : Job V R} (hj : j ∈ s.jobs) :
    ((s.dropJob j.id).jobs.map jobLeft).sum + jobLeft j = (s.jobs.map jobLeft).sum := by
  unfold Sys.dropJob
  simp only
  generalize s.jobs = js at hn hj ⊢
  induction js with
  | nil => cases hj
  | cons a as ih =>
    simp only [List.map_cons, List.nodup_cons] at hn
    by_cases ha : a.id = j.id
    · have hnot : ∀ b ∈ as, b.id ≠ j.id := fun b hb he => hn.1 (List.mem_map.mpr ⟨b, hb, by rw [he, ha]⟩)
      have haj : a = j := by
        rcases List.mem_cons.mp hj with h | h
        · exact h.symm
        · exact absurd rfl (hnot j h)
      have e : (as.filter fun i => decide (i.id ≠ j.id)) = as := List.filter_eq_self.mpr fun b hb => by simpa using hnot b hb
      rw [List.filter_cons_of_neg (by simpa using ha), e, haj]
      simp only [List.map_cons, List.sum_cons]
      omega
    · have hj' : j ∈ as := by
        rcases List.mem_cons.mp hj with h | h
        · exact absurd (by rw [h]) ha
        · exact h
      have := ih hn.2 hj'
      rw [List.filter_cons_of_pos (by simpa using ha)]
      simp only [List.map_cons, List.sum_cons]
      omega

theorem sum_removeAll (jobs : List (Job V R)) : ((removeAllJobs jobs).map jobLeft).sum ≤ (jobs.map jobLeft).sum := by
  unfold removeAllJobs
  induction jobs with
  | nil => exact le_rfl
  | cons a as ih =>
    rw [List.filter_cons]
    split_ifs
    · simp only [List.map_cons, List.sum_cons]
      exact Nat.add_le_add le_rfl ih
    · simp only [List.map_cons, List.sum_cons]
      omega

/-- Only engines in `E` have a `LoadIR` call that has the lock. -/
def LoadersIn (E : Finset ℕ) (s : Sys V R) : Prop := ∀ e, (s.engs e).loader ≠ none → e ∈ E

theorem sum_loaders_set {E : Finset ℕ} {s : Sys V R} {e : ℕ} {x : Eng V R} (he : e ∈ E) :
    (∑ i ∈ E, loaderLeft ((s.setEng e x).engs i).loader) + loaderLeft (s.engs e).loader = (∑ i ∈ E, loaderLeft (s.engs i).loader) + loaderLeft x.loader := by
  rw [← Finset.add_sum_erase E _ he, ← Finset.add_sum_erase E (fun i => loaderLeft (s.engs i).loader) he]
  have h1 : ∑ i ∈ E.erase e, loaderLeft ((s.setEng e x).engs i).loader = ∑ i ∈ E.erase e, loaderLeft (s.engs i).loader :=
    Finset.sum_congr rfl fun i hi => by rw [setEng_engs, if_neg (Finset.ne_of_mem_erase hi)]
  have h2 : ((s.setEng e x).engs e) = x := by rw [setEng_engs, if_pos rfl]
  rw [h1, h2]
  omega

theorem loadLeft_set {E : Finset ℕ} {s s' : Sys V R} {e : ℕ} {x : Eng V R} (he : e ∈ E) (h1 : s'.engs = (s.setEng e x).engs) {a c : ℕ}
    (ha : loaderLeft (s.engs e).loader = a) (hc : loaderLeft x.loader = c) :
    loadLeft E s' + a + (s.jobs.map jobLeft).sum = loadLeft E s + c + (s'.jobs.map jobLeft).sum := by
  have := sum_loaders_set (s := s) (x := x) he
  rw [ha, hc] at this
  unfold loadLeft
  rw [h1]
  omega

theorem sum_loaders_same {E : Finset ℕ} {s s' : Sys V R} (h : ∀ e, (s'.engs e).loader = (s.engs e).loader) :
    ∑ i ∈ E, loaderLeft (s'.engs i).loader = ∑ i ∈ E, loaderLeft (s.engs i).loader :=
  Finset.sum_congr rfl fun i _ => by rw [h i]

theorem loader_same_set {s : Sys V R} {e : ℕ} {x : Eng V R} (h : x.loader = (s.engs e).loader) (i : ℕ) : ((s.setEng e x).engs i).loader = (s.engs i).loader := by
  rw [setEng_engs]; split_ifs with hc
  · rw [hc]; exact h
  · rfl

theorem loadLeft_step {E : Finset ℕ} {s s' : Sys V R} {l : Label R} (hs : Step ops build s l s') (hn : (s.jobs.map Job.id).Nodup) (hE : LoadersIn E s)
    (hal : ∀ j ∈ s.jobs, (s.engs j.eng).status = .alive) (hl : ∀ e req, l ≠ .loadLock e req) :
    (loadingSteps l → loadLeft E s' < loadLeft E s) ∧ (¬ loadingSteps l → loadLeft E s' = loadLeft E s) := by
  have dead : ∀ {j : Job V R}, j ∈ s.jobs → (s.engs j.eng).status = .dead → False := fun hj hd => by
    have := hal _ hj; rw [hd] at this; cases this
  have same : ∀ {s1 : Sys V R}, (∀ e, (s1.engs e).loader = (s.engs e).loader) → s1.jobs = s.jobs → loadLeft E s1 = loadLeft E s := by
    intro s1 h1 h2
    unfold loadLeft
    rw [sum_loaders_same h1, h2]
  by_cases hq : Label.quiet l = true
  · obtain ⟨q1, _, q3⟩ := step_quiet hs hq
    refine ⟨fun h => ?_, fun _ => same (fun e => (q3 e).loader) q1⟩
    cases l <;> first | exact h.elim | cases hq
  cases hs <;> try (exact absurd rfl hq)
  case create e h => exact ⟨fun h => h.elim, fun _ => same (loader_same_set rfl) rfl⟩
  case loadLock e req h hm => exact absurd rfl (hl _ _)
  case loadRemove e i req h =>
    refine ⟨fun _ => ?_, fun h => absurd trivial h⟩
    have h1 := loadLeft_set (s := s) (s' := { s.setEng e { s.engs e with loader := some (i, req, .removed) } with jobs := removeAllJobs s.jobs })
      (hE e (by rw [h]; simp)) rfl (a := 8) (c := 7) (by rw [h]; rfl) rfl
    have h2 : ((({ s.setEng e { s.engs e with loader := some (i, req, .removed) } with jobs := removeAllJobs s.jobs } : Sys V R).jobs).map jobLeft).sum ≤
        (s.jobs.map jobLeft).sum := sum_removeAll s.jobs
    omega
  case loadFlag e i req h hsp =>
    refine ⟨fun _ => ?_, fun h => absurd trivial h⟩
    have h1 := loadLeft_set (s := s) (s' := s.setEng e { s.engs e with
          loader := some (i, req, .flagged)
          loading := true
          notified := (s.engs e).notified ++ [true] })
      (hE e (by rw [h]; simp)) rfl (a := 7) (c := 6) (by rw [h]; rfl) rfl
    rw [setEng_jobs] at h1
    omega
  case loadSkip e i req h hsp =>
    refine ⟨fun _ => ?_, fun h => absurd trivial h⟩
    have h1 := loadLeft_set (s := s) (s' := s.setEng e { s.engs e with loader := none })
      (hE e (by rw [h]; simp)) rfl (a := 7) (c := 0) (by rw [h]; rfl) rfl
    rw [setEng_jobs] at h1
    omega
  case loadAdd e i req p h hsp =>
    refine ⟨fun _ => ?_, fun h => absurd trivial h⟩
    have h1 := loadLeft_set (s := s) (s' := { s.setEng e { s.engs e with loader := none } with jobs := s.jobs ++ [(⟨i, e, req, p, false, .queued⟩ : Job V R)] })
      (hE e (by rw [h]; simp)) rfl (a := 6) (c := 0) (by rw [h]; rfl) rfl
    have h2 : ((({ s.setEng e { s.engs e with loader := none } with jobs := s.jobs ++ [(⟨i, e, req, p, false, .queued⟩ : Job V R)] } : Sys V R).jobs).map jobLeft).sum =
        (s.jobs.map jobLeft).sum + 5 := by
      show ((s.jobs ++ [(⟨i, e, req, p, false, .queued⟩ : Job V R)]).map jobLeft).sum = _
      rw [List.map_append, List.sum_append]; rfl
    omega
  case pick j h =>
    refine ⟨fun _ => ?_, fun h => absurd trivial h⟩
    obtain ⟨h1, h2⟩ := mem_of_find h
    have := sum_setJob hn h1 (j' := { j with pc := .building }) rfl
    unfold loadLeft
    simp only [jobLeft, h2, setJob_engs] at this ⊢
    omega
  case build j h hj =>
    refine ⟨fun _ => ?_, fun h => absurd trivial h⟩
    have := sum_setJob hn h (j' := { j with pc := .built (build j.req j.spec) }) rfl
    unfold loadLeft
    rw [sum_loaders_same (s := s) (fun e => loader_same_set (s := s.setJob _) (by rfl) e)]
    simp only [jobLeft, hj, setEng_jobs] at this ⊢
    omega
  case jobLock j v h hj ha hm =>
    refine ⟨fun _ => ?_, fun h => absurd trivial h⟩
    have := sum_setJob hn h (j' := { j with pc := .locked v }) rfl
    unfold loadLeft
    rw [sum_loaders_same (s := s) (fun e => loader_same_set (s := s.setJob _) (by rfl) e)]
    simp only [jobLeft, hj, setEng_jobs] at this ⊢
    omega
  case jobLockDead j v h hj ha => exact (dead h ha).elim
  case jobStop j v h hj ha hst =>
    refine ⟨fun _ => ?_, fun h => absurd trivial h⟩
    have := sum_dropJob hn h
    unfold loadLeft
    rw [sum_loaders_same (s := s) (fun e => loader_same_set (s := s.dropJob _) (by rfl) e)]
    simp only [jobLeft, hj, setEng_jobs] at this ⊢
    omega
  case jobPush j v h hj ha hst hroom =>
    refine ⟨fun _ => ?_, fun h => absurd trivial h⟩
    have := sum_setJob hn h (j' := { j with pc := .pushed }) rfl
    unfold loadLeft
    rw [sum_loaders_same (s := s) (fun e => loader_same_set (s := s.setJob _) (by rfl) e)]
    simp only [jobLeft, hj, setEng_jobs] at this ⊢
    omega
  case jobRefused j v h hj ha hst hfull =>
    refine ⟨fun _ => ?_, fun h => absurd trivial h⟩
    have := sum_setJob hn h (j' := { j with pc := .pushed }) rfl
    unfold loadLeft
    rw [sum_loaders_same (s := s) (fun e => loader_same_set (s := s.setJob _) (by rfl) e)]
    simp only [jobLeft, hj, setEng_jobs] at this ⊢
    omega
  case jobCheckDead j v h hj ha => exact (dead h ha).elim
  case jobDone j h hj ha =>
    refine ⟨fun _ => ?_, fun h => absurd trivial h⟩
    have := sum_dropJob hn h
    unfold loadLeft
    rw [sum_loaders_same (s := s) (fun e => loader_same_set (s := s.dropJob _) (by rfl) e)]
    simp only [jobLeft, hj, setEng_jobs] at this ⊢
    omega
  case jobDoneDead j h hj ha => exact (dead h ha).elim
  case destroy e ha h hl hb => exact ⟨fun h => h.elim, fun _ => same (loader_same_set rfl) rfl⟩

theorem loaders_step {E : Finset ℕ} {s s' : Sys V R} {l : Label R} (hs : Step ops build s l s') (hE : LoadersIn E s) :
    ∃ E', LoadersIn E' s' ∧ ((∀ e req, l ≠ .loadLock e req) → E' = E) := by
  have mono : (∀ e, (s'.engs e).loader ≠ none → (s.engs e).loader ≠ none) → ∃ E', LoadersIn E' s' ∧ ((∀ e req, l ≠ .loadLock e req) → E' = E) :=
    fun h => ⟨E, fun e he => hE e (h e he), fun _ => rfl⟩
  have same : (∀ e, (s'.engs e).loader = (s.engs e).loader) → ∃ E', LoadersIn E' s' ∧ ((∀ e req, l ≠ .loadLock e req) → E' = E) :=
    fun h => mono fun e he => by rw [← h e]; exact he
  by_cases hq : Label.quiet l = true
  · exact same fun e => (((step_quiet hs hq).2.2) e).loader
  cases hs <;> try (exact absurd rfl hq)
  case loadLock e req h hm =>
    refine ⟨insert e E, fun i hi => ?_, fun h => absurd rfl (h _ _)⟩
    by_cases hc : i = e
    · rw [hc]; exact Finset.mem_insert_self ..
    · refine Finset.mem_insert_of_mem (hE i ?_)
      have : (({ s.setEng e { s.engs e with loader := some (s.next, req, .locked) } with next := s.next + 1 } : Sys V R).engs i) = s.engs i := by
        show ((s.setEng e _).engs i) = _
        rw [setEng_engs, if_neg hc]
      rw [this] at hi
      exact hi
  case loadRemove e i req h =>
    refine mono fun i hi => ?_
    by_cases hc : i = e
    · rw [hc, h]; simp
    · have : ∀ x, ((s.setEng e x).engs i) = s.engs i := fun x => by rw [setEng_engs, if_neg hc]
      rw [← this]; exact hi
  case loadFlag e i req h hsp =>
    refine mono fun i hi => ?_
    by_cases hc : i = e
    · rw [hc, h]; simp
    · have : ∀ x, ((s.setEng e x).engs i) = s.engs i := fun x => by rw [setEng_engs, if_neg hc]
      rw [← this]; exact hi
  case loadSkip e i req h hsp =>
    refine mono fun i hi => ?_
    by_cases hc : i = e
    · rw [hc, h]; simp
    · have : ∀ x, ((s.setEng e x).engs i) = s.engs i := fun x => by rw [setEng_engs, if_neg hc]
      rw [← this]; exact hi
  case loadAdd e i req p h hsp =>
    refine mono fun i hi => ?_
    by_cases hc : i = e
    · rw [hc, h]; simp
    · have : ∀ x, ((s.setEng e x).engs i) = s.engs i := fun x => by rw [setEng_engs, if_neg hc]
      rw [← this]; exact hi
  all_goals
    refine same fun i => ?_
    first
      | rfl
      | (show ((Sys.setEng _ _ _).engs i).loader = _
         rw [setEng_engs]
         split_ifs with hc
         · rw [hc]
         · rfl)

theorem loaders_finite {ls : List (Label R)} {s : Sys V R} (h : Exec ops build ls s) : ∃ E : Finset ℕ, LoadersIn E s := by
  refine run_induct (P := fun s => ∃ E : Finset ℕ, LoadersIn E s) ?_ h ⟨∅, fun e he => absurd rfl he⟩
  rintro s l s' ⟨E, hE⟩ hs
  obtain ⟨E', h1, _⟩ := loaders_step hs hE
  exact ⟨E', h1⟩

/-- While a load is under way, one of its steps can be taken. -/
theorem loading_enabled {s : Sys V R} (hI : Inv ops s) (hM : More s) (hal : ∀ j ∈ s.jobs, (s.engs j.eng).status = .alive)
    (hx : (∃ e, (s.engs e).loader ≠ none) ∨ s.jobs ≠ []) : ∃ l : Label R, loadingSteps l ∧ Enabled ops build s l := by
  by_cases hL : ∃ e, (s.engs e).loader ≠ none
  · obtain ⟨e, he⟩ := hL
    cases hl : (s.engs e).loader with
    | none => exact absurd hl he
    | some q =>
      obtain ⟨i, req, pc⟩ := q
      cases pc with
      | locked => exact ⟨.loadRemove e, trivial, _, .loadRemove hl⟩
      | removed =>
        by_cases hsp : (s.engs e).core.spec = none
        · exact ⟨.loadFlag e, trivial, _, .loadSkip hl hsp⟩
        · exact ⟨.loadFlag e, trivial, _, .loadFlag hl hsp⟩
      | flagged =>
        cases hsp : (s.engs e).core.spec with
        | none => exact absurd hsp (hM.flagged _ _ _ hl)
        | some p => exact ⟨.loadAdd e, trivial, _, .loadAdd hl hsp⟩
  · push Not at hL
    have hj : s.jobs ≠ [] := hx.resolve_left fun ⟨e, he⟩ => he (hL e)
    obtain ⟨j, hjm⟩ := List.exists_mem_of_ne_nil _ hj
    have locked : ∀ {k : Job V R} {v : V}, k ∈ s.jobs → k.pc = .locked v → ∃ l : Label R, loadingSteps l ∧ Enabled ops build s l := by
      intro k v hk hpc
      cases hst : k.stop with
      | true => exact ⟨.jobCheck k.id, trivial, _, .jobStop hk hpc (hal k hk) hst⟩
      | false =>
        by_cases hroom : (s.engs k.eng).cmd.length + (s.engs k.eng).cmdTaken < queueRoom
        · exact ⟨.jobCheck k.id, trivial, _, .jobPush hk hpc (hal k hk) hst hroom⟩
        · exact ⟨.jobCheck k.id, trivial, _, .jobRefused hk hpc (hal k hk) hst hroom⟩
    cases hpc : j.pc with
    | queued =>
      cases hf : s.jobs.find? Job.waiting with
      | none => exact absurd (waiting_iff.mpr hpc) (by simpa using List.find?_eq_none.mp hf j hjm)
      | some i => exact ⟨.pick, trivial, _, .pick hf⟩
    | building => exact ⟨.build j.id, trivial, _, .build hjm hpc⟩
    | built v =>
      cases hh : (s.engs j.eng).holder with
      | none => exact ⟨.jobLock j.id, trivial, _, .jobLock hjm hpc (hal j hjm) ⟨hL _, hh⟩⟩
      | some i =>
        obtain ⟨k, hk, _, _, hkh⟩ := hI.locks.hjob _ _ hh
        rcases holds_iff.mp hkh with ⟨w, hw⟩ | hw
        · exact locked hk hw
        · exact ⟨.jobDone k.id, trivial, _, .jobDone hk hw (hal k hk)⟩
    | locked v => exact locked hjm hpc
    | pushed => exact ⟨.jobDone j.id, trivial, _, .jobDone hjm hpc (hal j hjm)⟩

/-- The engines of the jobs stay alive. -/
theorem alive_step {s s' : Sys V R} {l : Label R} (hI : Inv ops s) (hs : Step ops build s l s') (hal : ∀ j ∈ s.jobs, (s.engs j.eng).status = .alive)
    (hd : ∀ e, l = .destroy e → ∀ j ∈ s.jobs, j.eng ≠ e) : ∀ j ∈ s'.jobs, (s'.engs j.eng).status = .alive := by
  have st : ∀ {s1 : Sys V R} {e : ℕ} {x : Eng V R}, x.status = (s1.engs e).status → ∀ i, ((s1.setEng e x).engs i).status = (s1.engs i).status := by
    intro s1 e x h i
    rw [setEng_engs]; split_ifs with hc
    · rw [hc]; exact h
    · rfl
  by_cases hq : Label.quiet l = true
  · obtain ⟨q1, _, q3⟩ := step_quiet hs hq
    rw [q1]
    exact fun j hj => by rw [(q3 _).status]; exact hal j hj
  have keep : ∀ {s1 : Sys V R}, (∀ i, (s1.engs i).status = (s.engs i).status) → (∀ j ∈ s1.jobs, ∃ k ∈ s.jobs, k.eng = j.eng) → ∀ j ∈ s1.jobs, (s1.engs j.eng).status = .alive := by
    intro s1 h1 h2 j hj
    obtain ⟨k, hk, hke⟩ := h2 j hj
    rw [h1, ← hke]; exact hal k hk
  have sj : ∀ {j j' : Job V R}, j ∈ s.jobs → j'.eng = j.eng → ∀ i ∈ (s.setJob j').jobs, ∃ k ∈ s.jobs, k.eng = i.eng := by
    intro j j' hj he i hi
    rcases mem_setJob hi with rfl | h
    · exact ⟨j, hj, he.symm⟩
    · exact ⟨i, h.1, rfl⟩
  have dj : ∀ {n : ℕ}, ∀ i ∈ (s.dropJob n).jobs, ∃ k ∈ s.jobs, k.eng = i.eng := fun i hi => ⟨i, (mem_dropJob.mp hi).1, rfl⟩
  cases hs <;> try (exact absurd rfl hq)
  case create e h =>
    intro j hj
    rw [setEng_engs]; split_ifs with hc
    · rfl
    · exact hal j hj
  case loadLock e req h hm => exact keep (st (s1 := s) rfl) fun j hj => ⟨j, hj, rfl⟩
  case loadRemove e i req h =>
    refine keep (st (s1 := s) rfl) fun j hj => ?_
    obtain ⟨k, hk, _, rfl⟩ := mem_removeAll.mp hj
    exact ⟨k, hk, rfl⟩
  case loadFlag e i req h hsp => exact keep (st (s1 := s) rfl) fun j hj => ⟨j, hj, rfl⟩
  case loadSkip e i req h hsp => exact keep (st (s1 := s) rfl) fun j hj => ⟨j, hj, rfl⟩
  case loadAdd e i req p h hsp =>
    intro j hj
    refine (st (s1 := s) (e := e) (x := { s.engs e with loader := none }) rfl j.eng).trans ?_
    rcases List.mem_append.mp hj with hj | hj
    · exact hal j hj
    · rw [List.mem_singleton] at hj
      subst hj
      exact hI.locks.alive _ (by rw [h]; simp)
  case pick j h =>
    exact keep (fun _ => rfl) (sj (mem_of_find h).1 rfl)
  case build j h hj => exact keep (st (s1 := s.setJob _) rfl) (sj h rfl)
  case jobLock j v h hj ha hm => exact keep (st (s1 := s.setJob _) rfl) (sj h rfl)
  case jobLockDead j v h hj ha => exact keep (st (s1 := s) rfl) fun j hj => ⟨j, hj, rfl⟩
  case jobStop j v h hj ha hst => exact keep (st (s1 := s.dropJob _) rfl) dj
  case jobPush j v h hj ha hst hroom => exact keep (st (s1 := s.setJob _) rfl) (sj h rfl)
  case jobRefused j v h hj ha hst hfull => exact keep (st (s1 := s.setJob _) rfl) (sj h rfl)
  case jobCheckDead j v h hj ha => exact keep (st (s1 := s) rfl) fun j hj => ⟨j, hj, rfl⟩
  case jobDone j h hj ha => exact keep (st (s1 := s.dropJob _) rfl) dj
  case jobDoneDead j h hj ha => exact keep (st (s1 := s) rfl) fun j hj => ⟨j, hj, rfl⟩
  case destroy e ha h hl hb =>
    intro j hj
    rw [setEng_engs, if_neg (hd e rfl j hj)]
    exact hal j hj

/-- All loads come to an end. -/
theorem loads_end {b : Behaviour ops build} (hf : b.Fair loadingSteps) {n : ℕ} (hn : b.NoLoadsFrom n) (hd : b.NoDanglingFrom n) :
    ∃ m, n ≤ m ∧ ∀ m', m ≤ m' → (b.state m').jobs = [] ∧ ∀ e, ((b.state m').engs e).loader = none := by
  obtain ⟨E, hE⟩ := loaders_finite (upTo_exec b n)
  have inv : ∀ m, Inv ops (b.state m) ∧ More (b.state m) := fun m => ⟨exec_inv (upTo_exec b m), exec_more (upTo_exec b m)⟩
  have hE' : ∀ m, n ≤ m → LoadersIn E (b.state m) := always hE fun m hm l hl h => by
    obtain ⟨E', h1, h2⟩ := loaders_step (b.step m l hl) h
    rw [← h2 fun e req hc => hn m hm e req (by rw [hl, hc])]
    exact h1
  have hal : ∀ m, n ≤ m → ∀ j ∈ (b.state m).jobs, ((b.state m).engs j.eng).status = .alive := always (P := fun s => ∀ j ∈ s.jobs, (s.engs j.eng).status = .alive) hd.1 fun m hm l hl h =>
    alive_step (inv m).1 (b.step m l hl) h fun e he => hd.2 m hm e (by rw [hl, he])
  have zero : ∀ m, n ≤ m → (loadLeft E (b.state m) = 0 ↔ (b.state m).jobs = [] ∧ ∀ e, ((b.state m).engs e).loader = none) := by
    intro m hm
    constructor
    · intro h
      unfold loadLeft at h
      rw [Nat.add_eq_zero_iff] at h
      constructor
      · cases hj : (b.state m).jobs with
        | nil => rfl
        | cons j js =>
          rw [hj] at h
          have := h.2
          simp only [List.map_cons, List.sum_cons, Nat.add_eq_zero_iff] at this
          have h1 := this.1
          unfold jobLeft at h1
          cases hp : j.pc <;> rw [hp] at h1 <;> cases h1
      · intro e
        by_contra hc
        have := (Finset.sum_eq_zero_iff.mp h.1) e (hE' m hm e hc)
        cases hl : ((b.state m).engs e).loader with
        | none => exact hc hl
        | some q =>
          obtain ⟨i, r, pc⟩ := q
          rw [hl] at this
          cases pc <;> cases this
    · rintro ⟨h1, h2⟩
      unfold loadLeft
      rw [h1, Finset.sum_eq_zero fun e _ => by rw [h2 e]; rfl]
      rfl
  have stp : ∀ m, n ≤ m → ∀ l, b.act m = some l → (loadingSteps l → loadLeft E (b.state (m + 1)) < loadLeft E (b.state m)) ∧
      (¬ loadingSteps l → loadLeft E (b.state (m + 1)) = loadLeft E (b.state m)) := fun m hm l hl =>
    loadLeft_step (b.step m l hl) (inv m).1.ids.nodup (hE' m hm) (hal m hm) fun e req hc => hn m hm e req (by rw [hl, hc])
  obtain ⟨m, hm, h0⟩ := rank_zero hf (loadLeft E) (n := n) (fun m hm l hl hT _ => (stp m hm l hl).1 hT) (fun m hm l hl hT _ => le_of_eq ((stp m hm l hl).2 hT))
    fun m hm h => loading_enabled (inv m).1 (inv m).2 (hal m hm) (by
      by_contra hc
      push Not at hc
      exact h ((zero m hm).mpr ⟨hc.2, hc.1⟩))
  refine ⟨m, hm, fun m' hm' => (zero m' (by omega)).mp ?_⟩
  exact always (b := b) (P := fun s => loadLeft E s = 0) h0 (fun k hk l hl h => by
    by_cases hT : loadingSteps l
    · have := (stp k (by omega) l hl).1 hT; omega
    · rw [(stp k (by omega) l hl).2 hT]; exact h) m' hm'

end Zones.Proofs
