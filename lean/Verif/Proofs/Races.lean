import Verif.Spec.Races
import Verif.Props.EngineSys

/-! What orders the accesses. -/

open Zones.Model Zones.Spec Zones.Props

namespace Zones.Proofs

variable {V R : Type}

set_option linter.unusedSimpArgs false
set_option linter.unusedVariables false

/-! ## Ordered accesses -/

/-- Every access to `x` so far is, or happens before, a step with property `P`. -/
def By (tr : List (Event V R)) (P : Event V R → Prop) (x : Loc) : Prop :=
  ∀ (k : ℕ) (v : Event V R), tr[k]? = some v → x ∈ v.touches → ∃ (m : ℕ) (w : Event V R), tr[m]? = some w ∧ P w ∧ (k = m ∨ HappensBefore tr k m)

/-- Every access to `x` so far happens before the next step. -/
def Ordered (tr : List (Event V R)) (v : Event V R) (x : Loc) : Prop :=
  ∀ (k : ℕ) (w : Event V R), tr[k]? = some w → x ∈ w.touches → HappensBefore (tr ++ [v]) k tr.length

def Untouched (tr : List (Event V R)) (x : Loc) : Prop := ∀ (k : ℕ) (v : Event V R), tr[k]? = some v → x ∉ v.touches

theorem get_old {tr : List (Event V R)} {v w : Event V R} {k : ℕ} (h : tr[k]? = some w) : (tr ++ [v])[k]? = some w := by
  have hk : k < tr.length := (List.getElem?_eq_some_iff.mp h).1
  rw [List.getElem?_append_left hk, h]

theorem get_new (tr : List (Event V R)) (v : Event V R) : (tr ++ [v])[tr.length]? = some v := by simp

theorem get_cases {tr : List (Event V R)} {v w : Event V R} {k : ℕ} (h : (tr ++ [v])[k]? = some w) : tr[k]? = some w ∨ (k = tr.length ∧ w = v) := by
  rw [List.getElem?_append] at h
  split_ifs at h with hk
  · exact .inl h
  · obtain ⟨h1, h2⟩ := List.getElem?_eq_some_iff.mp h
    have : k - tr.length = 0 := by simpa using h1
    rw [List.getElem?_eq_getElem h1] at h
    simp [this] at h2
    exact .inr ⟨by omega, h2.symm⟩

theorem HappensBefore.old {tr : List (Event V R)} {v : Event V R} {i j : ℕ} (h : HappensBefore tr i j) : HappensBefore (tr ++ [v]) i j := by
  induction h with
  | program h ha hb ht => exact .program h (get_old ha) (get_old hb) ht
  | sync h ha hb h1 h2 => exact .sync h (get_old ha) (get_old hb) h1 h2
  | trans h1 h2 ih1 ih2 => exact .trans ih1 ih2

theorem lt_of_get {tr : List (Event V R)} {w : Event V R} {k : ℕ} (h : tr[k]? = some w) : k < tr.length := (List.getElem?_eq_some_iff.mp h).1

theorem ordered_thread {tr : List (Event V R)} {v : Event V R} {x : Loc} (h : By tr (fun w => w.thread = v.thread) x) : Ordered tr v x := by
  intro k w hk hx
  obtain ⟨m, u, hm, hp, hc⟩ := h k w hk hx
  have hn : HappensBefore (tr ++ [v]) m tr.length := .program (lt_of_get hm) (get_old hm) (get_new tr v) hp
  rcases hc with rfl | hc
  · exact hn
  · exact .trans (HappensBefore.old hc) hn

theorem ordered_token {tr : List (Event V R)} {v : Event V R} {x : Loc} {t : Token} (h : By tr (fun w => t ∈ w.releases) x) (ht : t ∈ v.acquires) : Ordered tr v x := by
  intro k w hk hx
  obtain ⟨m, u, hm, hp, hc⟩ := h k w hk hx
  have hn : HappensBefore (tr ++ [v]) m tr.length := .sync (lt_of_get hm) (get_old hm) (get_new tr v) hp ht
  rcases hc with rfl | hc
  · exact hn
  · exact .trans (HappensBefore.old hc) hn

theorem ordered_new {tr : List (Event V R)} {v : Event V R} {x : Loc} (h : Untouched tr x) : Ordered tr v x := fun k w hk hx => absurd hx (h k w hk)

theorem By.imp {tr : List (Event V R)} {P Q : Event V R → Prop} {x : Loc} (h : By tr P x) (hi : ∀ w, P w → Q w) : By tr Q x := by
  intro k v hk hx
  obtain ⟨m, w, hm, hp, hc⟩ := h k v hk hx
  exact ⟨m, w, hm, hi w hp, hc⟩

theorem By.next {tr : List (Event V R)} {P : Event V R → Prop} {v : Event V R} {x : Loc} (h1 : x ∈ v.touches → Ordered tr v x ∧ P v) (h2 : x ∉ v.touches → By tr P x) :
    By (tr ++ [v]) P x := by
  intro k w hk hx
  by_cases hv : x ∈ v.touches
  · obtain ⟨ho, hp⟩ := h1 hv
    refine ⟨tr.length, v, get_new tr v, hp, ?_⟩
    rcases get_cases hk with h | ⟨h, _⟩
    · exact .inr (ho k w h hx)
    · exact .inl h
  · rcases get_cases hk with h | ⟨h, rfl⟩
    · obtain ⟨m, u, hm, hp, hc⟩ := h2 hv k w h hx
      exact ⟨m, u, get_old hm, hp, hc.imp id HappensBefore.old⟩
    · exact absurd hx hv

theorem Untouched.next {tr : List (Event V R)} {v : Event V R} {x : Loc} (h1 : x ∉ v.touches) (h2 : Untouched tr x) : Untouched (tr ++ [v]) x := by
  intro k w hk
  rcases get_cases hk with h | ⟨h, rfl⟩
  · exact h2 k w h
  · exact h1

/-! ## Steps -/

theorem inSlots_eq (x : Eng V R) : Event.inSlots x = slots x.core := by
  unfold Event.inSlots slots
  simp only [List.map_append, toList_ids]

/-- The step is part of an audio-side call of engine `e`. -/
def Label.ofAudio (e : ℕ) : Label R → Prop
  | .call e' _ | .service e' | .visit e' | .serviced e' | .body e' => e' = e
  | _ => False

/-- The step is done by the worker that runs the job of load `i`. -/
def Label.ofWorker (i : ℕ) : Label R → Prop
  | .build i' | .jobLock i' | .jobCheck i' | .jobDone i' => i' = i
  | _ => False

/-- Who accesses a convolver. -/
theorem conv_touch {ops : ConvOps V} {build : R → ProcSpec → V} {s s' : Sys V R} {l : Label R} (hs : Step ops build s l s') {i : ℕ}
    (hx : Loc.convolver i ∈ Event.touches ⟨s, l, s'⟩) :
    (Label.ofWorker i l ∧ ∃ j ∈ s.jobs, j.id = i ∧ (j.pc = .building ∧ l = .build i ∨ Job.carries j = true)) ∨
    (∃ e, Label.ofAudio e l ∧ i ∈ slots (s.engs e).core) ∨
    (∃ e h rest, l = .visit e ∧ (s.engs e).cmd = h :: rest ∧ h.id = i) ∨
    (∃ e h rest, l = .bgVisit e ∧ (s.engs e).ntf = some h :: rest ∧ h.id = i) ∨
    (∃ e, l = .destroy e ∧ i ∈ (s.engs e).holding.map Held.id) := by
  have hcarry : ∀ {j : Job V R} {v : V}, j.pc = .built v ∨ j.pc = .locked v → Job.carries j = true := fun h => carries_iff.mpr (h.imp (fun h => ⟨_, h⟩) (fun h => ⟨_, h⟩))
  cases hs <;> simp only [Event.touches, inSlots_eq] at hx
  case create e h1 => simp at hx
  case loadLock => simp at hx
  case loadRemove => simp at hx
  case loadFlag => simp at hx
  case loadSkip => simp at hx
  case loadAdd e i' req p h1 h2 => rw [h1] at hx; simp at hx
  case pick j h1 => rw [h1] at hx; simp at hx
  case build j h1 h2 =>
    obtain rfl : i = j.id := by simpa using hx
    exact .inl ⟨rfl, j, h1, rfl, .inl ⟨h2, rfl⟩⟩
  case jobLock j v h1 h2 h3 h4 =>
    obtain rfl : i = j.id := by simpa using hx
    exact .inl ⟨rfl, j, h1, rfl, .inr (hcarry (.inl h2))⟩
  case jobLockDead j v h1 h2 h3 =>
    obtain rfl : i = j.id := by simpa using hx
    exact .inl ⟨rfl, j, h1, rfl, .inr (hcarry (.inl h2))⟩
  case jobStop j v h1 h2 h3 h4 =>
    obtain rfl : i = j.id := by simpa using hx
    exact .inl ⟨rfl, j, h1, rfl, .inr (hcarry (.inr h2))⟩
  case jobPush j v h1 h2 h3 h4 h5 =>
    obtain rfl : i = j.id := by simpa using hx
    exact .inl ⟨rfl, j, h1, rfl, .inr (hcarry (.inr h2))⟩
  case jobRefused j v h1 h2 h3 h4 h5 =>
    obtain rfl : i = j.id := by simpa using hx
    exact .inl ⟨rfl, j, h1, rfl, .inr (hcarry (.inr h2))⟩
  case jobCheckDead j v h1 h2 h3 =>
    obtain rfl : i = j.id := by simpa using hx
    exact .inl ⟨rfl, j, h1, rfl, .inr (hcarry (.inr h2))⟩
  case jobDone => simp at hx
  case jobDoneDead => simp at hx
  case call e k h1 h2 => exact .inr (.inl ⟨e, rfl, by simpa using hx⟩)
  case service e k h1 => exact .inr (.inl ⟨e, rfl, by simpa using hx⟩)
  case serviced e k d h1 => exact .inr (.inl ⟨e, rfl, by simpa using hx⟩)
  case body e k d r h1 h2 => exact .inr (.inl ⟨e, rfl, by simpa using hx⟩)
  case visit e n k d g rest h1 h2 =>
    rw [h2] at hx
    rcases List.mem_append.mp hx with hx | hx
    · exact .inr (.inl ⟨e, rfl, by simpa using hx⟩)
    · exact .inr (.inr (.inl ⟨e, g, rest, rfl, h2, (show i = g.id by simpa using hx).symm⟩))
  case bgBegin => simp at hx
  case bgVisit e n o rest h1 h2 =>
    rw [h2] at hx
    cases o with
    | none => simp at hx
    | some h => exact .inr (.inr (.inr (.inl ⟨e, h, rest, rfl, h2, (show i = h.id by simpa using hx).symm⟩)))
  case bgEnd => simp at hx
  case async => simp at hx
  case asyncDead => simp at hx
  case destroy e h1 h2 h3 h4 => exact .inr (.inr (.inr (.inr ⟨e, rfl, by simpa using hx⟩)))

/-- Who accesses a job. -/
theorem req_touch {ops : ConvOps V} {build : R → ProcSpec → V} {s s' : Sys V R} {l : Label R} (hs : Step ops build s l s') {i : ℕ}
    (hx : Loc.request i ∈ Event.touches ⟨s, l, s'⟩) :
    (Label.ofWorker i l ∧ ∃ j ∈ s.jobs, j.id = i ∧ j.pc ≠ .queued) ∨
    (∃ e req, l = .loadAdd e ∧ (s.engs e).loader = some (i, req, .flagged)) ∨
    ((l = .pick ∨ ∃ e, l = .loadRemove e) ∧ ∃ j ∈ s.jobs, j.id = i ∧ j.pc = .queued) := by
  cases hs <;> simp only [Event.touches, inSlots_eq] at hx
  case create e h1 => simp at hx
  case loadLock => simp at hx
  case loadRemove e i' req h1 =>
    refine .inr (.inr ⟨.inr ⟨e, rfl⟩, ?_⟩)
    obtain ⟨j, hj, hi⟩ := List.mem_map.mp hx
    obtain ⟨h2, h3⟩ := List.mem_filter.mp hj
    exact ⟨j, h2, by simpa using hi, waiting_iff.mp h3⟩
  case loadFlag => simp at hx
  case loadSkip => simp at hx
  case loadAdd e i' req p h1 h2 =>
    rw [h1] at hx
    obtain rfl : i = i' := by simpa using hx
    exact .inr (.inl ⟨e, req, rfl, h1⟩)
  case pick j h1 =>
    rw [h1] at hx
    obtain rfl : i = j.id := by simpa using hx
    exact .inr (.inr ⟨.inl rfl, j, (mem_of_find h1).1, rfl, (mem_of_find h1).2⟩)
  case build j h1 h2 =>
    obtain rfl : i = j.id := by simpa using hx
    exact .inl ⟨rfl, j, h1, rfl, by rw [h2]; nofun⟩
  case jobLock j v h1 h2 h3 h4 =>
    obtain rfl : i = j.id := by simpa using hx
    exact .inl ⟨rfl, j, h1, rfl, by rw [h2]; nofun⟩
  case jobLockDead j v h1 h2 h3 =>
    obtain rfl : i = j.id := by simpa using hx
    exact .inl ⟨rfl, j, h1, rfl, by rw [h2]; nofun⟩
  case jobStop j v h1 h2 h3 h4 =>
    obtain rfl : i = j.id := by simpa using hx
    exact .inl ⟨rfl, j, h1, rfl, by rw [h2]; nofun⟩
  case jobPush j v h1 h2 h3 h4 h5 =>
    obtain rfl : i = j.id := by simpa using hx
    exact .inl ⟨rfl, j, h1, rfl, by rw [h2]; nofun⟩
  case jobRefused j v h1 h2 h3 h4 h5 =>
    obtain rfl : i = j.id := by simpa using hx
    exact .inl ⟨rfl, j, h1, rfl, by rw [h2]; nofun⟩
  case jobCheckDead j v h1 h2 h3 =>
    obtain rfl : i = j.id := by simpa using hx
    exact .inl ⟨rfl, j, h1, rfl, by rw [h2]; nofun⟩
  case jobDone j h1 h2 h3 =>
    obtain rfl : i = j.id := by simpa using hx
    exact .inl ⟨rfl, j, h1, rfl, by rw [h2]; nofun⟩
  case jobDoneDead j h1 h2 h3 =>
    obtain rfl : i = j.id := by simpa using hx
    exact .inl ⟨rfl, j, h1, rfl, by rw [h2]; nofun⟩
  case visit e n k d g rest h1 h2 => rw [h2] at hx; simp at hx
  case bgVisit e n o rest h1 h2 => rw [h2] at hx; cases o <;> simp at hx
  all_goals (simp at hx)

/-- Who accesses the members for the fades. -/
theorem fades_touch {ops : ConvOps V} {build : R → ProcSpec → V} {s s' : Sys V R} {l : Label R} (hs : Step ops build s l s') {e : ℕ}
    (hx : Loc.fades e ∈ Event.touches ⟨s, l, s'⟩) :
    (l = .create e ∧ (s.engs e).status = .unborn) ∨
    (∃ k, l = .call e k ∧ (s.engs e).status = .alive) ∨ (Label.ofAudio e l ∧ (s.engs e).pc ≠ .idle) ∨
    (l = .destroy e ∧ (s.engs e).status = .alive ∧ (s.engs e).pc = .idle) := by
  cases hs <;> simp only [Event.touches, inSlots_eq] at hx
  case create e' h1 =>
    obtain rfl : e = e' := by simpa using hx
    exact .inl ⟨rfl, h1⟩
  case call e' k h1 h2 =>
    obtain rfl : e = e' := by simpa using hx
    exact .inr (.inl ⟨k, rfl, h1⟩)
  case service e' k h1 =>
    obtain rfl : e = e' := by simpa using hx
    exact .inr (.inr (.inl ⟨rfl, by rw [h1]; nofun⟩))
  case serviced e' k d h1 =>
    obtain rfl : e = e' := by simpa using hx
    exact .inr (.inr (.inl ⟨rfl, by rw [h1]; nofun⟩))
  case body e' k d r h1 h2 =>
    obtain rfl : e = e' := by simpa using hx
    exact .inr (.inr (.inl ⟨rfl, by rw [h1]; nofun⟩))
  case visit e' n k d g rest h1 h2 =>
    rw [h2] at hx
    obtain rfl : e = e' := by simpa using hx
    exact .inr (.inr (.inl ⟨rfl, by rw [h1]; nofun⟩))
  case destroy e' h1 h2 h3 h4 =>
    obtain rfl : e = e' := by simpa using hx
    exact .inr (.inr (.inr ⟨rfl, h1, h2⟩))
  case loadAdd e' i' req p h1 h2 => rw [h1] at hx; simp at hx
  case pick j h1 => rw [h1] at hx; simp at hx
  case bgVisit e n o rest h1 h2 => rw [h2] at hx; cases o <;> simp at hx
  all_goals (simp at hx)

/-- Where the convolvers in a command queue come from. -/
theorem cmd_back {ops : ConvOps V} {build : R → ProcSpec → V} {s s' : Sys V R} {l : Label R} (hs : Step ops build s l s') {e : ℕ} {h : Held V}
    (hx : h ∈ (s'.engs e).cmd) :
    (∃ j ∈ s.jobs, j.id = h.id ∧ j.eng = e ∧ Job.carries j = true ∧ l = .jobCheck j.id ∧ (s'.engs e).cmd = (s.engs e).cmd ++ [h]) ∨
    (h ∈ (s.engs e).cmd ∧ l ≠ .destroy e ∧ ∀ g rest, l = .visit e → (s.engs e).cmd = g :: rest → h ∈ rest) := by
  have hnt : ∀ (e' : ℕ) (x : Eng V R), l ≠ .visit e → l ≠ .destroy e → x.cmd = (s.engs e').cmd → h ∈ ((s.setEng e' x).engs e).cmd →
      h ∈ (s.engs e).cmd ∧ l ≠ .destroy e ∧ ∀ g rest, l = .visit e → (s.engs e).cmd = g :: rest → h ∈ rest := by
    intro e' x h1 h2 h3 h4
    rw [setEng_engs] at h4
    split_ifs at h4 with hc
    · subst hc; exact ⟨h3 ▸ h4, h2, fun g rest hv => absurd hv h1⟩
    · exact ⟨h4, h2, fun g rest hv => absurd hv h1⟩
  cases hs
  case jobPush j v h1 h2 h3 h4 h5 =>
    replace hx : h ∈ ((s.setEng j.eng _).engs e).cmd := hx
    by_cases hc : e = j.eng
    · subst hc
      have hq : ((Sys.setEng (s.setJob { j with pc := .pushed }) j.eng
          { (s.engs j.eng) with
            cmd := (s.engs j.eng).cmd ++ [⟨j.id, v⟩]
            delivered := (s.engs j.eng).delivered ++ [⟨j.id, v⟩] }).engs j.eng).cmd = (s.engs j.eng).cmd ++ [⟨j.id, v⟩] := by
        rw [setEng_engs, if_pos rfl]
      rw [setEng_engs, if_pos rfl] at hx
      rcases List.mem_append.mp hx with hx | hx
      · exact .inr ⟨hx, nofun, nofun⟩
      · obtain rfl : h = ⟨j.id, v⟩ := by simpa using hx
        exact .inl ⟨j, h1, rfl, rfl, carries_iff.mpr (.inr ⟨v, h2⟩), rfl, hq⟩
    · rw [setEng_engs, if_neg hc] at hx
      exact .inr ⟨hx, nofun, nofun⟩
  case visit e' n k d g rest h1 h2 =>
    rw [setEng_engs] at hx
    split_ifs at hx with hc
    · subst hc
      refine .inr ⟨by rw [h2]; exact List.mem_cons_of_mem _ hx, nofun, fun g' rest' _ h3 => ?_⟩
      rw [h2] at h3
      cases h3
      exact hx
    · refine .inr ⟨hx, nofun, fun g rest hv => ?_⟩
      cases hv
      exact absurd rfl hc
  case body e' k d r h1 h2 =>
    refine .inr (hnt e' _ nofun nofun ?_ hx)
    rw [finish_eq]
  case destroy e' h1 h2 h3 h4 =>
    rw [setEng_engs] at hx
    split_ifs at hx with hc
    · cases hx
    · refine .inr ⟨hx, fun h => ?_, nofun⟩
      cases h
      exact hc rfl
  case pick j h1 => exact .inr ⟨hx, nofun, nofun⟩
  all_goals exact .inr (hnt _ _ nofun nofun (by rfl) hx)

/-- Where the convolvers in the slots come from. -/
theorem slots_back {ops : ConvOps V} {build : R → ProcSpec → V} {s s' : Sys V R} {l : Label R} (hs : Step ops build s l s') {e i : ℕ}
    (hx : i ∈ slots (s'.engs e).core) : Label.ofAudio e l ∨ (i ∈ slots (s.engs e).core ∧ l ≠ .destroy e) := by
  by_cases ha : Label.ofAudio e l
  · exact .inl ha
  refine .inr ?_
  have hnt : ∀ (e' : ℕ) (x : Eng V R), (e = e' → x.core = (s.engs e').core) → i ∈ slots ((s.setEng e' x).engs e).core → i ∈ slots (s.engs e).core := by
    intro e' x h3 h4
    rw [setEng_engs] at h4
    split_ifs at h4 with hc
    · rw [h3 hc] at h4; subst hc; exact h4
    · exact h4
  cases hs
  case call e' k h1 h2 => exact ⟨hnt e' _ (fun h => absurd h.symm ha) hx, nofun⟩
  case visit e' n k d g rest h1 h2 => exact ⟨hnt e' _ (fun h => absurd h.symm ha) hx, nofun⟩
  case body e' k d r h1 h2 => exact ⟨hnt e' _ (fun h => absurd h.symm ha) hx, nofun⟩
  case destroy e' h1 h2 h3 h4 =>
    rw [setEng_engs] at hx
    split_ifs at hx with hc
    · cases hx
    · refine ⟨hx, fun h => ?_⟩
      cases h
      exact hc rfl
  case pick j h1 => exact ⟨hx, nofun⟩
  all_goals exact ⟨hnt _ _ (fun _ => (by rfl)) hx, nofun⟩

/-- Where the convolvers in a notification queue come from. -/
theorem ntf_back {ops : ConvOps V} {build : R → ProcSpec → V} {s s' : Sys V R} {l : Label R} (hs : Step ops build s l s') {e i : ℕ}
    (hx : i ∈ idsOf (s'.engs e).ntf) :
    ((l = .visit e ∨ l = .body e) ∧ i ∈ idsOf ((s'.engs e).ntf.drop (s.engs e).ntf.length)) ∨
    (i ∈ idsOf (s.engs e).ntf ∧ l ≠ .destroy e ∧ ∀ o rest, l = .bgVisit e → (s.engs e).ntf = o :: rest → i ∈ idsOf rest) := by
  have hnt : ∀ (e' : ℕ) (x : Eng V R), x.ntf = (s.engs e').ntf → i ∈ idsOf ((s.setEng e' x).engs e).ntf → i ∈ idsOf (s.engs e).ntf := by
    intro e' x h3 h4
    rw [setEng_engs] at h4
    split_ifs at h4 with hc
    · rw [h3] at h4; subst hc; exact h4
    · exact h4
  have hap : ∀ (e' : ℕ) (x : Eng V R) (os : List (Option (Held V))), x.ntf = (s.engs e').ntf ++ os → i ∈ idsOf ((s.setEng e' x).engs e).ntf →
      (e = e' ∧ i ∈ idsOf (((s.setEng e' x).engs e).ntf.drop (s.engs e).ntf.length)) ∨ i ∈ idsOf (s.engs e).ntf := by
    intro e' x os h3 h4
    rw [setEng_engs] at h4 ⊢
    split_ifs at h4 ⊢ with hc
    · subst hc
      rw [h3] at h4 ⊢
      rw [idsOf_append] at h4
      rcases List.mem_append.mp h4 with h4 | h4
      · exact .inr h4
      · refine .inl ⟨rfl, ?_⟩
        rw [List.drop_left]
        exact h4
    · exact .inr h4
  cases hs
  case visit e' n k d g rest h1 h2 =>
    rcases hap e' _ _ (by rw [visit_eq]) hx with ⟨rfl, h⟩ | h
    · exact .inl ⟨.inl rfl, h⟩
    · exact .inr ⟨h, nofun, nofun⟩
  case body e' k d r h1 h2 =>
    rcases hap e' _ _ (by rw [finish_eq]) hx with ⟨rfl, h⟩ | h
    · exact .inl ⟨.inr rfl, h⟩
    · exact .inr ⟨h, nofun, nofun⟩
  case bgVisit e' n o rest h1 h2 =>
    rw [setEng_engs] at hx
    split_ifs at hx with hc
    · subst hc
      refine .inr ⟨?_, nofun, fun o' rest' _ h => ?_⟩
      · rw [h2, show o :: rest = [o] ++ rest from rfl, idsOf_append]
        exact List.mem_append_right _ hx
      · rw [h2] at h
        cases h
        exact hx
    · refine .inr ⟨hx, nofun, fun o rest h => ?_⟩
      cases h
      exact absurd rfl hc
  case destroy e' h1 h2 h3 h4 =>
    rw [setEng_engs] at hx
    split_ifs at hx with hc
    · cases hx
    · refine .inr ⟨hx, fun h => ?_, nofun⟩
      cases h
      exact hc rfl
  case pick j h1 => exact .inr ⟨hx, nofun, nofun⟩
  all_goals exact .inr ⟨hnt _ _ (by rfl) hx, nofun, nofun⟩

/-- An audio-side call accesses all the convolvers it leaves in the slots or hands to the background thread. -/
theorem audio_touch {ops : ConvOps V} {build : R → ProcSpec → V} {s s' : Sys V R} {l : Label R} (hs : Step ops build s l s') {e i : ℕ} (ha : Label.ofAudio e l)
    (hx : i ∈ slots (s'.engs e).core ∨ (l = .visit e ∨ l = .body e) ∧ i ∈ idsOf ((s'.engs e).ntf.drop (s.engs e).ntf.length)) :
    Loc.convolver i ∈ Event.touches ⟨s, l, s'⟩ := by
  cases hs <;> first | exact absurd ha id | (cases ha; simp only [Event.touches, inSlots_eq])
  case call k h1 h2 =>
    rcases hx with hx | ⟨hx | hx, _⟩
    · rw [setEng_engs, if_pos rfl] at hx
      have : slots ((s.engs e).core.callHead k) = slots (s.engs e).core := by cases k <;> rfl
      replace hx : i ∈ slots ((s.engs e).core.callHead k) := hx
      rw [this] at hx
      simpa using hx
    · cases hx
    · cases hx
  case service k h1 =>
    rcases hx with hx | ⟨hx | hx, _⟩
    · rw [setEng_engs, if_pos rfl] at hx
      replace hx : i ∈ slots (s.engs e).core := hx
      simpa using hx
    · cases hx
    · cases hx
  case serviced k d h1 =>
    rcases hx with hx | ⟨hx | hx, _⟩
    · rw [setEng_engs, if_pos rfl] at hx
      replace hx : i ∈ slots (s.engs e).core := hx
      simpa using hx
    · cases hx
    · cases hx
  case visit n k d g rest h1 h2 =>
    have hp := (handle_slots ops (s.engs e).core g).mem_iff (a := i)
    have : i ∈ slots ((s.engs e).core.handle ops g).1 ++ idsOf ((s.engs e).core.handle ops g).2 := by
      rw [setEng_engs, if_pos rfl, visit_eq] at hx
      rcases hx with hx | ⟨_, hx⟩
      · exact List.mem_append_left _ hx
      · rw [List.drop_left] at hx
        have := idsOf_append (List.take (ntfRoom (s.engs e)) ((s.engs e).core.handle ops g).2) (List.drop (ntfRoom (s.engs e)) ((s.engs e).core.handle ops g).2)
        rw [List.take_append_drop] at this
        rw [this]
        exact List.mem_append_right _ (List.mem_append_left _ hx)
    rw [← hp] at this
    rw [h2]
    rcases List.mem_cons.mp this with rfl | this
    · simp
    · simp [this]
  case body k d r h1 h2 =>
    have hp := (callBody_slots h2).1.mem_iff (a := i)
    have : i ∈ slots r.1 ++ idsOf r.2.pushed ++ r.2.destroyed.map Held.id := by
      rw [setEng_engs, if_pos rfl, finish_eq] at hx
      rcases hx with hx | ⟨_, hx⟩
      · exact List.mem_append_left _ (List.mem_append_left _ hx)
      · rw [List.drop_left] at hx
        have := idsOf_append (List.take (ntfRoom (s.engs e)) r.2.pushed) (List.drop (ntfRoom (s.engs e)) r.2.pushed)
        rw [List.take_append_drop] at this
        rw [this]
        exact List.mem_append_left _ (List.mem_append_right _ (List.mem_append_left _ hx))
    rw [← hp] at this
    simp [this]

/-- Where an engine's state comes from. -/
theorem status_back {ops : ConvOps V} {build : R → ProcSpec → V} {s s' : Sys V R} {l : Label R} (hs : Step ops build s l s') (e : ℕ) :
    ((s'.engs e).status = .alive → l = .create e ∨ ((s.engs e).status = .alive ∧ l ≠ .destroy e)) ∧
    ((s'.engs e).status = .unborn → (s.engs e).status = .unborn ∧ l ≠ .create e) ∧
    ((s'.engs e).pc ≠ .idle → Label.ofAudio e l ∨ (s.engs e).pc ≠ .idle) := by
  have hnt : ∀ (e' : ℕ) (x : Eng V R), l ≠ .create e → l ≠ .destroy e → x.status = (s.engs e').status → (x.pc = (s.engs e').pc ∨ Label.ofAudio e' l) →
      (((s.setEng e' x).engs e).status = .alive → l = .create e ∨ ((s.engs e).status = .alive ∧ l ≠ .destroy e)) ∧
      (((s.setEng e' x).engs e).status = .unborn → (s.engs e).status = .unborn ∧ l ≠ .create e) ∧
      (((s.setEng e' x).engs e).pc ≠ .idle → Label.ofAudio e l ∨ (s.engs e).pc ≠ .idle) := by
    intro e' x n1 n2 h3 h4
    rw [setEng_engs]
    split_ifs with hc
    · subst hc
      rw [h3]
      refine ⟨fun h => .inr ⟨h, n2⟩, fun h => ⟨h, n1⟩, fun h => ?_⟩
      rcases h4 with h4 | h4
      · rw [h4] at h; exact .inr h
      · exact .inl h4
    · exact ⟨fun h => .inr ⟨h, n2⟩, fun h => ⟨h, n1⟩, fun h => .inr h⟩
  cases hs
  case create e' h1 =>
    rw [setEng_engs]
    split_ifs with hc
    · subst hc; exact ⟨fun _ => .inl rfl, nofun, fun h => .inr h⟩
    · exact ⟨fun h => .inr ⟨h, nofun⟩, fun h => ⟨h, fun k => by cases k; exact hc rfl⟩, fun h => .inr h⟩
  case destroy e' h1 h2 h3 h4 =>
    rw [setEng_engs]
    split_ifs with hc
    · subst hc; exact ⟨nofun, nofun, fun h => .inr h⟩
    · exact ⟨fun h => .inr ⟨h, fun k => by cases k; exact hc rfl⟩, fun h => ⟨h, nofun⟩, fun h => .inr h⟩
  case pick j h1 => exact ⟨fun h => .inr ⟨h, nofun⟩, fun h => ⟨h, nofun⟩, fun h => .inr h⟩
  case call e' k h1 h2 => exact hnt e' _ nofun nofun rfl (.inr rfl)
  case service e' k h1 => exact hnt e' _ nofun nofun rfl (.inr rfl)
  case serviced e' k d h1 => exact hnt e' _ nofun nofun rfl (.inr rfl)
  case visit e' n k d g rest h1 h2 => exact hnt e' _ nofun nofun (by rw [visit_eq]) (.inr rfl)
  case body e' k d r h1 h2 => exact hnt e' _ nofun nofun (by rw [finish_eq]) (.inr rfl)
  all_goals exact hnt _ _ nofun nofun rfl (.inl rfl)

/-- Where the jobs come from. -/
theorem job_back {ops : ConvOps V} {build : R → ProcSpec → V} {s s' : Sys V R} {l : Label R} (hN : Ids s) (hs : Step ops build s l s') {j' : Job V R}
    (hx : j' ∈ s'.jobs) :
    (∃ e req, l = .loadAdd e ∧ (s.engs e).loader = some (j'.id, req, .flagged) ∧ j'.eng = e ∧ j'.pc = .queued) ∨
    (∃ j ∈ s.jobs, j.id = j'.id ∧ j.eng = j'.eng ∧
      ((j'.pc = j.pc ∧ ¬ (j.pc = .queued ∧ ∃ e, l = .loadRemove e) ∧ (l = .pick → ∀ q, s.jobs.find? Job.waiting = some q → q.id ≠ j.id)) ∨
        (Label.ofWorker j.id l ∧ j.pc ≠ .queued ∧ j'.pc ≠ .queued) ∨
        (l = .pick ∧ s.jobs.find? Job.waiting = some j ∧ j.pc = .queued ∧ j'.pc = .building))) := by
  have hset : ∀ {j k : Job V R}, j ∈ s.jobs → k.id = j.id → k.eng = j.eng → Label.ofWorker j.id l → j.pc ≠ .queued → k.pc ≠ .queued → j' ∈ (s.setJob k).jobs → l ≠ .pick →
      (∀ e, l ≠ .loadRemove e) →
      (∃ j ∈ s.jobs, j.id = j'.id ∧ j.eng = j'.eng ∧
      ((j'.pc = j.pc ∧ ¬ (j.pc = .queued ∧ ∃ e, l = .loadRemove e) ∧ (l = .pick → ∀ q, s.jobs.find? Job.waiting = some q → q.id ≠ j.id)) ∨
        (Label.ofWorker j.id l ∧ j.pc ≠ .queued ∧ j'.pc ≠ .queued) ∨
        (l = .pick ∧ s.jobs.find? Job.waiting = some j ∧ j.pc = .queued ∧ j'.pc = .building))) := by
    intro j k h1 h2 h3 h4 h5 h6 h7 h8 h9
    rcases mem_setJob h7 with rfl | ⟨h, _⟩
    · exact ⟨j, h1, h2.symm, h3.symm, .inr (.inl ⟨h4, h5, h6⟩)⟩
    · exact ⟨j', h, rfl, rfl, .inl ⟨rfl, fun h => h9 _ h.2.choose_spec, fun h => absurd h h8⟩⟩
  have hsame : j' ∈ s.jobs → l ≠ .pick → (∀ e, l ≠ .loadRemove e) →
      (∃ j ∈ s.jobs, j.id = j'.id ∧ j.eng = j'.eng ∧
      ((j'.pc = j.pc ∧ ¬ (j.pc = .queued ∧ ∃ e, l = .loadRemove e) ∧ (l = .pick → ∀ q, s.jobs.find? Job.waiting = some q → q.id ≠ j.id)) ∨
        (Label.ofWorker j.id l ∧ j.pc ≠ .queued ∧ j'.pc ≠ .queued) ∨
        (l = .pick ∧ s.jobs.find? Job.waiting = some j ∧ j.pc = .queued ∧ j'.pc = .building))) := by
    intro h1 h2 h3
    exact ⟨j', h1, rfl, rfl, .inl ⟨rfl, fun h => h3 _ h.2.choose_spec, fun h => absurd h h2⟩⟩
  cases hs
  case loadRemove e i req h1 =>
    obtain ⟨j, h2, h3, rfl⟩ := mem_removeAll.mp hx
    refine .inr ⟨j, h2, rfl, rfl, .inl ⟨rfl, fun h => ?_, nofun⟩⟩
    rw [← waiting_iff, h3] at h
    cases h.1
  case loadAdd e i req p h1 h2 =>
    rcases List.mem_append.mp hx with hx | hx
    · exact .inr (hsame hx nofun nofun)
    · obtain rfl : j' = _ := List.mem_singleton.mp hx
      exact .inl ⟨e, req, rfl, h1, rfl, rfl⟩
  case pick j h1 =>
    rcases mem_setJob hx with rfl | ⟨h, hne⟩
    · exact .inr ⟨j, (mem_of_find h1).1, rfl, rfl, .inr (.inr ⟨rfl, h1, (mem_of_find h1).2, rfl⟩)⟩
    · refine .inr ⟨j', h, rfl, rfl, .inl ⟨rfl, fun h => (by obtain ⟨_, e, h⟩ := h; cases h), fun _ q hq => ?_⟩⟩
      rw [h1] at hq
      cases hq
      exact fun h => hne h.symm
  case build j h1 h2 => exact .inr (hset h1 (by rfl) (by rfl) rfl (by rw [h2]; nofun) (by nofun) hx nofun nofun)
  case jobLock j v h1 h2 h3 h4 => exact .inr (hset h1 (by rfl) (by rfl) rfl (by rw [h2]; nofun) (by nofun) hx nofun nofun)
  case jobPush j v h1 h2 h3 h4 h5 => exact .inr (hset h1 (by rfl) (by rfl) rfl (by rw [h2]; nofun) (by nofun) hx nofun nofun)
  case jobRefused j v h1 h2 h3 h4 h5 => exact .inr (hset h1 (by rfl) (by rfl) rfl (by rw [h2]; nofun) (by nofun) hx nofun nofun)
  case jobStop j v h1 h2 h3 h4 => exact .inr (hsame (mem_dropJob.mp hx).1 nofun nofun)
  case jobDone j h1 h2 h3 => exact .inr (hsame (mem_dropJob.mp hx).1 nofun nofun)
  all_goals exact .inr (hsame hx nofun nofun)

/-! ## The invariant -/

/-- What orders the accesses so far with what comes. -/
structure Tidy (tr : List (Event V R)) (s : Sys V R) : Prop where
  carried : ∀ j ∈ s.jobs, Job.carries j = true → By tr (fun w => w.thread = .worker j.id) (.convolver j.id)
  waiting : ∀ e, ∀ h ∈ (s.engs e).cmd, By tr (fun w => Token.command e h.id ∈ w.releases) (.convolver h.id)
  slotted : ∀ e, ∀ i ∈ slots (s.engs e).core, By tr (fun w => w.thread = .audio e) (.convolver i)
  noticed : ∀ e, ∀ i ∈ idsOf (s.engs e).ntf,
    By tr (fun w => Token.notice e i ∈ w.releases) (.convolver i) ∧ By tr (fun w => Token.client e ∈ w.releases) (.convolver i)
  made : ∀ i, (∀ e, i ∉ (s.engs e).made) → Untouched tr (.convolver i)
  queued : ∀ j ∈ s.jobs, j.pc = .queued → By tr (fun w => Token.pool ∈ w.releases) (.request j.id)
  picked : ∀ j ∈ s.jobs, j.pc ≠ .queued → By tr (fun w => w.thread = .worker j.id) (.request j.id)
  loader : ∀ e i r p, (s.engs e).loader = some (i, r, p) → Untouched tr (.request i)
  fresh : ∀ i, s.next ≤ i → Untouched tr (.request i)
  alive : ∀ e, (s.engs e).status = .alive → By tr (fun w => Token.client e ∈ w.releases) (.fades e)
  busy : ∀ e, (s.engs e).pc ≠ .idle → By tr (fun w => w.thread = .audio e) (.fades e)
  unborn : ∀ e, (s.engs e).status = .unborn → Untouched tr (.fades e)

/-- What is known about the states of executions. -/
structure Settled (ops : ConvOps V) (s : Sys V R) : Prop where
  inv : Inv ops s
  wh : Where s
  /-- no load has two engines -/
  home : ∀ e e' i, i ∈ (s.engs e).made → i ∈ (s.engs e').made → e = e'
  jhome : ∀ j ∈ s.jobs, ∀ e, j.id ∈ (s.engs e).made → e = j.eng

theorem exec_settled {ops : ConvOps V} {build : R → ProcSpec → V} {ls : List (Label R)} {s : Sys V R} (h : Exec ops build ls s) : Settled ops s where
  inv := exec_inv h
  wh := exec_where h
  home e e' i h1 h2 := by
    obtain ⟨_, r1, g1⟩ := (C36_made h e i).mp h1
    obtain ⟨_, r2, g2⟩ := (C36_made h e' i).mp h2
    rw [g1] at g2
    cases g2
    rfl
  jhome j hj e h1 := by
    obtain ⟨_, r1, g1⟩ := (C36_made h e j.id).mp h1
    have := (exec_known h).origins.job j hj
    rw [g1] at this
    cases this
    rfl

/-- No convolver is in two places. -/
structure Apart (s : Sys V R) : Prop where
  cmd : ∀ e, ∀ h ∈ (s.engs e).cmd, h.id ∈ (s.engs e).made ∧ h.id ∉ slots (s.engs e).core ∧ h.id ∉ idsOf (s.engs e).ntf
  slot : ∀ e, ∀ i ∈ slots (s.engs e).core, i ∈ (s.engs e).made ∧ i ∉ idsOf (s.engs e).ntf
  ntf : ∀ e, ∀ i ∈ idsOf (s.engs e).ntf, i ∈ (s.engs e).made
  head : ∀ e g rest, (s.engs e).cmd = g :: rest → ∀ h ∈ rest, h.id ≠ g.id
  first : ∀ e h rest, (s.engs e).ntf = some h :: rest → h.id ∉ idsOf rest
  job : ∀ j ∈ s.jobs, Job.carries j = true → ∀ e, (∀ h ∈ (s.engs e).cmd, h.id ≠ j.id) ∧ j.id ∉ slots (s.engs e).core ∧ j.id ∉ idsOf (s.engs e).ntf
  new : ∀ j ∈ s.jobs, j.pc = .building → ∀ e, j.id ∉ (s.engs e).made

theorem Settled.apart {ops : ConvOps V} {s : Sys V R} (h : Settled ops s) : Apart s := by
  obtain ⟨_, hw, h1, h2⟩ := h
  have hp : ∀ e, (placed (s.engs e)).Nodup := hw.nodup
  have hm : ∀ e, ∀ i ∈ placed (s.engs e), i ∈ (s.engs e).made := hw.pm
  have c1 : ∀ e, ∀ h ∈ (s.engs e).cmd, h.id ∈ placed (s.engs e) := fun e h hh => by
    unfold placed; simp only [List.mem_append, List.mem_map]; exact .inl (.inl (.inl ⟨h, hh, rfl⟩))
  have c2 : ∀ e, ∀ i ∈ slots (s.engs e).core, i ∈ placed (s.engs e) := fun e h hh => by
    unfold placed; simp only [List.mem_append]; exact .inl (.inl (.inr hh))
  have c3 : ∀ e, ∀ i ∈ idsOf (s.engs e).ntf, i ∈ placed (s.engs e) := fun e h hh => by
    unfold placed; simp only [List.mem_append]; exact .inl (.inr hh)
  have d : ∀ e, ((s.engs e).cmd.map Held.id).Nodup ∧ (idsOf (s.engs e).ntf).Nodup ∧ (∀ a ∈ (s.engs e).cmd.map Held.id, a ∉ slots (s.engs e).core) ∧
      (∀ a ∈ (s.engs e).cmd.map Held.id, a ∉ idsOf (s.engs e).ntf) ∧ (∀ a ∈ slots (s.engs e).core, a ∉ idsOf (s.engs e).ntf) := by
    intro e
    have := hp e
    unfold placed at this
    simp only [List.nodup_append, List.mem_append] at this
    obtain ⟨⟨⟨q1, q2, q3⟩, q4, q5⟩, q6, q7⟩ := this
    exact ⟨q1, q4, fun a ha hb => q3 a ha a hb rfl, fun a ha hb => q5 a (.inl ha) a hb rfl, fun a ha hb => q5 a (.inr ha) a hb rfl⟩
  refine ⟨fun e g hg => ⟨hm e _ (c1 e g hg), (d e).2.2.1 _ (List.mem_map_of_mem hg), (d e).2.2.2.1 _ (List.mem_map_of_mem hg)⟩,
    fun e i hi => ⟨hm e i (c2 e i hi), (d e).2.2.2.2 i hi⟩, fun e i hi => hm e i (c3 e i hi), ?_, ?_, ?_, ?_⟩
  · intro e g rest hc h hh heq
    have := (d e).1
    rw [hc, List.map_cons, List.nodup_cons] at this
    exact this.1 (heq ▸ List.mem_map_of_mem hh)
  · intro e g rest hc hh
    have := (d e).2.1
    rw [hc, show some g :: rest = [some g] ++ rest from rfl, idsOf_append, show idsOf [some g] = [g.id] from rfl, List.singleton_append,
      List.nodup_cons] at this
    exact this.1 hh
  · intro j hj hc e
    have key : j.id ∉ placed (s.engs e) := fun hh => by
      have := h2 j hj e (hm e _ hh)
      subst this
      exact hw.jp j hj hc hh
    exact ⟨fun g hg heq => key (heq ▸ c1 e g hg), fun hh => key (c2 e _ hh), fun hh => key (c3 e _ hh)⟩
  · intro j hj hc e hh
    have := h2 j hj e hh
    subst this
    exact hw.jn j hj (.inr hc) hh

theorem mem_holding (x : Eng V R) {i : ℕ} : i ∈ x.holding.map Held.id ↔ (∃ h ∈ x.cmd, h.id = i) ∨ i ∈ slots x.core ∨ i ∈ idsOf x.ntf := by
  unfold Eng.holding slots idsOf
  simp only [List.map_append, List.mem_append, toList_ids, List.mem_map, or_assoc]

theorem worker_thread {s s' : Sys V R} {l : Label R} {i : ℕ} (h : Label.ofWorker i l) : Event.thread (V := V) ⟨s, l, s'⟩ = .worker i := by
  cases l <;> first | exact absurd h id | (cases h; rfl)

theorem audio_thread {s s' : Sys V R} {l : Label R} {e : ℕ} (h : Label.ofAudio e l) : Event.thread (V := V) ⟨s, l, s'⟩ = .audio e := by
  cases l <;> first | exact absurd h id | (cases h; rfl)

theorem audio_releases {v : Event V R} {e : ℕ} (h : v.thread = .audio e) : Token.client e ∈ v.releases := by
  obtain ⟨s, l, s'⟩ := v
  cases l <;> simp only [Event.thread] at h
  all_goals first
    | (cases h; exact List.mem_cons_self)
    | (split at h <;> cases h)
    | cases h

/-- Every access happens after all earlier ones to the same location, except possibly that of the destructor to the convolvers still waiting in
the command queue. -/
theorem Tidy.ordered {ops : ConvOps V} {build : R → ProcSpec → V} {tr : List (Event V R)} {s s' : Sys V R} {l : Label R} (hK : Settled ops s) (hT : Tidy tr s)
    (hs : Step ops build s l s') {x : Loc} (hx : x ∈ Event.touches ⟨s, l, s'⟩) :
    Ordered tr ⟨s, l, s'⟩ x ∨ ∃ e, ∃ h ∈ (s.engs e).cmd, l = .destroy e ∧ x = .convolver h.id := by
  have hA := hK.apart
  cases x with
  | convolver i =>
    rcases conv_touch hs hx with ⟨h1, j, hj, rfl, ⟨h2, _⟩ | h2⟩ | ⟨e, h1, h2⟩ | ⟨e, h, rest, rfl, h2, rfl⟩ | ⟨e, h, rest, rfl, h2, rfl⟩ | ⟨e, rfl, h2⟩
    · exact .inl (ordered_new (hT.made _ (hA.new j hj h2)))
    · refine .inl (ordered_thread ?_)
      rw [worker_thread h1]
      exact hT.carried j hj h2
    · refine .inl (ordered_thread ?_)
      rw [audio_thread h1]
      exact hT.slotted e i h2
    · refine .inl (ordered_token (hT.waiting e h (by rw [h2]; exact List.mem_cons_self)) ?_)
      simp [Event.acquires, h2]
    · refine .inl (ordered_token (hT.noticed e h.id (by rw [h2]; simp [idsOf])).1 ?_)
      simp [Event.acquires, h2]
    · rcases (mem_holding _).mp h2 with ⟨h, h3, rfl⟩ | h3 | h3
      · exact .inr ⟨e, h, h3, rfl, rfl⟩
      · exact .inl (ordered_token ((hT.slotted e i h3).imp fun w hw => audio_releases hw) List.mem_cons_self)
      · exact .inl (ordered_token (hT.noticed e i h3).2 List.mem_cons_self)
  | request i =>
    rcases req_touch hs hx with ⟨h1, j, hj, rfl, h2⟩ | ⟨e, req, rfl, h2⟩ | ⟨h1, j, hj, rfl, h2⟩
    · refine .inl (ordered_thread ?_)
      rw [worker_thread h1]
      exact hT.picked j hj h2
    · exact .inl (ordered_new (hT.loader e i req _ h2))
    · refine .inl (ordered_token (hT.queued j hj h2) ?_)
      rcases h1 with rfl | ⟨e, rfl⟩ <;> exact List.mem_cons_self
  | fades e =>
    rcases fades_touch hs hx with ⟨rfl, h1⟩ | ⟨k, rfl, h1⟩ | ⟨h1, h2⟩ | ⟨rfl, h1, h2⟩
    · exact .inl (ordered_new (hT.unborn e h1))
    · exact .inl (ordered_token (hT.alive e h1) List.mem_cons_self)
    · refine .inl (ordered_thread ?_)
      rw [audio_thread h1]
      exact hT.busy e h2
    · exact .inl (ordered_token (hT.alive e h1) List.mem_cons_self)
  | spec e =>
    exfalso
    cases hs <;> simp only [Event.touches] at hx <;> simp_all
  | loading e =>
    exfalso
    cases hs <;> simp only [Event.touches] at hx <;> simp_all

theorem made_mono {ops : ConvOps V} {build : R → ProcSpec → V} {s s' : Sys V R} {l : Label R} (hs : Step ops build s l s') {e i : ℕ} (h : i ∈ (s.engs e).made) :
    i ∈ (s'.engs e).made := by
  rcases made_step hs e with ⟨h1, _⟩ | ⟨j, _, _, _, _, h1⟩
  · rw [h1]; exact h
  · rw [h1]; exact List.mem_append_left _ h

/-- Who is calling `LoadIR`. -/
theorem loader_back {ops : ConvOps V} {build : R → ProcSpec → V} {s s' : Sys V R} {l : Label R} (hs : Step ops build s l s') {e i : ℕ} {r : R} {p : LPc}
    (hx : (s'.engs e).loader = some (i, r, p)) :
    (i = s.next ∧ l = .loadLock e r) ∨ ((∃ r p, (s.engs e).loader = some (i, r, p)) ∧ l ≠ .loadAdd e) := by
  have hnt : ∀ (e' : ℕ) (x : Eng V R), x.loader = (s.engs e').loader → ((s.setEng e' x).engs e).loader = some (i, r, p) → (s.engs e).loader = some (i, r, p) := by
    intro e' x h3 h4
    rw [setEng_engs] at h4
    split_ifs at h4 with hc
    · rw [h3] at h4; subst hc; exact h4
    · exact h4
  cases hs
  case loadLock e' req h1 h2 =>
    replace hx : ((s.setEng e' _).engs e).loader = _ := hx
    rw [setEng_engs] at hx
    split_ifs at hx with hc
    · subst hc; cases hx; exact .inl ⟨rfl, rfl⟩
    · exact .inr ⟨⟨_, _, hx⟩, nofun⟩
  case loadRemove e' i' req h1 =>
    replace hx : ((s.setEng e' _).engs e).loader = _ := hx
    rw [setEng_engs] at hx
    split_ifs at hx with hc
    · subst hc; cases hx; exact .inr ⟨⟨_, _, h1⟩, nofun⟩
    · exact .inr ⟨⟨_, _, hx⟩, nofun⟩
  case loadFlag e' i' req h1 h2 =>
    rw [setEng_engs] at hx
    split_ifs at hx with hc
    · subst hc; cases hx; exact .inr ⟨⟨_, _, h1⟩, nofun⟩
    · exact .inr ⟨⟨_, _, hx⟩, nofun⟩
  case loadSkip e' i' req h1 h2 =>
    rw [setEng_engs] at hx
    by_cases hc : e = e'
    · rw [if_pos hc] at hx; cases hx
    rw [if_neg hc] at hx
    · exact .inr ⟨⟨_, _, hx⟩, nofun⟩
  case loadAdd e' i' req p' h1 h2 =>
    replace hx : ((s.setEng e' _).engs e).loader = _ := hx
    rw [setEng_engs] at hx
    by_cases hc : e = e'
    · rw [if_pos hc] at hx; cases hx
    rw [if_neg hc] at hx
    · exact .inr ⟨⟨_, _, hx⟩, fun h => by cases h; exact hc rfl⟩
  case pick j h1 => exact .inr ⟨⟨_, _, hx⟩, nofun⟩
  case visit e' n k d g rest h1 h2 => exact .inr ⟨⟨_, _, hnt e' _ (by rw [visit_eq]) hx⟩, nofun⟩
  case body e' k d r h1 h2 => exact .inr ⟨⟨_, _, hnt e' _ (by rw [finish_eq]) hx⟩, nofun⟩
  all_goals exact .inr ⟨⟨_, _, hnt _ _ (by rfl) hx⟩, nofun⟩

theorem next_mono {ops : ConvOps V} {build : R → ProcSpec → V} {s s' : Sys V R} {l : Label R} (hs : Step ops build s l s') : s.next ≤ s'.next := by
  cases hs <;> first | exact Nat.le_refl _ | exact Nat.le_succ _

theorem find_job {s : Sys V R} (hn : (s.jobs.map Job.id).Nodup) {j : Job V R} (hj : j ∈ s.jobs) : Event.engOf s j.id = j.eng := by
  unfold Event.engOf
  have h1 : (s.jobs.find? fun k => k.id = j.id).isSome := by
    rw [List.find?_isSome]
    exact ⟨j, hj, by simp⟩
  obtain ⟨k, hk⟩ := Option.isSome_iff_exists.mp h1
  have h2 : k.id = j.id := by simpa using List.find?_some hk
  have h3 : k ∈ s.jobs := List.mem_of_find?_eq_some hk
  obtain rfl := same_job hn h3 hj h2
  rw [hk]
  rfl

theorem notice_pushed {s s' : Sys V R} {l : Label R} {e i : ℕ} (h : i ∈ idsOf ((s'.engs e).ntf.drop (s.engs e).ntf.length)) :
    Token.notice e i ∈ Event.pushes (V := V) ⟨s, l, s'⟩ e := by
  unfold Event.pushes
  refine List.mem_append_right _ ?_
  unfold idsOf at h
  obtain ⟨g, hg, rfl⟩ := List.mem_map.mp h
  obtain ⟨o, ho, hg⟩ := List.mem_flatMap.mp hg
  exact List.mem_flatMap.mpr ⟨o, ho, List.mem_map.mpr ⟨g, hg, rfl⟩⟩

/-- Convolvers accessed by a step that are still in some place of an engine afterwards. -/
theorem Tidy.step {ops : ConvOps V} {build : R → ProcSpec → V} {tr : List (Event V R)} {s s' : Sys V R} {l : Label R} (hK : Settled ops s) (hT : Tidy tr s)
    (hs : Step ops build s l s') : Tidy (tr ++ [⟨s, l, s'⟩]) s' := by
  have hA := hK.apart
  have hN := hK.inv.ids.nodup
  have hO : ∀ {x}, x ∈ Event.touches ⟨s, l, s'⟩ → (∀ e, l ≠ .destroy e) → Ordered tr ⟨s, l, s'⟩ x := by
    intro x hx hn
    rcases hT.ordered hK hs hx with h | ⟨e, h, _, hl, _⟩
    · exact h
    · exact absurd hl (hn e)
  -- who touches a convolver that is in a place of engine `e`
  constructor
  case carried =>
    intro j' hj' hc
    rcases job_back hK.inv.ids hs hj' with ⟨e, req, _, _, _, hq⟩ | ⟨j, hj, hid, heng, h | h | h⟩
    · rw [carries_iff, hq] at hc; simp at hc
    · obtain ⟨h1, h2, h3⟩ := h
      have hcj : Job.carries j = true := by rw [carries_iff] at hc ⊢; rw [← h1]; exact hc
      rw [← hid]
      refine By.next (fun hx => ?_) (fun _ => hT.carried j hj hcj)
      rcases conv_touch hs hx with ⟨g1, _⟩ | ⟨e, _, g2⟩ | ⟨e, h, rest, rfl, g2, g3⟩ | ⟨e, h, rest, rfl, g2, g3⟩ | ⟨e, rfl, g2⟩
      · refine ⟨hO hx ?_, worker_thread g1⟩
        rintro e rfl
        exact g1
      · exact absurd g2 (hA.job j hj hcj e).2.1
      · exact absurd g3 ((hA.job j hj hcj e).1 h (by rw [g2]; exact List.mem_cons_self))
      · exact absurd (by rw [g2, ← g3]; simp [idsOf]) (hA.job j hj hcj e).2.2
      · rcases (mem_holding _).mp g2 with ⟨h, h3, h4⟩ | h3 | h3
        · exact absurd h4 ((hA.job j hj hcj e).1 h h3)
        · exact absurd h3 (hA.job j hj hcj e).2.1
        · exact absurd h3 (hA.job j hj hcj e).2.2
    · obtain ⟨h1, h2, h3⟩ := h
      rw [← hid]
      have hnd : ∀ e, l ≠ .destroy e := by rintro e rfl; exact h1
      refine By.next (fun hx => ⟨hO hx hnd, worker_thread h1⟩) (fun hx => ?_)
      -- the worker's steps that leave the convolver with the job access it
      exfalso
      cases l <;> first | exact h1 | skip
      case build i => cases h1; exact hx (by simp [Event.touches])
      case jobLock i => cases h1; exact hx (by simp [Event.touches])
      case jobCheck i => cases h1; exact hx (by simp [Event.touches])
      case jobDone i =>
        replace h1 : i = j.id := h1
        cases hs
        case jobDone j1 g1 g2 g3 => exact (mem_dropJob.mp hj').2 (hid.symm.trans h1.symm)
        case jobDoneDead j1 g1 g2 g3 =>
          obtain rfl := same_job hN g1 hj h1
          obtain rfl := same_job hN hj' hj hid.symm
          rw [carries_iff, g2] at hc
          simp at hc
    · rw [carries_iff, h.2.2.2] at hc; simp at hc
  case waiting =>
    intro e h hh
    rcases cmd_back hs hh with ⟨j, hj, hid, he, hc, rfl, hcmd⟩ | ⟨h1, h2, h3⟩
    · refine By.next (fun hx => ⟨hO hx nofun, ?_⟩) (fun hx => ?_)
      · show Token.command e h.id ∈ Event.pushes _ (Event.engOf s j.id) ++ _
        rw [find_job hN hj, he]
        refine List.mem_append_left _ (List.mem_append_left _ ?_)
        simp only [hcmd, List.drop_left]
        simp
      · exact absurd (by rw [← hid]; simp [Event.touches]) hx
    · refine By.next (fun hx => ?_) (fun _ => hT.waiting e h h1)
      exfalso
      obtain ⟨a1, a2, a3⟩ := hA.cmd e h h1
      rcases conv_touch hs hx with ⟨g1, j, hj, g2, ⟨g3, g4⟩ | g3⟩ | ⟨e', _, g2⟩ | ⟨e', g, rest, rfl, g2, g3⟩ | ⟨e', g, rest, rfl, g2, g3⟩ | ⟨e', rfl, g2⟩
      · exact hA.new j hj g3 e (g2 ▸ a1)
      · exact (hA.job j hj g3 e).1 h h1 g2.symm
      · obtain rfl := hK.home e e' h.id a1 (hA.slot e' _ g2).1
        exact a2 g2
      · obtain rfl := hK.home e e' h.id a1 (g3 ▸ (hA.cmd e' g (by rw [g2]; exact List.mem_cons_self)).1)
        exact hA.head e g rest g2 h (h3 g rest rfl g2) g3.symm
      · have g4 : h.id ∈ idsOf (s.engs e').ntf := by rw [g2, ← g3]; simp [idsOf]
        obtain rfl := hK.home e e' h.id a1 (hA.ntf e' _ g4)
        exact a3 g4
      · have g4 : h.id ∈ (s.engs e').made := by
          rcases (mem_holding _).mp g2 with ⟨g, h3, h4⟩ | h3 | h3
          · exact h4 ▸ (hA.cmd e' g h3).1
          · exact (hA.slot e' _ h3).1
          · exact hA.ntf e' _ h3
        obtain rfl := hK.home e e' h.id a1 g4
        exact h2 rfl
  case slotted =>
    intro e i hi
    rcases slots_back hs hi with ha | ⟨h1, h2⟩
    · have hx := audio_touch hs ha (.inl hi)
      have hnd : ∀ e, l ≠ .destroy e := by rintro e rfl; exact ha
      exact By.next (fun _ => ⟨hO hx hnd, audio_thread ha⟩) (fun h => absurd hx h)
    · refine By.next (fun hx => ?_) (fun _ => hT.slotted e i h1)
      obtain ⟨a1, a2⟩ := hA.slot e i h1
      rcases conv_touch hs hx with ⟨g1, j, hj, g2, ⟨g3, g4⟩ | g3⟩ | ⟨e', g1, g2⟩ | ⟨e', g, rest, rfl, g2, g3⟩ | ⟨e', g, rest, rfl, g2, g3⟩ | ⟨e', rfl, g2⟩
      · exact absurd (g2 ▸ a1) (hA.new j hj g3 e)
      · exact absurd (g2 ▸ h1) (hA.job j hj g3 e).2.1
      · obtain rfl := hK.home e e' i a1 (hA.slot e' _ g2).1
        have hnd : ∀ e, l ≠ .destroy e := by rintro e rfl; exact g1
        exact ⟨hO hx hnd, audio_thread g1⟩
      · have g4 := hA.cmd e' g (by rw [g2]; exact List.mem_cons_self)
        obtain rfl := hK.home e e' i a1 (g3 ▸ g4.1)
        exact absurd h1 (g3 ▸ g4.2.1)
      · have g4 : i ∈ idsOf (s.engs e').ntf := by rw [g2, ← g3]; simp [idsOf]
        obtain rfl := hK.home e e' i a1 (hA.ntf e' _ g4)
        exact absurd g4 a2
      · have g4 : i ∈ (s.engs e').made := by
          rcases (mem_holding _).mp g2 with ⟨g, h3, h4⟩ | h3 | h3
          · exact h4 ▸ (hA.cmd e' g h3).1
          · exact (hA.slot e' _ h3).1
          · exact hA.ntf e' _ h3
        obtain rfl := hK.home e e' i a1 g4
        exact absurd rfl h2
  case noticed =>
    intro e i hi
    rcases ntf_back hs hi with ⟨hl, h1⟩ | ⟨h1, h2, h3⟩
    · have ha : Label.ofAudio e l := by rcases hl with rfl | rfl <;> rfl
      have hx := audio_touch hs ha (.inr ⟨hl, h1⟩)
      have hnd : ∀ e, l ≠ .destroy e := by rintro e rfl; exact ha
      have hp : Token.notice e i ∈ Event.releases ⟨s, l, s'⟩ := by
        rcases hl with rfl | rfl <;> exact List.mem_cons_of_mem _ (notice_pushed h1)
      exact ⟨By.next (fun _ => ⟨hO hx hnd, hp⟩) (fun h => absurd hx h), By.next (fun _ => ⟨hO hx hnd, audio_releases (audio_thread ha)⟩) (fun h => absurd hx h)⟩
    · have hx : Loc.convolver i ∉ Event.touches ⟨s, l, s'⟩ := by
        intro hx
        have a1 := hA.ntf e i h1
        rcases conv_touch hs hx with ⟨g1, j, hj, g2, ⟨g3, g4⟩ | g3⟩ | ⟨e', g1, g2⟩ | ⟨e', g, rest, rfl, g2, g3⟩ | ⟨e', g, rest, rfl, g2, g3⟩ | ⟨e', rfl, g2⟩
        · exact absurd (g2 ▸ a1) (hA.new j hj g3 e)
        · exact absurd (g2 ▸ h1) (hA.job j hj g3 e).2.2
        · obtain rfl := hK.home e e' i a1 (hA.slot e' _ g2).1
          exact (hA.slot e i g2).2 h1
        · have g4 := hA.cmd e' g (by rw [g2]; exact List.mem_cons_self)
          obtain rfl := hK.home e e' i a1 (g3 ▸ g4.1)
          exact absurd h1 (g3 ▸ g4.2.2)
        · have g4 : i ∈ idsOf (s.engs e').ntf := by rw [g2, ← g3]; simp [idsOf]
          obtain rfl := hK.home e e' i a1 (hA.ntf e' _ g4)
          exact hA.first e g rest g2 (g3 ▸ h3 _ rest rfl g2)
        · have g4 : i ∈ (s.engs e').made := by
            rcases (mem_holding _).mp g2 with ⟨g, h3, h4⟩ | h3 | h3
            · exact h4 ▸ (hA.cmd e' g h3).1
            · exact (hA.slot e' _ h3).1
            · exact hA.ntf e' _ h3
          obtain rfl := hK.home e e' i a1 g4
          exact absurd rfl h2
      exact ⟨By.next (fun h => absurd h hx) (fun _ => (hT.noticed e i h1).1), By.next (fun h => absurd h hx) (fun _ => (hT.noticed e i h1).2)⟩
  case made =>
    intro i hi
    have h0 : ∀ e, i ∉ (s.engs e).made := fun e h => hi e (made_mono hs h)
    refine Untouched.next (fun hx => ?_) (hT.made i h0)
    rcases conv_touch hs hx with ⟨g1, j, hj, g2, ⟨g3, g4⟩ | g3⟩ | ⟨e', g1, g2⟩ | ⟨e', g, rest, rfl, g2, g3⟩ | ⟨e', g, rest, rfl, g2, g3⟩ | ⟨e', rfl, g2⟩
    · subst g4
      cases hs
      case build j1 h1 h2 =>
        refine hi j1.eng ?_
        rw [setEng_engs, if_pos rfl]
        exact List.mem_append_right _ (List.mem_singleton.mpr rfl)
    · exact h0 j.eng (g2 ▸ hK.wh.jm j hj g3)
    · exact h0 e' (hA.slot e' _ g2).1
    · exact h0 e' (g3 ▸ (hA.cmd e' g (by rw [g2]; exact List.mem_cons_self)).1)
    · exact h0 e' (hA.ntf e' _ (by rw [g2, ← g3]; simp [idsOf]))
    · rcases (mem_holding _).mp g2 with ⟨g, h3, h4⟩ | h3 | h3
      · exact h0 e' (h4 ▸ (hA.cmd e' g h3).1)
      · exact h0 e' (hA.slot e' _ h3).1
      · exact h0 e' (hA.ntf e' _ h3)
  case queued =>
    intro j' hj' hq
    rcases job_back hK.inv.ids hs hj' with ⟨e, req, rfl, hl, he, _⟩ | ⟨j, hj, hid, heng, h | h | h⟩
    · have hx : Loc.request j'.id ∈ Event.touches ⟨s, .loadAdd e, s'⟩ := by simp [Event.touches, hl]
      exact By.next (fun _ => ⟨hO hx nofun, List.mem_cons_self⟩) (fun h => absurd hx h)
    · obtain ⟨h1, h2, h3⟩ := h
      rw [h1] at hq
      rw [← hid]
      refine By.next (fun hx => ?_) (fun _ => hT.queued j hj hq)
      rcases req_touch hs hx with ⟨_, k, hk, g1, g2⟩ | ⟨e, req, rfl, g1⟩ | ⟨g1, _⟩
      · obtain rfl := same_job hN hk hj g1
        exact absurd hq g2
      · exact absurd rfl (hK.inv.ids.lnew e _ _ _ g1 j hj)
      · refine ⟨hO hx ?_, ?_⟩
        · rintro e rfl; rcases g1 with g1 | ⟨_, g1⟩ <;> cases g1
        · rcases g1 with rfl | ⟨e, rfl⟩ <;> exact List.mem_cons_self
    · exact absurd hq h.2.2
    · rw [h.2.2.2] at hq; cases hq
  case picked =>
    intro j' hj' hq
    rcases job_back hK.inv.ids hs hj' with ⟨e, req, rfl, hl, he, h⟩ | ⟨j, hj, hid, heng, h | h | h⟩
    · exact absurd h hq
    · obtain ⟨h1, h2, h3⟩ := h
      rw [h1] at hq
      rw [← hid]
      refine By.next (fun hx => ?_) (fun _ => hT.picked j hj hq)
      rcases req_touch hs hx with ⟨g0, k, hk, g1, g2⟩ | ⟨e, req, rfl, g1⟩ | ⟨_, k, hk, g1, g2⟩
      · have hnd : ∀ e, l ≠ .destroy e := by rintro e rfl; exact g0
        exact ⟨hO hx hnd, worker_thread g0⟩
      · exact absurd rfl (hK.inv.ids.lnew e _ _ _ g1 j hj)
      · obtain rfl := same_job hN hk hj g1
        exact absurd g2 hq
    · rw [← hid]
      have hnd : ∀ e, l ≠ .destroy e := by rintro e rfl; exact h.1
      exact By.next (fun hx => ⟨hO hx hnd, worker_thread h.1⟩) (fun _ => hT.picked j hj h.2.1)
    · obtain ⟨rfl, h1, h2, h3⟩ := h
      have hx : Loc.request j'.id ∈ Event.touches ⟨s, .pick, s'⟩ := by simp [Event.touches, h1, hid]
      refine By.next (fun _ => ⟨hO hx nofun, ?_⟩) (fun h => absurd hx h)
      simp only [Event.thread, h1, hid]
  case loader =>
    intro e i r p hl
    rcases loader_back hs hl with ⟨rfl, rfl⟩ | ⟨⟨r', p', h1⟩, h2⟩
    · exact Untouched.next (by simp [Event.touches]) (hT.fresh _ (Nat.le_refl _))
    · refine Untouched.next (fun hx => ?_) (hT.loader e i r' p' h1)
      rcases req_touch hs hx with ⟨_, j, hj, g1, _⟩ | ⟨e', req, rfl, g1⟩ | ⟨_, j, hj, g1, _⟩
      · exact hK.inv.ids.lnew e i _ _ h1 j hj g1
      · obtain rfl := hK.inv.ids.linj e e' i _ _ _ _ h1 g1
        exact h2 rfl
      · exact hK.inv.ids.lnew e i _ _ h1 j hj g1
  case fresh =>
    intro i hi
    have h0 := Nat.le_trans (next_mono hs) hi
    refine Untouched.next (fun hx => ?_) (hT.fresh i h0)
    rcases req_touch hs hx with ⟨_, j, hj, g1, _⟩ | ⟨e', req, rfl, g1⟩ | ⟨_, j, hj, g1, _⟩
    · have := hK.inv.ids.jlt j hj; omega
    · have := hK.inv.ids.llt e' i _ _ g1; omega
    · have := hK.inv.ids.jlt j hj; omega
  case alive =>
    intro e he
    rcases (status_back hs e).1 he with rfl | ⟨h1, h2⟩
    · have hx : Loc.fades e ∈ Event.touches ⟨s, .create e, s'⟩ := List.mem_singleton.mpr rfl
      exact By.next (fun _ => ⟨hO hx nofun, List.mem_cons_self⟩) (fun h => absurd hx h)
    · refine By.next (fun hx => ?_) (fun _ => hT.alive e h1)
      rcases fades_touch hs hx with ⟨rfl, g1⟩ | ⟨k, rfl, g1⟩ | ⟨g1, g2⟩ | ⟨rfl, g1, g2⟩
      · rw [h1] at g1; cases g1
      · exact ⟨hO hx nofun, List.mem_cons_self⟩
      · have hnd : ∀ e, l ≠ .destroy e := by rintro e rfl; exact g1
        exact ⟨hO hx hnd, audio_releases (audio_thread g1)⟩
      · exact absurd rfl h2
  case busy =>
    intro e he
    rcases (status_back hs e).2.2 he with ha | h1
    · have hnd : ∀ e, l ≠ .destroy e := by rintro e rfl; exact ha
      have hx : Loc.fades e ∈ Event.touches ⟨s, l, s'⟩ := by
        cases l <;> first | exact absurd ha id | (cases ha; simp [Event.touches])
      exact By.next (fun _ => ⟨hO hx hnd, audio_thread ha⟩) (fun h => absurd hx h)
    · refine By.next (fun hx => ?_) (fun _ => hT.busy e h1)
      rcases fades_touch hs hx with ⟨rfl, g1⟩ | ⟨k, rfl, g1⟩ | ⟨g1, g2⟩ | ⟨rfl, g1, g2⟩
      · rw [(hK.inv.flow e).alive h1] at g1; cases g1
      · exact ⟨hO hx nofun, rfl⟩
      · have hnd : ∀ e, l ≠ .destroy e := by rintro e rfl; exact g1
        exact ⟨hO hx hnd, audio_thread g1⟩
      · exact absurd g2 h1
  case unborn =>
    intro e he
    obtain ⟨h1, h2⟩ := (status_back hs e).2.1 he
    refine Untouched.next (fun hx => ?_) (hT.unborn e h1)
    rcases fades_touch hs hx with ⟨rfl, g1⟩ | ⟨k, rfl, g1⟩ | ⟨g1, g2⟩ | ⟨rfl, g1, g2⟩
    · exact h2 rfl
    · rw [h1] at g1; cases g1
    · rw [(hK.inv.flow e).alive g2] at h1; cases h1
    · rw [h1] at g1; cases g1

theorem Tidy.start : Tidy ([] : List (Event V R)) {} where
  carried := nofun
  waiting := nofun
  slotted := nofun
  noticed := nofun
  made _ _ := nofun
  queued := nofun
  picked := nofun
  loader := nofun
  fresh _ _ := nofun
  alive := nofun
  busy e h := absurd rfl h
  unborn _ _ := nofun

theorem history_exec {ops : ConvOps V} {build : R → ProcSpec → V} {tr : List (Event V R)} {s : Sys V R} (h : History ops build tr s) :
    Exec ops build (tr.map Event.label) s := by
  induction h with
  | start => exact .nil _
  | step h hs ih =>
    rw [List.map_append]
    exact Run.append ih (Run.single hs)

theorem history_tidy {ops : ConvOps V} {build : R → ProcSpec → V} {tr : List (Event V R)} {s : Sys V R} (h : History ops build tr s) : Tidy tr s := by
  induction h with
  | start => exact Tidy.start
  | step h hs ih => exact ih.step (exec_settled (history_exec h)) hs

end Zones.Proofs
