import Verif.Proofs.Races

/-!
# Data races: C82, C83
-/

open Zones.Spec Zones.Model Zones.Proofs

namespace Zones.Props

variable {V R : Type} {ops : ConvOps V} {build : R → ProcSpec → V} {s : Sys V R} {tr : List (Event V R)}

/-! ## C82 -/

/-- **C82.** In every execution of any number of engines, callers, workers, audio threads, background threads and the message thread, two
accesses to the same convolver, the same job or the members for the fades of the same engine are ordered by happens-before, whatever the
schedule — unless the later one is a destructor destroying a convolver that is still waiting in the engine's command queue. -/
theorem C82_no_races (h : History ops build tr s) {i j : ℕ} {a b : Event V R} {x : Loc} (hij : i < j) (ha : tr[i]? = some a) (hb : tr[j]? = some b)
    (hxa : x ∈ a.touches) (hxb : x ∈ b.touches) (hd : ∀ e, b.label = .destroy e → ∀ g ∈ (b.pre.engs e).cmd, x ≠ .convolver g.id) :
    HappensBefore tr i j := by
  induction h with
  | start => cases ha
  | @step tr s s' l h hs ih =>
    rcases get_cases hb with hb | ⟨rfl, rfl⟩
    · have hj := lt_of_get hb
      have ha' : tr[i]? = some a := by
        rw [List.getElem?_append_left (by omega)] at ha
        exact ha
      exact HappensBefore.old (ih ha' hb)
    · have ha' : tr[i]? = some a := by
        rw [List.getElem?_append_left hij] at ha
        exact ha
      rcases (history_tidy h).ordered (exec_settled (history_exec h)) hs hxb with ho | ⟨e, g, hg, hl, hx⟩
      · exact ho i a ha' hxa
      · exact absurd hx (hd e hl g hg)

/-- **C82.** In particular nothing races with the destructor of an engine whose command queue is empty. -/
theorem C82_destructor (h : History ops build tr s) {i j e : ℕ} {a b : Event V R} {x : Loc} (hij : i < j) (ha : tr[i]? = some a) (hb : tr[j]? = some b)
    (hxa : x ∈ a.touches) (hxb : x ∈ b.touches) (hl : b.label = .destroy e) (hc : (b.pre.engs e).cmd = []) : HappensBefore tr i j := by
  refine C82_no_races h hij ha hb hxa hxb fun e' hl' g hg => ?_
  rw [hl] at hl'
  cases hl'
  rw [hc] at hg
  cases hg

/-! ## C83 -/

/-- What a step happens before. -/
theorem happens_closed {S : ℕ → Prop} (hS : ∀ (p q : ℕ) (a b : Event V R), S p → p < q → tr[p]? = some a → tr[q]? = some b →
      (a.thread = b.thread ∨ ∃ x ∈ a.releases, x ∈ b.acquires) → S q) {p q : ℕ} (h : HappensBefore tr p q) : S p → S q := by
  induction h with
  | program h ha hb ht => exact fun hp => hS _ _ _ _ hp h ha hb (.inl ht)
  | sync h ha hb h1 h2 => exact fun hp => hS _ _ _ _ hp h ha hb (.inr ⟨_, h1, h2⟩)
  | trans h1 h2 ih1 ih2 => exact fun hp => ih2 (ih1 hp)

/-- The last two steps are not ordered. -/
theorem last_unordered {a b : Event V R} (ht : a.thread ≠ b.thread) (hx : ∀ x ∈ a.releases, x ∉ b.acquires) :
    ¬ HappensBefore (tr ++ [a] ++ [b]) tr.length (tr.length + 1) := by
  intro h
  have ha : (tr ++ [a] ++ [b])[tr.length]? = some a := get_old (get_new tr a)
  have hb : (tr ++ [a] ++ [b])[tr.length + 1]? = some b := by simp
  have := happens_closed (S := fun k => k = tr.length) (fun p q a' b' hp hpq ha' hb' hc => ?_) h rfl
  · omega
  · subst hp
    have hq := lt_of_get hb'
    simp only [List.length_append, List.length_singleton] at hq
    obtain rfl : q = tr.length + 1 := by omega
    rw [ha] at ha'
    rw [hb] at hb'
    cases ha'
    cases hb'
    rcases hc with hc | ⟨x, h1, h2⟩
    · exact absurd hc ht
    · exact absurd h2 (hx x h1)

/-- **C83.** `LoadIR` reads `spec_` and writes `is_loading_` under `load_mutex_`, but `prepare` writes both without it: whenever a call of `LoadIR` is about to
do so and no audio-side call is being made, `prepare` can be called right then, and nothing orders the two: a data race. -/
theorem C83_prepare_races (h : History ops build tr s) {e : ℕ} {i : ℕ} {req : R} (ha : (s.engs e).status = .alive) (hi : (s.engs e).pc = .idle)
    (hl : (s.engs e).loader = some (i, req, .removed)) (hs : (s.engs e).core.spec ≠ none) (p : ProcSpec) (g : ℕ → ℕ → ℝ) :
    ∃ (a b : Event V R) (s' : Sys V R), History ops build (tr ++ [a] ++ [b]) s' ∧ a.label = .loadFlag e ∧ b.label = .call e (.prepare p g) ∧
      (Loc.spec e ∈ a.reads ∧ Loc.spec e ∈ b.writes) ∧ (Loc.loading e ∈ a.writes ∧ Loc.loading e ∈ b.writes) ∧
      ¬ HappensBefore (tr ++ [a] ++ [b]) tr.length (tr.length + 1) := by
  have hsome : (s.engs e).core.spec.isSome = true := Option.isSome_iff_ne_none.mpr hs
  have step1 := Step.loadFlag (ops := ops) (build := build) hl hs
  have step2 : Step ops build _ (.call e (.prepare p g)) _ := Step.call (ops := ops) (build := build) (s := s.setEng e { s.engs e with
          loader := some (i, req, .flagged)
          loading := true
          notified := (s.engs e).notified ++ [true] }) (e := e) (k := .prepare p g) (by rw [setEng_engs, if_pos rfl]; exact ha) (by rw [setEng_engs, if_pos rfl]; exact hi)
  refine ⟨_, _, _, .step (.step h step1) step2, rfl, rfl, ⟨?_, ?_⟩, ⟨?_, ?_⟩, last_unordered ?_ ?_⟩
  · exact List.mem_singleton.mpr rfl
  · exact List.mem_cons_self
  · show Loc.loading e ∈ (if (s.engs e).core.spec.isSome = true then [Loc.loading e] else [])
    rw [if_pos hsome]
    exact List.mem_singleton.mpr rfl
  · exact List.mem_cons_of_mem _ List.mem_cons_self
  · simp [Event.thread, hl]
  · intro x hx
    simp [Event.releases, hsome] at hx

/-- **C83.** The same with `reset` and `Clear`, which write `is_loading_`. -/
theorem C83_reset_races (h : History ops build tr s) {e : ℕ} {i : ℕ} {req : R} (ha : (s.engs e).status = .alive) (hi : (s.engs e).pc = .idle)
    (hl : (s.engs e).loader = some (i, req, .removed)) (hs : (s.engs e).core.spec ≠ none) {k : Call} (hk : k = .reset ∨ k = .clear) :
    ∃ (a b : Event V R) (s' : Sys V R), History ops build (tr ++ [a] ++ [b]) s' ∧ a.label = .loadFlag e ∧ b.label = .call e k ∧
      Loc.loading e ∈ a.writes ∧ Loc.loading e ∈ b.writes ∧ ¬ HappensBefore (tr ++ [a] ++ [b]) tr.length (tr.length + 1) := by
  have hsome : (s.engs e).core.spec.isSome = true := Option.isSome_iff_ne_none.mpr hs
  have step1 := Step.loadFlag (ops := ops) (build := build) hl hs
  have step2 : Step ops build _ (.call e k) _ := Step.call (ops := ops) (build := build) (s := s.setEng e { s.engs e with
          loader := some (i, req, .flagged)
          loading := true
          notified := (s.engs e).notified ++ [true] }) (e := e) (k := k) (by rw [setEng_engs, if_pos rfl]; exact ha) (by rw [setEng_engs, if_pos rfl]; exact hi)
  refine ⟨_, _, _, .step (.step h step1) step2, rfl, rfl, ?_, ?_, last_unordered ?_ ?_⟩
  · show Loc.loading e ∈ (if (s.engs e).core.spec.isSome = true then [Loc.loading e] else [])
    rw [if_pos hsome]
    exact List.mem_singleton.mpr rfl
  · rcases hk with rfl | rfl <;> exact List.mem_cons_self
  · simp [Event.thread, hl]
  · intro x hx
    simp [Event.releases, hsome] at hx

/-- **C83.** `~ConvolutionEngine` does not lock `load_mutex_`: the destructor of an engine that is not in use races with the construction of a
convolver that a worker has just put into its command queue, even if the worker has returned from its job. -/
theorem C83_destructor_races (h : History ops build tr s) {j : Job V R} {v : V} (hj : j ∈ s.jobs) (hv : j.pc = .locked v) (hst : j.stop = false)
    (ha : (s.engs j.eng).status = .alive) (hi : (s.engs j.eng).pc = .idle) (hb : (s.engs j.eng).bg = none)
    (hroom : (s.engs j.eng).cmd.length + (s.engs j.eng).cmdTaken < queueRoom) :
    ∃ (a m b : Event V R) (s' : Sys V R), History ops build (tr ++ [a] ++ [m] ++ [b]) s' ∧ a.label = .jobCheck j.id ∧ m.label = .jobDone j.id ∧ b.label = .destroy j.eng ∧
      Loc.convolver j.id ∈ a.touches ∧ Loc.convolver j.id ∈ b.touches ∧ ¬ HappensBefore (tr ++ [a] ++ [m] ++ [b]) tr.length (tr.length + 2) := by
  have hL := (exec_inv (history_exec h)).locks
  have hload : (s.engs j.eng).loader = none := by
    by_contra hc
    have h1 := hL.excl j.eng hc
    rw [hL.jhold j hj (holds_iff.mpr (.inl ⟨v, hv⟩))] at h1
    cases h1
  have hN := (exec_inv (history_exec h)).ids.nodup
  have step1 := Step.jobPush (ops := ops) (build := build) hj hv ha hst hroom
  have hj2 := setJob_mem (j' := { j with pc := .pushed }) hj rfl
  have step2 : Step ops build _ (.jobDone j.id) _ := Step.jobDone (ops := ops) (build := build) (s := (s.setJob { j with pc := .pushed }).setEng j.eng { s.engs j.eng with
          cmd := (s.engs j.eng).cmd ++ [⟨j.id, v⟩]
          delivered := (s.engs j.eng).delivered ++ [⟨j.id, v⟩] }) (j := { j with pc := .pushed }) hj2 rfl (by rw [setEng_engs, if_pos rfl]; exact ha)
  obtain ⟨x1, hx1⟩ : ∃ s1, s1 = (s.setJob { j with pc := .pushed }).setEng j.eng { s.engs j.eng with
          cmd := (s.engs j.eng).cmd ++ [⟨j.id, v⟩]
          delivered := (s.engs j.eng).delivered ++ [⟨j.id, v⟩] } := ⟨_, rfl⟩
  rw [← hx1] at step1 step2
  have e1 : x1.engs j.eng = { s.engs j.eng with
          cmd := (s.engs j.eng).cmd ++ [⟨j.id, v⟩]
          delivered := (s.engs j.eng).delivered ++ [⟨j.id, v⟩] } := by rw [hx1, setEng_engs, if_pos rfl]
  obtain ⟨x2, hx2⟩ : ∃ s2, s2 = { (x1.dropJob j.id).setEng j.eng { x1.engs j.eng with
            holder := none
            loading := false } with async := x1.async ++ [j.eng] } := ⟨_, rfl⟩
  have step2' : Step ops build x1 (.jobDone j.id) x2 := by rw [hx2]; exact step2
  have e2 : x2.engs j.eng = { x1.engs j.eng with
            holder := none
            loading := false } := by
    rw [hx2]
    show ((x1.dropJob j.id).setEng j.eng _).engs j.eng = _
    rw [setEng_engs, if_pos rfl]
  obtain ⟨x3, step3⟩ : ∃ x3, Step ops build x2 (.destroy j.eng) x3 := ⟨_, Step.destroy (ops := ops) (build := build) (s := x2) (e := j.eng)
    (by rw [e2, e1]; exact ha) (by rw [e2, e1]; exact hi) (by rw [e2, e1]; exact hload) (by rw [e2, e1]; exact hb)⟩
  refine ⟨_, _, _, _, .step (.step (.step h step1) step2') step3, rfl, rfl, rfl, ?_, ?_, ?_⟩
  · simp [Event.touches]
  · have : (⟨j.id, v⟩ : Held V) ∈ (x2.engs j.eng).holding := by
      rw [e2, e1]
      simp [Eng.holding]
    exact List.mem_cons_of_mem _ (List.mem_map.mpr ⟨_, this, rfl⟩)
  · intro hh
    have := happens_closed (S := fun k => k = tr.length ∨ k = tr.length + 1) (fun p q a' b' hp hpq ha' hb' hc => ?_) hh (.inl rfl)
    · omega
    · have hq := lt_of_get hb'
      simp only [List.length_append, List.length_singleton] at hq
      by_contra hn
      obtain rfl : q = tr.length + 2 := by omega
      have hb2 : b' = ⟨x2, .destroy j.eng, x3⟩ := by
        rw [show tr.length + 2 = (tr ++ [_] ++ [_]).length by simp, get_new] at hb'
        exact (Option.some.inj hb').symm
      subst hb2
      have hacq : ∀ x ∈ Event.acquires (V := V) ⟨x2, .destroy j.eng, x3⟩, x = .client j.eng ∨ x = .joined j.eng := fun x hx => by
        simpa [Event.acquires] using hx
      rcases hp with rfl | rfl
      · have ha2 : a' = ⟨s, .jobCheck j.id, x1⟩ := by
          rw [get_old (get_old (get_new tr _))] at ha'
          exact (Option.some.inj ha').symm
        subst ha2
        have hrel : ∀ x ∈ Event.releases (V := V) ⟨s, .jobCheck j.id, x1⟩, x ≠ .client j.eng ∧ x ≠ .joined j.eng := by
          intro x hx
          rcases List.mem_append.mp hx with hx | hx
          · rcases List.mem_append.mp hx with hx | hx
            · obtain ⟨g, _, rfl⟩ := List.mem_map.mp hx
              exact ⟨nofun, nofun⟩
            · obtain ⟨o, _, hx⟩ := List.mem_flatMap.mp hx
              obtain ⟨g, _, rfl⟩ := List.mem_map.mp hx
              exact ⟨nofun, nofun⟩
          · split_ifs at hx
            · rcases List.mem_cons.mp hx with rfl | hx
              · exact ⟨nofun, nofun⟩
              · obtain rfl := List.mem_singleton.mp hx
                exact ⟨nofun, nofun⟩
            · cases hx
        rcases hc with hc | ⟨x, h1, h2⟩
        · simp [Event.thread] at hc
        · rcases hacq x h2 with rfl | rfl
          · exact (hrel _ h1).1 rfl
          · exact (hrel _ h1).2 rfl
      · have ha2 : a' = ⟨x1, .jobDone j.id, x2⟩ := by
          rw [get_old (show (tr ++ [_] ++ [_])[tr.length + 1]? = _ by rw [show tr.length + 1 = (tr ++ [_]).length by simp, get_new])] at ha'
          exact (Option.some.inj ha').symm
        subst ha2
        rcases hc with hc | ⟨x, h1, h2⟩
        · simp [Event.thread] at hc
        · rcases hacq x h2 with rfl | rfl
          · simp [Event.releases] at h1
          · simp [Event.releases] at h1

/-- Every execution is a history. -/
theorem exec_history {ls : List (Label R)} (h : Exec ops build ls s) : ∃ tr, History ops build tr s ∧ tr.map Event.label = ls := by
  refine exec_induct (P := fun ls s => ∃ tr, History ops build tr s ∧ tr.map Event.label = ls) ⟨[], .start, rfl⟩ ?_ h
  rintro ls s l s' _ ⟨tr, h1, h2⟩ hs
  exact ⟨_, .step h1 hs, by simp [h2]⟩

/-- The hypotheses of `C83_prepare_races` and `C83_reset_races` are met while an engine that has been prepared loads. -/
theorem C83_prepare_example (ops : ConvOps V) (build : R → ProcSpec → V) (p : ProcSpec) (req : R) :
    ∃ (tr : List (Event V R)) (s : Sys V R), History ops build tr s ∧ (s.engs 0).status = .alive ∧ (s.engs 0).pc = .idle ∧
      (s.engs 0).loader = some (0, req, .removed) ∧ (s.engs 0).core.spec ≠ none := by
  obtain ⟨s, h, h1, h2, h3, h4⟩ : ∃ s, Exec ops build ([.create 0, .call 0 (.prepare p fun _ _ => 0), .service 0, .serviced 0, .body 0, .loadLock 0 req, .loadRemove 0] : List (Label R)) s ∧
      (s.engs 0).status = .alive ∧ (s.engs 0).pc = .idle ∧ (s.engs 0).loader = some (0, req, .removed) ∧ (s.engs 0).core.spec ≠ none := by
    refine ⟨_, .cons (.create rfl) (.cons (.call rfl rfl) (.cons (.service rfl) (.cons (.serviced rfl) (.cons (.body rfl rfl)
      (.cons (.loadLock rfl ⟨rfl, rfl⟩) (.cons (.loadRemove rfl) (.nil _))))))), rfl, rfl, rfl, ?_⟩
    exact Option.some_ne_none p
  obtain ⟨tr, ht, _⟩ := exec_history h
  exact ⟨tr, s, ht, h1, h2, h3, h4⟩

/-- The hypotheses of `C83_destructor_races` are met while the job of the first load is about to deliver; `C82_no_races` applies to all accesses up to there. -/
theorem C83_destructor_example (ops : ConvOps V) (build : R → ProcSpec → V) (p : ProcSpec) (req : R) :
    ∃ (tr : List (Event V R)) (s : Sys V R) (j : Job V R) (v : V), History ops build tr s ∧ j ∈ s.jobs ∧ j.pc = .locked v ∧ j.stop = false ∧
      (s.engs j.eng).status = .alive ∧ (s.engs j.eng).pc = .idle ∧ (s.engs j.eng).bg = none ∧ (s.engs j.eng).cmd.length + (s.engs j.eng).cmdTaken < queueRoom := by
  obtain ⟨s, h, h0, h1, h2, h3, h4⟩ : ∃ s, Exec ops build ([.create 0, .call 0 (.prepare p fun _ _ => 0), .service 0, .serviced 0, .body 0, .loadLock 0 req, .loadRemove 0,
        .loadFlag 0, .loadAdd 0, .pick, .build 0, .jobLock 0] : List (Label R)) s ∧ (⟨0, 0, req, p, false, .locked (build req p)⟩ : Job V R) ∈ s.jobs ∧
      (s.engs 0).status = .alive ∧ (s.engs 0).pc = .idle ∧ (s.engs 0).bg = none ∧ (s.engs 0).cmd.length + (s.engs 0).cmdTaken < queueRoom := by
    refine ⟨_, .cons (.create rfl) (.cons (.call rfl rfl) (.cons (.service rfl) (.cons (.serviced rfl) (.cons (.body rfl rfl)
      (.cons (.loadLock rfl ⟨rfl, rfl⟩) (.cons (.loadRemove rfl) (.cons (.loadFlag rfl (by exact Option.some_ne_none p)) (.cons (.loadAdd rfl rfl)
      (.cons (.pick rfl) (.cons (.build (j := ⟨0, 0, req, p, false, .building⟩) ?_ rfl)
      (.cons (.jobLock (j := ⟨0, 0, req, p, false, .built (build req p)⟩) ?_ rfl rfl ⟨rfl, rfl⟩) (.nil _)))))))))))), ?_, rfl, rfl, rfl, ?_⟩
    · exact List.Mem.head _
    · exact List.Mem.head _
    · exact List.Mem.head _
    · show (0 : ℕ) < _
      decide
  obtain ⟨tr, ht, _⟩ := exec_history h
  exact ⟨tr, s, ⟨0, 0, req, p, false, .locked (build req p)⟩, build req p, ht, h0, rfl, rfl, h1, h2, h3, h4⟩

/-- A case in which C82 has something to say: a convolver is constructed on a worker, and handed to the audio thread by a `process` call. -/
theorem C82_example (ops : ConvOps V) (build : R → ProcSpec → V) (p : ProcSpec) (req : R) (blk : Buf) :
    ∃ (tr : List (Event V R)) (s : Sys V R) (i j : ℕ) (a b : Event V R), History ops build tr s ∧ i < j ∧ tr[i]? = some a ∧ tr[j]? = some b ∧
      a.label = .build 0 ∧ b.label = .visit 0 ∧ Loc.convolver 0 ∈ a.touches ∧ Loc.convolver 0 ∈ b.touches ∧ a.thread ≠ b.thread := by
  obtain ⟨s, h, hp, hc⟩ : ∃ s, Exec ops build ([.create 0, .call 0 (.prepare p fun _ _ => 0), .service 0, .serviced 0, .body 0,
      .loadLock 0 req, .loadRemove 0, .loadFlag 0, .loadAdd 0, .pick, .build 0, .jobLock 0, .jobCheck 0, .jobDone 0, .call 0 (.process blk), .service 0] : List (Label R)) s ∧
      (s.engs 0).pc = .serving (.process blk) [] 1 ∧ (s.engs 0).cmd = [⟨0, build req p⟩] := by
    refine ⟨_, .cons (.create rfl) (.cons (.call rfl rfl) (.cons (.service rfl) (.cons (.serviced rfl) (.cons (.body rfl rfl)
      (.cons (.loadLock rfl ⟨rfl, rfl⟩) (.cons (.loadRemove rfl) (.cons (.loadFlag rfl (by exact Option.some_ne_none p)) (.cons (.loadAdd rfl rfl)
      (.cons (.pick rfl) (.cons (.build (j := ⟨0, 0, req, p, false, .building⟩) ?_ rfl)
      (.cons (.jobLock (j := ⟨0, 0, req, p, false, .built (build req p)⟩) ?_ rfl rfl ⟨rfl, rfl⟩) (.cons (.jobPush (j := ⟨0, 0, req, p, false, .locked (build req p)⟩) ?_ rfl rfl rfl ?_)
      (.cons (.jobDone (j := ⟨0, 0, req, p, false, .pushed⟩) ?_ rfl rfl) (.cons (.call rfl rfl) (.cons (.service rfl) (.nil _)))))))))))))))), rfl, rfl⟩
    · exact List.Mem.head _
    · exact List.Mem.head _
    · exact List.Mem.head _
    · show (0 : ℕ) < _
      decide
    · exact List.Mem.head _
  obtain ⟨tr, ht, hl⟩ := exec_history h
  have hlen : tr.length = 16 := by rw [← List.length_map (f := Event.label), hl]; rfl
  obtain ⟨a, ha⟩ : ∃ a, tr[10]? = some a := ⟨tr[10], List.getElem?_eq_getElem (by omega)⟩
  have la : (tr.map Event.label)[10]? = some a.label := by rw [List.getElem?_map, ha]; rfl
  rw [hl] at la
  replace la : a.label = .build 0 := (Option.some.inj la).symm
  refine ⟨_, _, 10, 16, a, _, .step ht (.visit hp hc), by omega, get_old ha, by rw [← hlen]; exact get_new _ _, la, rfl, ?_, ?_, ?_⟩
  · simp [Event.touches, la]
  · simp [Event.touches, hc]
  · simp [Event.thread, la]

end Zones.Props
