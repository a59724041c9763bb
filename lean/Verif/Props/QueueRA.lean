import Verif.Proofs.QueueRA
import Verif.Props.Queue

/-!
# C77: the command queues on a weakly ordered memory
-/

open Zones.Model Zones.Proofs

namespace Zones.Props

variable {α : Type}

/-- `s` occurs in some execution with release/acquire atomics. -/
def RReachable (s : RSys α) : Prop := ∃ ls, (RSys.init : RSys α).run ls = some s

theorem RReachable.inv {s : RSys α} (h : RReachable s) : ∃ rel, RInv rel s := by
  obtain ⟨ls, e⟩ := h
  exact rinv_run ⟨_, rinv_init⟩ e

/-- **C77.** No execution contains a data race: whenever a thread accesses a slot, all earlier accesses to it happened before. And only
the 400 slots that exist are accessed. -/
theorem C77_no_data_race {s : RSys α} (h : RReachable s) :
    s.race = false ∧ (∀ a i b, s.p = .writing a i b → 0 ≤ i ∧ i < 400 ∧ s.pv.slots i = s.touched i) ∧
      (∀ i is b, s.c = .reading i is b → 0 ≤ i ∧ i < 400 ∧ s.cv.slots i = s.touched i) := by
  obtain ⟨rel, h⟩ := h.inv
  refine ⟨h.race, fun a i b e => ?_, fun i is b e => ?_⟩
  · have hp := h.p
    rw [e] at hp
    obtain ⟨hi, _, _⟩ := hp
    refine ⟨by omega, by omega, le_antisymm (h.pv.known i) ?_⟩
    have e' : s.step (.producer 0) = some { s with
      p := .fin1 a b, slots := Function.update s.slots i (some a), race := s.race || decide (s.pv.slots i < s.touched i),
      touched := Function.update s.touched i (s.touched i + 1),
      pv := { s.pv with slots := Function.update s.pv.slots i (s.touched i + 1) } } := by
      show s.pstep 0 = _
      unfold RSys.pstep
      rw [e]
    obtain ⟨rel', h', _⟩ := rinv_step h e'
    have := h'.race
    simp only [Bool.or_eq_false_iff, decide_eq_false_iff_not] at this
    omega
  · have hc := h.c
    rw [e] at hc
    obtain ⟨_, _, _, _, _, hi, _⟩ := hc
    refine ⟨by omega, by omega, le_antisymm (h.cv.known i) ?_⟩
    have e' : s.step (.consumer 0) = some { s with
      c := .loop is b, visited := s.visited ++ [s.slots i], slots := Function.update s.slots i none,
      race := s.race || decide (s.cv.slots i < s.touched i),
      touched := Function.update s.touched i (s.touched i + 1),
      cv := { s.cv with slots := Function.update s.cv.slots i (s.touched i + 1) } } := by
      show s.cstep 0 = _
      unfold RSys.cstep
      rw [e]
    obtain ⟨rel', h', _⟩ := rinv_step h e'
    have := h'.race
    simp only [Bool.or_eq_false_iff, decide_eq_false_iff_not] at this
    omega

/-- **C77.** In every execution, however stale the values are that the loads return, the commands handed to the visitor so far are a prefix
of the accepted commands: nothing is lost, duplicated, reordered or read before it has been written. At most 399 accepted commands
hold a slot. -/
theorem C77_in_order_exactly_once {s : RSys α} (h : RReachable s) :
    (∃ rest, s.accepted.map some = s.visited ++ rest) ∧ s.released ≤ s.visited.length ∧ s.accepted.length ≤ s.released + 399 := by
  obtain ⟨rel, h⟩ := h.inv
  refine ⟨⟨(s.accepted.drop s.visited.length).map some, ?_⟩, h.lo, by have := h.within; omega⟩
  conv_rhs => rw [h.visited]
  rw [List.length_map, List.length_take, min_eq_left h.visited_le, ← List.map_append, List.take_append_drop]

/-- progress of a service by a thread that knows of `A` accepted commands -/
def RServing (A n0 : ℕ) (s : RSys α) : Prop :=
  (s.served = n0 ∧ A ≤ s.cv.ve ∧ match s.c with
    | .idle => False
    | .ready1 => True
    | .ready2 _ => True
    | .prep1 n => (A : ℤ) ≤ s.released + n
    | .prep2 n _ => (A : ℤ) ≤ s.released + n
    | .loop _ b => (A : ℤ) ≤ s.released + b
    | .reading _ _ b => (A : ℤ) ≤ s.released + b
    | .fin1 b => (A : ℤ) ≤ s.released + b
    | .fin2 _ => A ≤ s.visited.length) ∨
  (n0 < s.served ∧ A ≤ s.visited.length)

theorem load_grows {l : Loc} {v : Knowledge} {pos k : ℕ} {r : ℤ × Knowledge} (e : RSys.load l v pos k = some r) : v.ve ≤ r.2.ve ∧ v.vs ≤ r.2.vs := by
  obtain ⟨_, _, rfl⟩ := load_some e
  exact ⟨le_max_left _ _, le_max_left _ _⟩

theorem pstep_consumer {s s' : RSys α} {k : ℕ} (e : s.pstep k = some s') :
    s'.c = s.c ∧ s'.cv = s.cv ∧ s'.served = s.served ∧ s'.visited = s.visited ∧ s'.released = s.released := by
  unfold RSys.pstep at e
  split at e
  all_goals first
    | cases e; done
    | (cases e; exact ⟨rfl, rfl, rfl, rfl, rfl⟩)
    | (simp only [Option.map_eq_some_iff] at e
       obtain ⟨r, _, rfl⟩ := e
       first | exact ⟨rfl, rfl, rfl, rfl, rfl⟩ | (split <;> exact ⟨rfl, rfl, rfl, rfl, rfl⟩))
    | (split at e
       · cases e; exact ⟨rfl, rfl, rfl, rfl, rfl⟩
       · split at e <;> (cases e; exact ⟨rfl, rfl, rfl, rfl, rfl⟩))

theorem cstep_producer {s s' : RSys α} {k : ℕ} (e : s.cstep k = some s') :
    s'.p = s.p ∧ s'.pv = s.pv ∧ s'.results = s.results ∧ s'.accepted = s.accepted := by
  unfold RSys.cstep at e
  split at e
  all_goals first
    | cases e; done
    | (cases e; exact ⟨rfl, rfl, rfl, rfl⟩)
    | (simp only [Option.map_eq_some_iff] at e
       obtain ⟨r, _, rfl⟩ := e
       exact ⟨rfl, rfl, rfl, rfl⟩)

theorem RServing.of_same {A n0 : ℕ} {s s' : RSys α} (h : RServing A n0 s) (h1 : s'.c = s.c) (h2 : s.cv.ve ≤ s'.cv.ve) (h3 : s'.served = s.served)
    (h4 : s'.visited = s.visited) (h5 : s'.released = s.released) : RServing A n0 s' := by
  unfold RServing at h ⊢
  rw [h1, h3, h4, h5]
  rcases h with ⟨a, b, c⟩ | h
  · exact Or.inl ⟨a, b.trans h2, c⟩
  · exact Or.inr h

theorem rserving_step {A n0 : ℕ} {rel : ℕ → ℕ} {s s' : RSys α} {l : RLabel α} (hi : RInv rel s) (h : RServing A n0 s)
    (e : s.step l = some s') : RServing A n0 s' := by
  cases l with
  | push a =>
    unfold RSys.step at e
    simp only at e
    split at e <;> cases e
    exact h
  | producer k =>
    obtain ⟨h1, h2, h3, h4, h5⟩ := pstep_consumer e
    exact h.of_same h1 (by rw [h2]) h3 h4 h5
  | producerTold => cases e; exact h
  | consumerTold => cases e; exact h.of_same rfl (le_max_left _ _) rfl rfl rfl
  | service =>
    unfold RSys.step at e
    simp only at e
    split at e
    · rename_i hcc
      cases e
      rcases h with ⟨_, _, c⟩ | h
      · rw [hcc] at c; exact c.elim
      · exact Or.inr h
    · cases e
  | consumer k =>
    have e : s.cstep k = some s' := e
    have hc := hi.c
    have hwithin := hi.within
    have hlo := hi.lo
    have hmid := hi.mid
    unfold RSys.cstep at e
    rcases h with ⟨hn, hA, hm⟩ | h
    · cases hcc : s.c with
      | idle => rw [hcc] at e; cases e
      | ready1 =>
        rw [hcc] at e
        simp only [Option.map_eq_some_iff] at e
        obtain ⟨r, er, rfl⟩ := e
        exact Or.inl ⟨hn, hA.trans (load_grows er).1, trivial⟩
      | ready2 v =>
        rw [hcc] at e hc
        simp only [Option.map_eq_some_iff] at e
        obtain ⟨r, er, rfl⟩ := e
        obtain ⟨h1, h2, h3, h4, h5⟩ := hi.loadVeC er
        refine Or.inl ⟨hn, hA.trans (load_grows er).1, ?_⟩
        show (A : ℤ) ≤ s.released + Fifo.numReady kMaxQueueSize v r.1
        rw [hc.2, h2]
        have : Fifo.numReady kMaxQueueSize _ _ = _ := numReady_eq (R := s.released) (W := k) (by omega) (by omega)
        rw [this]
        omega
      | prep1 n =>
        rw [hcc] at e hm
        simp only [Option.map_eq_some_iff] at e
        obtain ⟨r, er, rfl⟩ := e
        exact Or.inl ⟨hn, hA.trans (load_grows er).1, hm⟩
      | prep2 n v =>
        rw [hcc] at e hm hc
        simp only [Option.map_eq_some_iff] at e
        obtain ⟨r, er, rfl⟩ := e
        obtain ⟨h1, h2, h3, h4, h5⟩ := hi.loadVeC er
        obtain ⟨hV, hv, m, hn', hk⟩ := hc
        obtain ⟨_, p2⟩ := prepareToRead_eq (R := s.released) (W := k) (n := m) (by omega) (by omega) (by omega)
        refine Or.inl ⟨hn, hA.trans (load_grows er).1, ?_⟩
        show (A : ℤ) ≤ s.released + ((Fifo.prepareToRead kMaxQueueSize v r.1 n).b1 + (Fifo.prepareToRead kMaxQueueSize v r.1 n).b2)
        have : (Fifo.prepareToRead kMaxQueueSize v r.1 n).b1 + (Fifo.prepareToRead kMaxQueueSize v r.1 n).b2 = m := by
          rw [hv, h2, hn']; exact p2
        rw [this]
        simp only at hm
        omega
      | loop is b =>
        rw [hcc] at hm
        cases is <;> rw [hcc] at e <;> cases e <;> exact Or.inl ⟨hn, hA, hm⟩
      | reading i is b => rw [hcc] at e hm; cases e; exact Or.inl ⟨hn, hA, hm⟩
      | fin1 b =>
        rw [hcc] at e hm hc
        simp only [Option.map_eq_some_iff] at e
        obtain ⟨r, er, rfl⟩ := e
        obtain ⟨m, hb, _, hV⟩ := hc
        refine Or.inl ⟨hn, hA.trans (load_grows er).1, ?_⟩
        show A ≤ s.visited.length
        simp only at hm
        omega
      | fin2 v => rw [hcc] at e hm; cases e; exact Or.inr ⟨by show n0 < s.served + 1; omega, hm⟩
    · right
      split at e
      all_goals first
        | cases e; done
        | (cases e; exact h)
        | (simp only [Option.map_eq_some_iff] at e
           obtain ⟨r, er, rfl⟩ := e
           exact h)
        | skip
      · cases e
        exact ⟨h.1, by show A ≤ (s.visited ++ _).length; simp; omega⟩
      · cases e
        exact ⟨by show n0 < s.served + 1; omega, h.2⟩

theorem rserving_run {A n0 : ℕ} {s s' : RSys α} {ls : List (RLabel α)} (hi : ∃ rel, RInv rel s) (h : RServing A n0 s)
    (e : s.run ls = some s') : RServing A n0 s' := by
  induction ls generalizing s with
  | nil => cases e; exact h
  | cons l ls ih =>
    unfold RSys.run at e
    rw [Option.bind_eq_some_iff] at e
    obtain ⟨t, ea, eb⟩ := e
    obtain ⟨rel, hi⟩ := hi
    obtain ⟨rel', hi', _⟩ := rinv_step hi ea
    exact ih ⟨rel', hi'⟩ (rserving_step hi h ea) eb

theorem cv_grows {s s' : RSys α} {l : RLabel α} (e : s.step l = some s') : s.cv.ve ≤ s'.cv.ve := by
  cases l with
  | push a =>
    unfold RSys.step at e
    simp only at e
    split at e <;> cases e
    exact le_refl _
  | producer k => rw [(pstep_consumer e).2.1]
  | producerTold => cases e; exact le_refl _
  | consumerTold => cases e; exact le_max_left _ _
  | service =>
    unfold RSys.step at e
    simp only at e
    split at e <;> cases e
    exact le_refl _
  | consumer k =>
    have e : s.cstep k = some s' := e
    unfold RSys.cstep at e
    split at e
    all_goals first
      | cases e; done
      | (cases e; exact le_refl _)
      | (simp only [Option.map_eq_some_iff] at e
         obtain ⟨r, er, rfl⟩ := e
         exact (load_grows er).1)

theorem cv_grows_run {s s' : RSys α} {ls : List (RLabel α)} (e : s.run ls = some s') : s.cv.ve ≤ s'.cv.ve := by
  induction ls generalizing s with
  | nil => cases e; exact le_refl _
  | cons l ls ih =>
    unfold RSys.run at e
    rw [Option.bind_eq_some_iff] at e
    obtain ⟨t, ea, eb⟩ := e
    exact (cv_grows ea).trans (ih eb)

/-- **C77** (nothing is left behind). If pushes happen before a call of `Service` (at state `s`, the servicing thread comes to know what the
pushing thread knows, and then or later it calls `Service`), then when this call returns, all commands accepted in `s` have been
handed to the visitor. -/
theorem C77_service_is_complete {s s0 s1 s2 s3 : RSys α} (h : RReachable s) (e0 : s.step .consumerTold = some s0)
    {ls : List (RLabel α)} (e1 : s0.run ls = some s1) (e2 : s1.step .service = some s2)
    {ls' : List (RLabel α)} (e3 : s2.run ls' = some s3) (hs : s1.served < s3.served) : s.accepted.length ≤ s3.visited.length := by
  obtain ⟨rel, hi⟩ := h.inv
  obtain ⟨rel0, hi0, _⟩ := rinv_step hi e0
  have h0 : s.accepted.length ≤ s0.cv.ve := by
    cases e0
    rw [← hi.pve]
    exact le_max_right _ _
  have h1 := h0.trans (cv_grows_run e1)
  obtain ⟨rel1, hi1⟩ := rinv_run ⟨rel0, hi0⟩ e1
  obtain ⟨rel2, hi2, _⟩ := rinv_step hi1 e2
  have hsv : RServing s.accepted.length s1.served s2 := by
    unfold RSys.step at e2
    simp only at e2
    split at e2 <;> cases e2
    exact Or.inl ⟨rfl, h1, trivial⟩
  rcases rserving_run ⟨rel2, hi2⟩ hsv e3 with h | h
  · omega
  · exact h.2

/-- progress of a push by a thread that knows that the first `R0` commands have been given back -/
def RPushing (K0 R0 W0 n0 : ℕ) (rel : ℕ → ℕ) (s : RSys α) : Prop :=
  (s.results.length = n0 ∧ s.accepted.length = W0 ∧ K0 ≤ s.pv.vs ∧ rel K0 = R0 ∧ match s.p with
    | .idle => False
    | .free2 _ v => ∃ k, K0 ≤ k ∧ k < s.vs.len ∧ v = ((rel k % 400 : ℕ) : ℤ) ∧ rel k ≤ W0 ∧ W0 - rel k ≤ 399
    | _ => True) ∨
  (n0 < s.results.length ∧ (s.results[n0]? = some false → R0 + 399 ≤ W0))

theorem results_grow {s s' : RSys α} {k n : ℕ} (e : s.pstep k = some s') (hn : n < s.results.length) :
    n < s'.results.length ∧ s'.results[n]? = s.results[n]? := by
  have key : s'.results = s.results ∨ ∃ b, s'.results = s.results ++ [b] := by
    unfold RSys.pstep at e
    split at e
    all_goals first
      | cases e; done
      | (cases e; exact Or.inl rfl)
      | (cases e; exact Or.inr ⟨_, rfl⟩)
      | (simp only [Option.map_eq_some_iff] at e
         obtain ⟨r, _, rfl⟩ := e
         first | exact Or.inl rfl | (split; exacts [Or.inr ⟨_, rfl⟩, Or.inl rfl]))
      | (split at e
         · cases e; exact Or.inl rfl
         · split at e <;> (cases e; exact Or.inl rfl))
  rcases key with h | ⟨b, h⟩
  · rw [h]; exact ⟨hn, rfl⟩
  · rw [h, List.getElem?_append_left hn, List.length_append]; exact ⟨by omega, rfl⟩

theorem rpushing_step {K0 R0 W0 n0 : ℕ} {rel : ℕ → ℕ} {s s' : RSys α} {l : RLabel α} (hi : RInv rel s) (h : RPushing K0 R0 W0 n0 rel s)
    (e : s.step l = some s') : ∃ rel', RInv rel' s' ∧ RPushing K0 R0 W0 n0 rel' s' := by
  cases l with
  | push a =>
    obtain ⟨rel', hi', hr, hl⟩ := rinv_step hi e
    unfold RSys.step at e
    simp only at e
    split at e
    · rename_i hp
      cases e
      refine ⟨rel', hi', ?_⟩
      rcases h with ⟨_, _, _, _, c⟩ | h
      · rw [hp] at c; exact c.elim
      · exact Or.inr h
    · cases e
  | producer k =>
    have e : s.pstep k = some s' := e
    have hi' := rinv_pstep hi e
    refine ⟨rel, hi', ?_⟩
    rcases h with ⟨hn, hW, hK, hR, hm⟩ | h
    · have hvs := pstep_vs e
      unfold RSys.pstep at e
      cases hpc : s.p with
      | idle => rw [hpc] at e; cases e
      | free1 a =>
        rw [hpc] at e
        simp only [Option.map_eq_some_iff] at e
        obtain ⟨r, er, rfl⟩ := e
        obtain ⟨h1, h2, h3, h4, h5⟩ := hi.loadVsP er
        obtain ⟨h6, h7, _⟩ := load_some er
        have hhi := hi.hi
        exact Or.inl ⟨hn, hW, hK.trans (load_grows er).2, hR, k, hK.trans h6, h7, h2, by omega, by omega⟩
      | free2 a v =>
        rw [hpc] at e hm
        obtain ⟨j, j1, j2, j3, j4, j5⟩ := hm
        simp only [Option.map_eq_some_iff] at e
        obtain ⟨r, er, rfl⟩ := e
        obtain ⟨h1, h2⟩ := hi.loadVeP er
        have hfs : Fifo.freeSpace kMaxQueueSize v r.1 = 399 - ((s.accepted.length - rel j : ℕ) : ℤ) := by
          rw [j3, h2]; exact freeSpace_eq (by omega) (by omega)
        simp only [hfs]
        split
        · rename_i hz
          refine Or.inr ⟨by show n0 < (s.results ++ _).length; simp; omega, fun _ => ?_⟩
          have := hi.mono K0 j j1 j2
          omega
        · exact Or.inl ⟨hn, hW, hK.trans (load_grows er).2, hR, trivial⟩
      | prep1 a =>
        rw [hpc] at e
        simp only [Option.map_eq_some_iff] at e
        obtain ⟨r, er, rfl⟩ := e
        exact Or.inl ⟨hn, hW, hK.trans (load_grows er).2, hR, trivial⟩
      | prep2 a v =>
        rw [hpc] at e
        simp only [Option.map_eq_some_iff] at e
        obtain ⟨r, er, rfl⟩ := e
        exact Or.inl ⟨hn, hW, hK.trans (load_grows er).2, hR, trivial⟩
      | write a w =>
        rw [hpc] at e
        simp only at e
        split at e
        · cases e; exact Or.inl ⟨hn, hW, hK, hR, trivial⟩
        · split at e <;> (cases e; exact Or.inl ⟨hn, hW, hK, hR, trivial⟩)
      | writing a i b => rw [hpc] at e; cases e; exact Or.inl ⟨hn, hW, hK, hR, trivial⟩
      | fin1 a b =>
        rw [hpc] at e
        simp only [Option.map_eq_some_iff] at e
        obtain ⟨r, er, rfl⟩ := e
        exact Or.inl ⟨hn, hW, hK.trans (load_grows er).2, hR, trivial⟩
      | fin2 a v =>
        rw [hpc] at e
        cases e
        refine Or.inr ⟨by show n0 < (s.results ++ _).length; simp; omega, fun hf => ?_⟩
        have : (s.results ++ [true])[n0]? = some false := hf
        rw [← hn, List.getElem?_concat_length] at this
        cases this
    · obtain ⟨h1, h2⟩ := results_grow e h.1
      exact Or.inr ⟨h1, fun hf => h.2 (by rw [← h2]; exact hf)⟩
  | service =>
    obtain ⟨rel', hi', hr, hl⟩ := rinv_step hi e
    unfold RSys.step at e
    simp only at e
    split at e
    · cases e
      have hc := hi.c
      rename_i hcc
      rw [hcc] at hc
      exact ⟨rel, hi.setC (c := .ready1) hc, h⟩
    · cases e
  | producerTold =>
    cases e
    refine ⟨rel, hi.learnP hi.cv, ?_⟩
    rcases h with ⟨a, b, c, d, m⟩ | h
    · exact Or.inl ⟨a, b, c.trans (le_max_left _ _), d, m⟩
    · exact Or.inr h
  | consumerTold => cases e; exact ⟨rel, hi.learnC hi.pv, h⟩
  | consumer k =>
    have e : s.cstep k = some s' := e
    obtain ⟨rel', hi', hr, hl⟩ := rinv_cstep hi e
    obtain ⟨h1, h2, h3, h4⟩ := cstep_producer e
    refine ⟨rel', hi', ?_⟩
    have hpvs := hi.pv.vs
    unfold RPushing at h ⊢
    rw [h1, h2, h3, h4]
    rcases h with ⟨a, b, c, d, m⟩ | h
    · refine Or.inl ⟨a, b, c, by rw [hr _ (by omega)]; exact d, ?_⟩
      cases hpc : s.p with
      | free2 x v =>
        rw [hpc] at m
        obtain ⟨j, j1, j2, j3, j4, j5⟩ := m
        exact ⟨j, j1, by omega, by rw [hr j j2]; exact j3, by rw [hr j j2]; exact j4, by rw [hr j j2]; exact j5⟩
      | idle => rw [hpc] at m; exact m
      | _ => trivial
    · exact Or.inr h

theorem rpushing_run {K0 R0 W0 n0 : ℕ} {rel : ℕ → ℕ} {s s' : RSys α} {ls : List (RLabel α)} (hi : RInv rel s) (h : RPushing K0 R0 W0 n0 rel s)
    (e : s.run ls = some s') : ∃ rel', RPushing K0 R0 W0 n0 rel' s' := by
  induction ls generalizing s rel with
  | nil => cases e; exact ⟨rel, h⟩
  | cons l ls ih =>
    unfold RSys.run at e
    rw [Option.bind_eq_some_iff] at e
    obtain ⟨t, ea, eb⟩ := e
    obtain ⟨rel', hi', h'⟩ := rpushing_step hi h ea
    exact ih hi' h' eb

theorem pv_grows {s s' : RSys α} {l : RLabel α} (e : s.step l = some s') : s.pv.vs ≤ s'.pv.vs := by
  cases l with
  | push a =>
    unfold RSys.step at e
    simp only at e
    split at e <;> cases e
    exact le_refl _
  | consumer k => rw [(cstep_producer e).2.1]
  | producerTold => cases e; exact le_max_left _ _
  | consumerTold => cases e; exact le_refl _
  | service =>
    unfold RSys.step at e
    simp only at e
    split at e <;> cases e
    exact le_refl _
  | producer k =>
    have e : s.pstep k = some s' := e
    unfold RSys.pstep at e
    split at e
    all_goals first
      | cases e; done
      | (cases e; exact le_refl _)
      | (simp only [Option.map_eq_some_iff] at e
         obtain ⟨r, er, rfl⟩ := e
         first | exact (load_grows er).2 | (split <;> exact (load_grows er).2))
      | (split at e
         · cases e; exact le_refl _
         · split at e <;> (cases e; exact le_refl _))

theorem known_run {K0 R0 : ℕ} {rel : ℕ → ℕ} {s s' : RSys α} {ls : List (RLabel α)} (hi : RInv rel s) (hK : K0 ≤ s.pv.vs) (hR : rel K0 = R0)
    (e : s.run ls = some s') : ∃ rel', RInv rel' s' ∧ K0 ≤ s'.pv.vs ∧ rel' K0 = R0 := by
  induction ls generalizing s rel with
  | nil => cases e; exact ⟨rel, hi, hK, hR⟩
  | cons l ls ih =>
    unfold RSys.run at e
    rw [Option.bind_eq_some_iff] at e
    obtain ⟨t, ea, eb⟩ := e
    obtain ⟨rel', hi', hr, hl⟩ := rinv_step hi ea
    have := hi.pv.vs
    exact ih hi' (hK.trans (pv_grows ea)) (by rw [hr _ (by omega)]; exact hR) eb

/-- **C77** (no spurious refusal). If services happen before a call of `PushCommand` (at state `s`, the pushing thread comes to know what
the servicing thread knows, and then or later it calls `PushCommand`), the call returns false only if the places these services gave
back are not enough: 399 further commands have been accepted since. -/
theorem C77_refused_only_when_full {s s0 s1 s2 s3 : RSys α} (h : RReachable s) (e0 : s.step .producerTold = some s0)
    {ls : List (RLabel α)} (e1 : s0.run ls = some s1) {a : α} (e2 : s1.step (.push a) = some s2)
    {ls' : List (RLabel α)} (e3 : s2.run ls' = some s3) (hf : s3.results[s1.results.length]? = some false) :
    s.released + 399 ≤ s1.accepted.length := by
  obtain ⟨rel, hi⟩ := h.inv
  have hi0 : RInv rel s0 := by cases e0; exact hi.learnP hi.cv
  have hK : s.vs.len - 1 ≤ s0.pv.vs := by
    cases e0
    rw [← hi.cvs]
    exact le_max_right _ _
  obtain ⟨rel1, hi1, hK1, hR1⟩ := known_run hi0 hK hi.last e1
  have h2 : ∃ rel2, RInv rel2 s2 ∧ RPushing (s.vs.len - 1) s.released s1.accepted.length s1.results.length rel2 s2 := by
    unfold RSys.step at e2
    simp only at e2
    split at e2
    · rename_i hp
      cases e2
      exact ⟨rel1, hi1.setP (p := .free1 a) (by rw [hp]; rfl) trivial s1.results, Or.inl ⟨rfl, rfl, hK1, hR1, trivial⟩⟩
    · cases e2
  obtain ⟨rel2, hi2, hp2⟩ := h2
  obtain ⟨rel3, h3⟩ := rpushing_run hi2 hp2 e3
  rcases h3 with ⟨h, _⟩ | h
  · rw [← h, List.getElem?_eq_none (le_refl _)] at hf
    cases hf
  · exact h.2 hf

/-- **C77** (no blocking). A thread in the middle of a call can always take its next step, with the newest value of the variable it loads. -/
theorem C77_next_step_exists {s : RSys α} (h : RReachable s) :
    (s.p ≠ .idle → ∃ k, (s.step (.producer k)).isSome) ∧ (s.c ≠ .idle → ∃ k, (s.step (.consumer k)).isSome) := by
  obtain ⟨rel, h⟩ := h.inv
  have l1 : ∀ v, (RSys.load s.vs v s.pv.vs (s.vs.len - 1)).isSome := fun v => by
    have := h.pv.vs
    unfold RSys.load
    rw [if_pos (by omega)]; rfl
  have l2 : ∀ v, (RSys.load s.ve v s.pv.ve (s.ve.len - 1)).isSome := fun v => by
    have := h.pv.ve
    unfold RSys.load
    rw [if_pos (by omega)]; rfl
  have l3 : ∀ v, (RSys.load s.vs v s.cv.vs (s.vs.len - 1)).isSome := fun v => by
    have := h.cv.vs
    unfold RSys.load
    rw [if_pos (by omega)]; rfl
  have l4 : ∀ v, (RSys.load s.ve v s.cv.ve (s.ve.len - 1)).isSome := fun v => by
    have := h.cv.ve
    unfold RSys.load
    rw [if_pos (by omega)]; rfl
  constructor
  · intro hp
    show ∃ k, (s.pstep k).isSome
    unfold RSys.pstep
    cases hpc : s.p with
    | idle => exact absurd hpc hp
    | free1 a => exact ⟨_, by simpa only [Option.isSome_map] using l1 _⟩
    | free2 a v => exact ⟨_, by simpa only [Option.isSome_map] using l2 _⟩
    | prep1 a => exact ⟨_, by simpa only [Option.isSome_map] using l1 _⟩
    | prep2 a v => exact ⟨_, by simpa only [Option.isSome_map] using l2 _⟩
    | write a w =>
      refine ⟨0, ?_⟩
      simp only
      split
      · rfl
      · split <;> rfl
    | writing a i b => exact ⟨0, rfl⟩
    | fin1 a b => exact ⟨_, by simpa only [Option.isSome_map] using l2 _⟩
    | fin2 a v => exact ⟨0, rfl⟩
  · intro hc
    show ∃ k, (s.cstep k).isSome
    unfold RSys.cstep
    cases hcc : s.c with
    | idle => exact absurd hcc hc
    | ready1 => exact ⟨_, by simpa only [Option.isSome_map] using l3 _⟩
    | ready2 v => exact ⟨_, by simpa only [Option.isSome_map] using l4 _⟩
    | prep1 n => exact ⟨_, by simpa only [Option.isSome_map] using l3 _⟩
    | prep2 n v => exact ⟨_, by simpa only [Option.isSome_map] using l4 _⟩
    | loop is b => cases is <;> exact ⟨0, rfl⟩
    | reading i is b => exact ⟨0, rfl⟩
    | fin1 b => exact ⟨_, by simpa only [Option.isSome_map] using l3 _⟩
    | fin2 v => exact ⟨0, rfl⟩

/-- The same state in both models, if all loads return the newest values. -/
structure Sim (q : QSys α) (r : RSys α) : Prop where
  vs : (r.vs.msg (r.vs.len - 1)).val = q.vs
  ve : (r.ve.msg (r.ve.len - 1)).val = q.ve
  slots : r.slots = q.slots
  p : r.p = q.p
  c : r.c = q.c
  accepted : r.accepted = q.accepted
  visited : r.visited = q.visited
  released : r.released = q.released
  results : r.results = q.results
  served : r.served = q.served

theorem load_newest {l : Loc} {v : Knowledge} {pos : ℕ} (h : pos < l.len) :
    RSys.load l v pos (l.len - 1) = some ((l.msg (l.len - 1)).val, v.join (l.msg (l.len - 1)).view) := by
  unfold RSys.load
  rw [if_pos (by omega)]

theorem sim_step {rel : ℕ → ℕ} {q q' : QSys α} {r : RSys α} {l : QLabel α} (hi : RInv rel r) (h : Sim q r) (e : q.step l = some q') :
    ∃ l' r', r.step l' = some r' ∧ Sim q' r' := by
  have n1 := load_newest (v := r.pv) hi.pv.vs
  have n2 := load_newest (v := r.pv) hi.pv.ve
  have n3 := load_newest (v := r.cv) hi.cv.vs
  have n4 := load_newest (v := r.cv) hi.cv.ve
  obtain ⟨hvs, hve, hsl, hp, hc, ha, hv, hr, hrs, hsv⟩ := h
  cases l with
  | push a =>
    unfold QSys.step at e
    simp only at e
    split at e
    · rename_i hq
      cases e
      refine ⟨.push a, { r with p := .free1 a }, ?_, ⟨hvs, hve, hsl, rfl, hc, ha, hv, hr, hrs, hsv⟩⟩
      unfold RSys.step
      rw [hp, hq]
    · cases e
  | service =>
    unfold QSys.step at e
    simp only at e
    split at e
    · rename_i hq
      cases e
      refine ⟨.service, { r with c := .ready1 }, ?_, ⟨hvs, hve, hsl, hp, rfl, ha, hv, hr, hrs, hsv⟩⟩
      unfold RSys.step
      rw [hc, hq]
    · cases e
  | producer =>
    have e : q.pstep = some q' := e
    unfold QSys.pstep at e
    cases hpc : q.p with
    | idle => rw [hpc] at e; cases e
    | free1 a =>
      rw [hpc] at e hp
      cases e
      refine ⟨.producer (r.vs.len - 1), ?w1, ?e1, ?_⟩
      case e1 =>
        show r.pstep _ = _
        unfold RSys.pstep
        rw [hp]
        simp only [n1, Option.map_some]; rfl
      · exact ⟨hvs, hve, hsl, by rw [hvs], hc, ha, hv, hr, hrs, hsv⟩
    | free2 a v =>
      rw [hpc] at e hp
      refine ⟨.producer (r.ve.len - 1), ?w2, ?e2, ?_⟩
      case e2 =>
        show r.pstep _ = _
        unfold RSys.pstep
        rw [hp]
        simp only [n2, Option.map_some, hve]; rfl
      · simp only at e
        split at e
        · rename_i hz
          cases e
          rw [if_pos hz]
          exact ⟨hvs, hve, hsl, rfl, hc, ha, hv, hr, by rw [hrs], hsv⟩
        · rename_i hz
          cases e
          rw [if_neg hz]
          exact ⟨hvs, hve, hsl, rfl, hc, ha, hv, hr, hrs, hsv⟩
    | prep1 a =>
      rw [hpc] at e hp
      cases e
      refine ⟨.producer (r.vs.len - 1), ?w3, ?e3, ?_⟩
      case e3 =>
        show r.pstep _ = _
        unfold RSys.pstep
        rw [hp]
        simp only [n1, Option.map_some]; rfl
      · exact ⟨hvs, hve, hsl, by rw [hvs], hc, ha, hv, hr, hrs, hsv⟩
    | prep2 a v =>
      rw [hpc] at e hp
      cases e
      refine ⟨.producer (r.ve.len - 1), ?w4, ?e4, ?_⟩
      case e4 =>
        show r.pstep _ = _
        unfold RSys.pstep
        rw [hp]
        simp only [n2, Option.map_some]; rfl
      · exact ⟨hvs, hve, hsl, by rw [hve], hc, ha, hv, hr, hrs, hsv⟩
    | write a w =>
      rw [hpc] at e hp
      simp only at e
      have hstep : ∀ k, r.pstep k = if w.b1 ≠ 0 then some { r with p := .writing a w.s1 (w.b1 + w.b2) }
          else if w.b2 ≠ 0 then some { r with p := .writing a w.s2 (w.b1 + w.b2) }
          else some { r with p := .fin1 a (w.b1 + w.b2) } := by
        intro k
        unfold RSys.pstep
        rw [hp]
      split at e
      · rename_i hz
        cases e
        exact ⟨.producer 0, _, (hstep 0).trans (if_pos hz), ⟨hvs, hve, hsl, rfl, hc, ha, hv, hr, hrs, hsv⟩⟩
      · rename_i hz
        split at e
        · rename_i hz'
          cases e
          exact ⟨.producer 0, _, (hstep 0).trans ((if_neg hz).trans (if_pos hz')), ⟨hvs, hve, hsl, rfl, hc, ha, hv, hr, hrs, hsv⟩⟩
        · rename_i hz'
          cases e
          exact ⟨.producer 0, _, (hstep 0).trans ((if_neg hz).trans (if_neg hz')), ⟨hvs, hve, hsl, rfl, hc, ha, hv, hr, hrs, hsv⟩⟩
    | writing a i b =>
      rw [hpc] at e hp
      cases e
      refine ⟨.producer 0, ?w5, ?e5, ?_⟩
      case e5 =>
        show r.pstep _ = _
        unfold RSys.pstep
        rw [hp]
      · exact ⟨hvs, hve, by rw [hsl], rfl, hc, ha, hv, hr, hrs, hsv⟩
    | fin1 a b =>
      rw [hpc] at e hp
      cases e
      refine ⟨.producer (r.ve.len - 1), ?w6, ?e6, ?_⟩
      case e6 =>
        show r.pstep _ = _
        unfold RSys.pstep
        rw [hp]
        simp only [n2, Option.map_some]; rfl
      · exact ⟨hvs, hve, hsl, by rw [hve], hc, ha, hv, hr, hrs, hsv⟩
    | fin2 a v =>
      rw [hpc] at e hp
      cases e
      refine ⟨.producer 0, ?w7, ?e7, ?_⟩
      case e7 =>
        show r.pstep _ = _
        unfold RSys.pstep
        rw [hp]
      · refine ⟨hvs, ?_, hsl, rfl, hc, by rw [ha], hv, hr, by rw [hrs], hsv⟩
        show (Function.update r.ve.msg r.ve.len _ (r.ve.len + 1 - 1)).val = v
        rw [Nat.add_sub_cancel, Function.update_self]
  | consumer =>
    have e : q.cstep = some q' := e
    unfold QSys.cstep at e
    cases hcc : q.c with
    | idle => rw [hcc] at e; cases e
    | ready1 =>
      rw [hcc] at e hc
      cases e
      refine ⟨.consumer (r.vs.len - 1), ?w8, ?e8, ?_⟩
      case e8 =>
        show r.cstep _ = _
        unfold RSys.cstep
        rw [hc]
        simp only [n3, Option.map_some]; rfl
      · exact ⟨hvs, hve, hsl, hp, by rw [hvs], ha, hv, hr, hrs, hsv⟩
    | ready2 v =>
      rw [hcc] at e hc
      cases e
      refine ⟨.consumer (r.ve.len - 1), ?w9, ?e9, ?_⟩
      case e9 =>
        show r.cstep _ = _
        unfold RSys.cstep
        rw [hc]
        simp only [n4, Option.map_some]; rfl
      · exact ⟨hvs, hve, hsl, hp, by rw [hve], ha, hv, hr, hrs, hsv⟩
    | prep1 n =>
      rw [hcc] at e hc
      cases e
      refine ⟨.consumer (r.vs.len - 1), ?w10, ?e10, ?_⟩
      case e10 =>
        show r.cstep _ = _
        unfold RSys.cstep
        rw [hc]
        simp only [n3, Option.map_some]; rfl
      · exact ⟨hvs, hve, hsl, hp, by rw [hvs], ha, hv, hr, hrs, hsv⟩
    | prep2 n v =>
      rw [hcc] at e hc
      cases e
      refine ⟨.consumer (r.ve.len - 1), ?w11, ?e11, ?_⟩
      case e11 =>
        show r.cstep _ = _
        unfold RSys.cstep
        rw [hc]
        simp only [n4, Option.map_some]; rfl
      · exact ⟨hvs, hve, hsl, hp, by rw [hve], ha, hv, hr, hrs, hsv⟩
    | loop is b =>
      rw [hcc] at hc
      cases is with
      | nil =>
        rw [hcc] at e
        cases e
        refine ⟨.consumer 0, ?w12, ?e12, ?_⟩
        case e12 =>
          show r.cstep _ = _
          unfold RSys.cstep
          rw [hc]
        · exact ⟨hvs, hve, hsl, hp, rfl, ha, hv, hr, hrs, hsv⟩
      | cons i is =>
        rw [hcc] at e
        cases e
        refine ⟨.consumer 0, ?w13, ?e13, ?_⟩
        case e13 =>
          show r.cstep _ = _
          unfold RSys.cstep
          rw [hc]
        · exact ⟨hvs, hve, hsl, hp, rfl, ha, hv, hr, hrs, hsv⟩
    | reading i is b =>
      rw [hcc] at e hc
      cases e
      refine ⟨.consumer 0, ?w14, ?e14, ?_⟩
      case e14 =>
        show r.cstep _ = _
        unfold RSys.cstep
        rw [hc]
      · exact ⟨hvs, hve, by rw [hsl], hp, rfl, ha, by rw [hv, hsl], hr, hrs, hsv⟩
    | fin1 b =>
      rw [hcc] at e hc
      cases e
      refine ⟨.consumer (r.vs.len - 1), ?w15, ?e15, ?_⟩
      case e15 =>
        show r.cstep _ = _
        unfold RSys.cstep
        rw [hc]
        simp only [n3, Option.map_some]; rfl
      · exact ⟨hvs, hve, hsl, hp, by rw [hvs], ha, hv, hr, hrs, hsv⟩
    | fin2 v =>
      rw [hcc] at e hc
      cases e
      refine ⟨.consumer 0, ?w16, ?e16, ?_⟩
      case e16 =>
        show r.cstep _ = _
        unfold RSys.cstep
        rw [hc]
      · refine ⟨?_, hve, hsl, hp, rfl, ha, hv, by rw [hv], hrs, by rw [hsv]⟩
        show (Function.update r.vs.msg r.vs.len _ (r.vs.len + 1 - 1)).val = v
        rw [Nat.add_sub_cancel, Function.update_self]

theorem rrun_append {s s1 s2 : RSys α} {ls ls' : List (RLabel α)} (e1 : s.run ls = some s1) (e2 : s1.run ls' = some s2) :
    s.run (ls ++ ls') = some s2 := by
  induction ls generalizing s with
  | nil => cases e1; exact e2
  | cons l ls ih =>
    unfold RSys.run at e1
    rw [Option.bind_eq_some_iff] at e1
    obtain ⟨t, ea, eb⟩ := e1
    show ((s.step l).bind fun s' => s'.run (ls ++ ls')) = some s2
    rw [ea, Option.bind_some]
    exact ih eb

/-- **C77** (the sequentially consistent model is a special case). Every execution of the model of C30 is one in which all loads return the
newest values. -/
theorem C77_includes_sequential {q : QSys α} (h : QReachable q) : ∃ r : RSys α, RReachable r ∧ r.p = q.p ∧ r.c = q.c ∧
    r.slots = q.slots ∧ r.accepted = q.accepted ∧ r.visited = q.visited ∧ r.results = q.results ∧ r.served = q.served := by
  obtain ⟨ls, e⟩ := h
  have key : ∀ (ls : List (QLabel α)) (q0 : QSys α) (r0 : RSys α), RReachable r0 → Sim q0 r0 → q0.run ls = some q → ∃ r, RReachable r ∧ Sim q r := by
    intro ls
    induction ls with
    | nil => intro q0 r0 hr hs e; cases e; exact ⟨r0, hr, hs⟩
    | cons l ls ih =>
      intro q0 r0 hr hs e
      unfold QSys.run at e
      rw [Option.bind_eq_some_iff] at e
      obtain ⟨t, ea, eb⟩ := e
      obtain ⟨rel, hi⟩ := hr.inv
      obtain ⟨l', r', e', hs'⟩ := sim_step hi hs ea
      obtain ⟨ls0, e0⟩ := hr
      exact ih t r' ⟨ls0 ++ [l'], rrun_append e0 (by unfold RSys.run; rw [e']; rfl)⟩ hs' eb
  obtain ⟨r, hr, hs⟩ := key ls _ RSys.init ⟨[], rfl⟩ ⟨rfl, rfl, rfl, rfl, rfl, rfl, rfl, rfl, rfl, rfl⟩ e
  exact ⟨r, hr, hs.p, hs.c, hs.slots, hs.accepted, hs.visited, hs.results, hs.served⟩

/-- An execution with a stale load: after two pushes, a service whose loads of `validEnd` return the value of the first push only
hands over one command; a second service, that knows what the pushing thread knows, hands over the other one. -/
example : ∃ s s' : RSys ℕ, RReachable s ∧ s.accepted = [7, 8] ∧ s.visited = [some 7] ∧ s.c = .idle ∧ s.race = false ∧
    s.run [.consumerTold, .service, .consumer 1, .consumer 2, .consumer 1, .consumer 2, .consumer 0, .consumer 0, .consumer 0, .consumer 1, .consumer 0] =
      some s' ∧ s'.visited = [some 7, some 8] :=
  ⟨_, _, ⟨[.push 7, .producer 0, .producer 0, .producer 0, .producer 0, .producer 0, .producer 0, .producer 0, .producer 0,
    .push 8, .producer 0, .producer 1, .producer 0, .producer 1, .producer 0, .producer 0, .producer 1, .producer 0,
    .service, .consumer 0, .consumer 1, .consumer 0, .consumer 1, .consumer 0, .consumer 0, .consumer 0, .consumer 0, .consumer 0], rfl⟩,
    rfl, rfl, rfl, rfl, rfl, rfl⟩

end Zones.Props
