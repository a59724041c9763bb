import Verif.Proofs.FairMore
import Verif.Props.EngineEndToEnd

/-!
# What finally happens: C61–C64

Endless behaviours of the concurrent system (`Behaviour`), with a scheduler that does not starve the threads in question (`Fair`). Nothing is assumed about when steps are taken,
and nothing about the other threads.
-/

open Zones.Spec Zones.Model Zones.Proofs

namespace Zones.Props

variable {V R : Type} {ops : ConvOps V} {build : R → ProcSpec → V}

/-! ## C61 -/

/-- **C61.** If the worker threads and the `LoadIR` calls under way are not starved, no more `LoadIR` calls come, and no engine is destroyed under its jobs, then all loads of all
engines come to an end: from some moment on the thread pool is empty and no `LoadIR` call is under way. -/
theorem C61_loads_end {b : Behaviour ops build} (hf : b.Fair loadingSteps) {n : ℕ} (hn : b.NoLoadsFrom n) (hd : b.NoDanglingFrom n) :
    ∃ m, n ≤ m ∧ ∀ m', m ≤ m' → (b.state m').jobs = [] ∧ ∀ e, ((b.state m').engs e).loader = none := loads_end hf hn hd

/-- **C61.** The last `LoadIR` call (the one that gets the lock at moment `n`, on a prepared engine) delivers: its job finally hands a convolver constructed for this request and
a format of the engine to the engine's queue — unless it finds 399 others waiting there. The other engines must not call `removeAllJobs` meanwhile (C44). -/
theorem C61_last_load_arrives {b : Behaviour ops build} (hf : b.Fair loadingSteps) {n e : ℕ} {req : R} (hload : b.act n = some (.loadLock e req))
    (hprep : formatsIn e (b.upTo n) ≠ []) (hn : b.NoLoadsFrom (n + 1)) (ho : ∀ m, n ≤ m → ∀ e', b.act m = some (.loadRemove e') → e' = e)
    (hd : b.NoDanglingFrom n) :
    ∃ m, n < m ∧ b.act m = some (.jobCheck (loadsIn (b.upTo n)).length) ∧
      ((∃ p ∈ formatsIn e (b.upTo m), ((b.state (m + 1)).engs e).delivered = ((b.state m).engs e).delivered ++ [⟨(loadsIn (b.upTo n)).length, build req p⟩]) ∨
        ((b.state m).engs e).cmd.length + ((b.state m).engs e).cmdTaken = 399 ∧ ((loadsIn (b.upTo n)).length, .worker) ∈ ((b.state (m + 1)).engs e).freed) := by
  obtain ⟨m, h1, h2, h3⟩ := last_load_arrives hf hload hprep hn ho hd
  refine ⟨m, h1, h2, ?_⟩
  rcases h3 with ⟨v, hv⟩ | h3
  · left
    obtain ⟨r, p, g1, g2, g3⟩ := (exec_known (upTo_exec b (m + 1))).origins.got e ⟨(loadsIn (b.upTo n)).length, v⟩ (by rw [hv]; simp)
    have e1 : b.upTo (m + 1) = b.upTo m ++ [.jobCheck (loadsIn (b.upTo n)).length] := by
      rw [upTo_add]
      show _ ++ ([] ++ (b.act (m + 0)).toList) = _
      rw [Nat.add_zero, h2]; rfl
    have e2 : formatsIn e (b.upTo (m + 1)) = formatsIn e (b.upTo m) := by
      rw [e1, formatsIn_append]
      show _ ++ [] = _
      rw [List.append_nil]
    have e3 : loadsIn (b.upTo (m + 1)) = loadsIn (b.upTo n) ++ ((e, req) :: loadsIn (b.during (n + 1) (m - n))) := by
      rw [show m + 1 = n + 1 + (m - n) by omega, upTo_add, loadsIn_append, upTo_add, loadsIn_append, List.append_assoc]
      congr 1
      show loadsIn ([] ++ (b.act (n + 0)).toList) ++ _ = _
      rw [Nat.add_zero, hload]; rfl
    rw [e3, List.getElem?_append_right le_rfl] at g1
    simp at g1
    rw [e2] at g2
    simp only at g3
    exact ⟨p, g2, by rw [hv, g3, ← g1]⟩
  · exact Or.inr h3

/-! ## C62 -/

/-- Calls of engine `e` come again and again. -/
def KeepsCalling (b : Behaviour ops build) (e : ℕ) : Prop := ∀ n, ∃ m, n ≤ m ∧ ∃ k, b.act m = some (.call e k)

theorem idle_at_call {b : Behaviour ops build} {e m : ℕ} {k : Call} (h : b.act m = some (.call e k)) :
    ((b.state m).engs e).pc = .idle ∧ ((b.state m).engs e).status = .alive := by
  have hs := b.step m _ h
  generalize b.state (m + 1) = s' at hs
  cases hs with
  | call h1 h2 => exact ⟨h2, h1⟩

theorem keeps_alive {b : Behaviour ops build} {e : ℕ} (h : KeepsCalling b e) (m : ℕ) : ((b.state m).engs e).status ≠ .dead := by
  obtain ⟨m', hm, k, hk⟩ := h m
  obtain ⟨q, rfl⟩ := Nat.exists_eq_add_of_le hm
  exact not_dead_before (during_run b m q) (by rw [(idle_at_call hk).2]; simp)

/-- The call at moment `m`, and the next one. -/
theorem next_call {b : Behaviour ops build} {e : ℕ} (h : KeepsCalling b e) {m : ℕ} {k : Call} (hk : b.act m = some (.call e k)) :
    ∃ q k', b.act (m + 1 + q) = some (.call e k') ∧ callsIn e (b.during (m + 1) q) = [] ∧ b.during m (1 + q) = .call e k :: b.during (m + 1) q := by
  classical
  have hex : ∃ q, ∃ k', b.act (m + 1 + q) = some (.call e k') := by
    obtain ⟨m', hm, k', hk'⟩ := h (m + 1)
    obtain ⟨q, rfl⟩ := Nat.exists_eq_add_of_le hm
    exact ⟨q, k', hk'⟩
  obtain ⟨k', hk'⟩ := Nat.find_spec hex
  refine ⟨Nat.find hex, k', hk', ?_, ?_⟩
  · unfold callsIn
    rw [List.filterMap_eq_nil_iff]
    intro l hl
    obtain ⟨i, hi, hi'⟩ := mem_during.mp hl
    have := Nat.find_min hex hi
    cases l with
    | call e' k2 =>
      by_cases hc : e' = e
      · subst hc; exact absurd ⟨k2, hi'⟩ this
      · show (if e' = e then some k2 else none) = none
        rw [if_neg hc]
    | _ => rfl
  · rw [during_add]
    show ([] ++ (b.act (m + 0)).toList) ++ _ = _
    rw [Nat.add_zero, hk]; rfl

/-- **C62.** As long as the host keeps making audio-side calls (each one when the last has returned), everything delivered to the engine is picked up by one of them. -/
theorem C62_delivered_is_picked_up {b : Behaviour ops build} {e : ℕ} (h : KeepsCalling b e) {n : ℕ} {d : Held V} (hd : d ∈ ((b.state n).engs e).delivered) :
    ∃ m, n ≤ m ∧ ∃ call ∈ ((b.state m).engs e).hist, d ∈ call.1 := by
  obtain ⟨m1, hm1, k, hk⟩ := h n
  obtain ⟨q, k', hk', hcalls, hdur⟩ := next_call h hk
  obtain ⟨hi1, _⟩ := idle_at_call hk
  obtain ⟨hi2, _⟩ := idle_at_call hk'
  obtain ⟨q1, rfl⟩ := Nat.exists_eq_add_of_le hm1
  obtain ⟨⟨nd, h1⟩, _⟩ := run_grows (during_run b n q1) e
  have hd1 : d ∈ ((b.state (n + q1)).engs e).delivered := by rw [h1]; exact List.mem_append_left _ hd
  have hr := during_run b (n + q1) (1 + q)
  rw [hdur, ← Nat.add_assoc] at hr
  obtain ⟨found, h2, h3⟩ := C52_call_finds_what_waits hr hcalls hi2
  refine ⟨n + q1 + 1 + q, by omega, ?_⟩
  rw [← ((exec_inv (upTo_exec b (n + q1))).flow e).flow (keeps_alive h _), hi1] at hd1
  simp only [APc.visited, List.append_nil, List.mem_append, List.mem_flatMap] at hd1
  rcases hd1 with ⟨c, hc, hdc⟩ | hd1
  · exact ⟨c, by rw [h2]; exact List.mem_append_left _ hc, hdc⟩
  · exact ⟨(found, k), by rw [h2]; simp, h3.subset hd1⟩

/-! ## C63 -/

def isProcess : Call → Bool
  | .process _ => true
  | _ => false

theorem perform_length (c : Core V) : ∀ (h : List (List (Held V) × Call)) (c : Core V) {r : Core V × List Buf}, perform ops c h = some r →
    r.2.length = (h.map Prod.snd).countP isProcess
  | [], c, r, hr => by
    simp only [perform, Option.some.injEq] at hr
    subst hr; rfl
  | a :: h, c, r, hr => by
    simp only [perform, Option.bind_eq_some_iff, Option.map_eq_some_iff] at hr
    obtain ⟨x, hx, q, hq, rfl⟩ := hr
    have ih := perform_length c h x.1 hq
    rw [List.map_cons, List.countP_cons, ← ih, List.length_append, Nat.add_comm]
    congr 1
    unfold Core.call at hx
    cases hk : a.2 with
    | process blk =>
      rw [hk] at hx
      simp only [Core.callBody, Core.processBody] at hx
      split at hx
      · simp only [Option.map_eq_some_iff] at hx
        obtain ⟨y, _, rfl⟩ := hx
        rfl
      · simp only [Option.map_eq_some_iff] at hx
        obtain ⟨y, _, rfl⟩ := hx
        rfl
    | reset =>
      rw [hk] at hx
      simp only [Core.callBody, Option.some.injEq] at hx
      subst hx; rfl
    | prepare p g =>
      rw [hk] at hx
      simp only [Core.callBody, Option.some.injEq] at hx
      subst hx; rfl
    | clear =>
      rw [hk] at hx
      simp only [Core.callBody, Option.some.injEq] at hx
      subst hx; rfl

/-- One block comes out of each completed `process` call. -/
theorem outs_length {ls : List (Label R)} {s : Sys V R} (h : Exec ops build ls s) {e : ℕ} (hd : (s.engs e).status ≠ .dead) (hi : (s.engs e).pc = .idle) :
    (s.engs e).outs.length = (callsIn e ls).countP isProcess := by
  obtain ⟨c0, hp⟩ := exec_outs h e hd
  have := perform_length c0 _ _ hp
  have hc := ((exec_known h).traced e).calls
  rw [hi] at hc
  simp only [APc.calling, Option.toList_none, List.append_nil] at hc
  rw [← hc]; exact this

/-- The blocks are long enough after some time. -/
theorem enough_blocks {b : Behaviour ops build} {e : ℕ} (h : KeepsCalling b e) {m : ℕ} (hi : ((b.state m).engs e).pc = .idle)
    (hp : ∀ m', m ≤ m' → ∀ k, b.act m' = some (.call e k) → ∃ blk, k = .process blk ∧ 0 < blk.n) :
    ∀ C, ∃ q bl, ((b.state (m + q)).engs e).pc = .idle ∧ callsIn e (b.during m q) = bl.map Call.process ∧ C ≤ totalLen bl
  | 0 => ⟨0, [], hi, rfl, Nat.zero_le _⟩
  | C + 1 => by
    obtain ⟨q, bl, h1, h2, h3⟩ := enough_blocks h hi hp C
    -- the next call and the one after it
    obtain ⟨m1, hm1, k, hk⟩ := h (m + q)
    obtain ⟨q1, k', hk', hcalls, hdur⟩ := next_call h hk
    obtain ⟨hi2, _⟩ := idle_at_call hk'
    obtain ⟨q0, rfl⟩ := Nat.exists_eq_add_of_le hm1
    obtain ⟨blk, rfl, hpos⟩ := hp _ (by omega) k hk
    have proc : ∀ q0, ∃ bl' : List Buf, callsIn e (b.during (m + q) q0) = bl'.map Call.process := by
      intro q0
      have : ∀ k ∈ callsIn e (b.during (m + q) q0), ∃ blk, k = Call.process blk := by
        intro k hk
        unfold callsIn at hk
        rw [List.mem_filterMap] at hk
        obtain ⟨l, hl, hlk⟩ := hk
        obtain ⟨i, _, hi'⟩ := mem_during.mp hl
        cases l with
        | call e' k2 =>
          have hlk : (if e' = e then some k2 else none) = some k := hlk
          split_ifs at hlk with hc
          simp only [Option.some.injEq] at hlk
          subst hlk; subst hc
          obtain ⟨blk, rfl, _⟩ := hp _ (by omega) _ hi'
          exact ⟨blk, rfl⟩
        | _ => cases hlk
      generalize callsIn e (b.during (m + q) q0) = ks at this
      induction ks with
      | nil => exact ⟨[], rfl⟩
      | cons k ks ih =>
        obtain ⟨blk, rfl⟩ := this k (List.mem_cons_self ..)
        obtain ⟨bl', h⟩ := ih fun k hk => this k (List.mem_cons_of_mem _ hk)
        exact ⟨blk :: bl', by rw [h]; rfl⟩
    obtain ⟨bl', hbl'⟩ := proc q0
    refine ⟨q + q0 + (1 + q1), bl ++ (bl' ++ [blk]), ?_, ?_, ?_⟩
    · rw [show m + (q + q0 + (1 + q1)) = m + q + q0 + 1 + q1 by omega]; exact hi2
    · have e1 : callsIn e (b.during (m + (q + q0)) (1 + q1)) = [.process blk] := by
        rw [← Nat.add_assoc, hdur]
        have : ∀ ls : List (Label R), callsIn e (.call e (.process blk) :: ls) = .process blk :: callsIn e ls := fun ls => by
          unfold callsIn
          rw [List.filterMap_cons_some (b := Call.process blk)]
          simp
        rw [this, hcalls]
      rw [during_add, callsIn_append, during_add, callsIn_append, h2, hbl', e1]
      simp
    · rw [totalLen_append, totalLen_append]
      simp only [totalLen]
      omega

/-- **C63.** Liveness end to end. An engine is prepared for the last time (by moment `n1`) before any response is loaded; then any number of `LoadIR` calls come, at any time, the last of all at
moment `n`. If the worker threads and `LoadIR` calls are not starved, and the host keeps processing (non-empty) blocks, then there is a moment from which the engine's output *is* the
convolution of its input with the response of that last `LoadIR` call — as soon as it has got as much input since that moment as the response is long. -/
theorem C63_finally_convolution {F : RealFFT} (hF : Lawful F) {N e : ℕ} {build : Buf × ConvolverSpec → ProcSpec → Convolver} (hB : Constructs F N build)
    {b : Behaviour (convolverOps F) build} (hf : b.Fair loadingSteps)
    -- the last `prepare`
    {n1 : ℕ} (hi1 : ((b.state n1).engs e).pc = .idle) (hno : ∀ req, .loadLock e req ∉ b.upTo n1) {p : ProcSpec} (hp : (formatsIn e (b.upTo n1)).getLast? = some p)
    -- the last `LoadIR`
    {n : ℕ} (hn1 : n1 ≤ n) {ir : Buf} {cs : ConvolverSpec} (hload : b.act n = some (.loadLock e (ir, cs))) (hn : b.NoLoadsFrom (n + 1))
    (ho : ∀ m, n ≤ m → ∀ e', b.act m = some (.loadRemove e') → e' = e) (hd : b.NoDanglingFrom n)
    (hroom : ∀ m, b.act m = some (.jobCheck (loadsIn (b.upTo n)).length) → ((b.state m).engs e).cmd.length + ((b.state m).engs e).cmdTaken < 399)
    -- the host keeps processing
    (hk : KeepsCalling b e) (hproc : ∀ m, n1 ≤ m → ∀ k, b.act m = some (.call e k) → ∃ blk, k = .process blk ∧ 0 < blk.n)
    -- the host and the requests are reasonable
    (hH : ∀ m, HostBehaves N none (callsIn e (b.upTo m))) (hU : ∀ m, UsableLoads N e (b.upTo m)) :
    ∃ m, n ≤ m ∧ ((b.state m).engs e).pc = .idle ∧ ∀ q, ((b.state (m + q)).engs e).pc = .idle →
      ∃ more outs, callsIn e (b.during m q) = more.map Call.process ∧ ((b.state (m + q)).engs e).outs = ((b.state m).engs e).outs ++ outs ∧ SameShape more outs ∧
        ∀ o < N, ∀ t, t < totalLen more → ir.n ≤ t + 1 → stream outs o t = routedConv ir cs.inputRouting cs.outputRouting (stream more) o t := by
  have hx := fun m => upTo_exec b m
  have alive := keeps_alive hk
  have hprep : formatsIn e (b.upTo n) ≠ [] := by
    obtain ⟨q, rfl⟩ := Nat.exists_eq_add_of_le hn1
    rw [upTo_add, formatsIn_append]
    intro hc
    rw [List.append_eq_nil_iff] at hc
    rw [hc.1] at hp; cases hp
  obtain ⟨m0, hm0, hact, harr⟩ := last_load_arrives hf hload hprep hn ho hd
  obtain ⟨v, hv⟩ : ∃ v, ((b.state (m0 + 1)).engs e).delivered = ((b.state m0).engs e).delivered ++ [⟨(loadsIn (b.upTo n)).length, v⟩] := by
    rcases harr with h | ⟨h, _⟩
    · exact h
    · have := hroom m0 hact; omega
  -- no later load can be delivered
  have hloads : ∀ m, n + 1 ≤ m → loadsIn (b.upTo m) = loadsIn (b.upTo n) ++ [(e, (ir, cs))] := by
    intro m hm
    obtain ⟨q, rfl⟩ := Nat.exists_eq_add_of_le hm
    rw [upTo_add, loadsIn_append, upTo_add, loadsIn_append]
    have e1 : loadsIn (b.during n 1) = [(e, (ir, cs))] := by
      show loadsIn ([] ++ (b.act (n + 0)).toList) = _
      rw [Nat.add_zero, hload]; rfl
    have e2 : loadsIn (b.during (n + 1) q) = [] := by
      unfold loadsIn
      rw [List.filterMap_eq_nil_iff]
      intro l hl
      obtain ⟨a, _, ha⟩ := mem_during.mp hl
      have := hn (n + 1 + a) (by omega)
      cases l <;> first | rfl | exact absurd ha (this _ _)
    rw [e1, e2, List.append_nil]
  have hdel : ∀ q, ((b.state (m0 + 1 + q)).engs e).delivered = ((b.state (m0 + 1)).engs e).delivered := by
    intro q
    obtain ⟨⟨nd, h1⟩, _⟩ := run_grows (during_run b (m0 + 1) q) e
    rw [h1]
    cases nd with
    | nil => exact List.append_nil _
    | cons d nd =>
      exfalso
      have hs := (exec_inv (hx (m0 + 1 + q))).order.sorted e
      have hl := (exec_inv (hx (m0 + 1 + q))).order.dlt e d (by rw [h1]; simp)
      rw [(exec_known (hx (m0 + 1 + q))).origins.next, hloads _ (by omega), List.length_append, List.length_singleton] at hl
      rw [h1, hv, List.append_assoc, List.pairwise_append] at hs
      have := List.rel_of_pairwise_cons hs.2.1 (a' := d) (by simp)
      simp only at this
      omega
  -- it is picked up
  obtain ⟨m1, hm1, k, hk1⟩ := hk (m0 + 1)
  obtain ⟨q1, rfl⟩ := Nat.exists_eq_add_of_le hm1
  obtain ⟨q, k', hk', hcalls, hdur⟩ := next_call hk hk1
  obtain ⟨hia, _⟩ := idle_at_call hk1
  obtain ⟨hi2, _⟩ := idle_at_call hk'
  have hr := during_run b (m0 + 1 + q1) (1 + q)
  rw [hdur, ← Nat.add_assoc] at hr
  obtain ⟨found, h2, h3⟩ := C52_call_finds_what_waits hr hcalls hi2
  generalize hm2 : m0 + 1 + q1 + 1 + q = m2 at hk' hi2 h2
  have hd2 : ((b.state m2).engs e).delivered = ((b.state m0).engs e).delivered ++ [⟨(loadsIn (b.upTo n)).length, v⟩] := by
    rw [← hm2, show m0 + 1 + q1 + 1 + q = m0 + 1 + (q1 + 1 + q) by omega, hdel, hv]
  have hc2 : ((b.state m2).engs e).cmd = [] := by
    have f1 := ((exec_inv (hx (m0 + 1 + q1))).flow e).flow (alive _)
    have f2 := ((exec_inv (hx m2)).flow e).flow (alive _)
    rw [hia, hdel, hv] at f1
    rw [hi2, hd2, h2, List.flatMap_append] at f2
    simp only [APc.visited, List.append_nil, List.flatMap_cons, List.flatMap_nil] at f1 f2
    rw [← f1, List.append_assoc, List.append_cancel_left_eq] at f2
    obtain ⟨tl, h4⟩ := h3
    have := congrArg List.length f2
    rw [← h4] at this
    simp only [List.length_append] at this
    exact List.length_eq_zero_iff.mp (by omega)
  -- blocks for the fades
  obtain ⟨qb, blocks, hib, hcb, hlen⟩ := enough_blocks hk hi2 (fun m' hm' => hproc m' (by omega)) (4 * ((ceilTimes kUpperFadeTimeS p.sampleRate).toNat + p.maximumBlockSize))
  have proc : ∀ (a q : ℕ), n1 ≤ a → ∃ bl : List Buf, callsIn e (b.during a q) = bl.map Call.process := by
    intro a q ha
    have : ∀ k ∈ callsIn e (b.during a q), ∃ blk, k = Call.process blk := by
      intro k hk
      unfold callsIn at hk
      rw [List.mem_filterMap] at hk
      obtain ⟨l, hl, hlk⟩ := hk
      obtain ⟨i, _, hi'⟩ := mem_during.mp hl
      cases l with
      | call e' k2 =>
        have hlk : (if e' = e then some k2 else none) = some k := hlk
        split_ifs at hlk with hc
        simp only [Option.some.injEq] at hlk
        subst hlk; subst hc
        obtain ⟨blk, rfl, _⟩ := hproc _ (by omega) _ hi'
        exact ⟨blk, rfl⟩
      | _ => cases hlk
    generalize callsIn e (b.during a q) = ks at this
    induction ks with
    | nil => exact ⟨[], rfl⟩
    | cons k ks ih =>
      obtain ⟨blk, rfl⟩ := this k (List.mem_cons_self ..)
      obtain ⟨bl', h⟩ := ih fun k hk => this k (List.mem_cons_of_mem _ hk)
      exact ⟨blk :: bl', by rw [h]; rfl⟩
  have hn2 : n1 ≤ m2 := by omega
  obtain ⟨g, rfl⟩ := Nat.exists_eq_add_of_le hn2
  refine ⟨n1 + g + qb, by omega, hib, fun q' hiq => ?_⟩
  obtain ⟨more, hmore⟩ := proc (n1 + g + qb) q' (by omega)
  have halive : ∀ m, ((b.state m).engs e).pc = .idle → n1 + g ≤ m → ((b.state m).engs e).status = .alive := by
    intro m hm hle
    cases hst : ((b.state m).engs e).status with
    | alive => rfl
    | dead => exact absurd hst (alive m)
    | unborn =>
      have := ((exec_known (hx m)).traced e).unborn hst
      have hc := ((exec_known (hx m)).traced e).calls
      rw [this.2, this.1] at hc
      have hf := formatsIn_append e (b.upTo n1) (b.during n1 (m - n1))
      rw [← upTo_add, show n1 + (m - n1) = m by omega] at hf
      unfold formatsIn at hf
      rw [← hc] at hf
      have h0 : formatsIn e (b.upTo n1) = [] := (List.append_eq_nil_iff.mp hf.symm).1
      rw [h0] at hp; cases hp
  have main : ∀ q' more, callsIn e (b.during (n1 + g + qb) q') = more.map Call.process → ((b.state (n1 + g + qb + q')).engs e).pc = .idle →
      ∃ outs, ((b.state (n1 + g + qb + q')).engs e).outs = ((b.state (n1 + g)).engs e).outs ++ outs ∧ SameShape more (outs.drop blocks.length) ∧
      ∀ o < N, ∀ t, t < totalLen more → ir.n ≤ t + 1 →
        stream (outs.drop blocks.length) o t = routedConv ir cs.inputRouting cs.outputRouting (stream (blocks ++ more)) o (totalLen blocks + t) := by
    intro q' more hmore hiq
    have hr3 := during_run b (n1 + g) (qb + q')
    rw [← Nat.add_assoc] at hr3
    have hcalls3 : callsIn e (b.during (n1 + g) (qb + q')) = (blocks ++ more).map Call.process := by
      rw [during_add, callsIn_append, hcb, hmore, List.map_append]
    have hH' : HostBehaves N none (callsIn e (b.upTo n1 ++ b.during n1 g ++ b.during (n1 + g) (qb + q'))) := by
      have := hH (n1 + g + (qb + q'))
      rwa [upTo_add, upTo_add] at this
    have hU' : UsableLoads N e (b.upTo n1 ++ b.during n1 g) := by
      have := hU (n1 + g)
      rwa [upTo_add] at this
    obtain ⟨ir', cs', outs, h1, h2, h3, h4⟩ := C56_end_to_end hF hB (hx n1) hi1 hno hp (during_run b n1 g)
      (fun k hk => by
        obtain ⟨bl, hbl⟩ := proc n1 g le_rfl
        rw [hbl, List.mem_map] at hk
        obtain ⟨blk, _, rfl⟩ := hk
        exact ⟨blk, rfl⟩) hi2 hc2 (d := ⟨(loadsIn (b.upTo n)).length, v⟩) (by rw [hd2]; simp) hr3 (halive _ hiq (by omega)) hiq
      (by
        rw [show n1 + g + qb + q' = m0 + 1 + (q1 + 1 + q + qb + q') by omega, hdel, hv, hd2]) hcalls3 hH' hU' hlen
    rw [← upTo_add, hloads (n1 + g) (by omega), List.getElem?_append_right le_rfl] at h1
    simp at h1
    obtain ⟨rfl, rfl⟩ := h1
    exact ⟨outs, h2, h3, h4⟩
  obtain ⟨outs, g1, g2, g3⟩ := main q' more hmore hiq
  -- what has come out by the moment
  have hrun := during_run b (n1 + g + qb) q'
  have l0 := outs_length (hx (n1 + g)) (alive _) hi2
  have l1 := outs_length (hx (n1 + g + qb)) (alive _) hib
  have hcount : (blocks.map Call.process).countP isProcess = blocks.length := by
    rw [List.countP_map]
    exact List.countP_eq_length.mpr fun a _ => rfl
  rw [upTo_add b (n1 + g), callsIn_append, List.countP_append, hcb, hcount, ← l0] at l1
  have hgrow : ∀ {s s' : Sys Convolver (Buf × ConvolverSpec)} {ls}, Run (convolverOps F) build s ls s' → ∃ new, (s'.engs e).outs = (s.engs e).outs ++ new := by
    intro s s' ls hr
    induction hr with
    | nil s => exact ⟨[], by simp⟩
    | cons h t ih =>
      obtain ⟨nw, h2⟩ := ih
      rcases outs_step h e with ⟨_, h1, _⟩ | ⟨k, d, r, _, _, _, _, h1⟩
      · exact ⟨nw, by rw [h2, h1]⟩
      · exact ⟨_, by rw [h2, h1, List.append_assoc]⟩
  obtain ⟨o1, ho1⟩ := hgrow (during_run b (n1 + g) qb)
  obtain ⟨o2, ho2⟩ := hgrow hrun
  rw [ho1, List.length_append] at l1
  have hlen1 : o1.length = blocks.length := by omega
  rw [ho2, ho1, List.append_assoc, List.append_cancel_left_eq] at g1
  have hdrop : outs.drop blocks.length = o2 := by rw [← g1, ← hlen1, List.drop_left]
  rw [hdrop] at g2 g3
  refine ⟨more, o2, hmore, ho2, g2, fun o hoN t ht htn => ?_⟩
  rw [g3 o hoN t ht htn]
  have := routedConv_tail (ir := ir) (a := cs.inputRouting) (b := cs.outputRouting) (x := stream (blocks ++ more)) (y := stream more) (o := o) (T := totalLen blocks) (S := 0) (t := t)
    (fun ch m => by rw [stream_append_right, Nat.zero_add]) htn
  rw [this, Nat.zero_add]

/-! ## C64 -/

/-- **C64.** A convolver that has been replaced and handed to the notification queue is finally destroyed, on the background thread, as long as its engine lives and the scheduler does
not starve that thread. -/
theorem C64_replaced_is_destroyed {b : Behaviour ops build} {e : ℕ} (hf : b.Fair (backgroundSteps e)) {n : ℕ} (hal : ∀ m, n ≤ m → ((b.state m).engs e).status = .alive)
    {d : Held V} (hd : some d ∈ ((b.state n).engs e).ntf) :
    ∃ m, n ≤ m ∧ ((b.state (m + 1)).engs e).freed = ((b.state m).engs e).freed ++ [(d.id, .background)] := by
  obtain ⟨m, rest, h1, h2, h3⟩ := ntf_visited hf hal hd
  refine ⟨m, h1, ?_⟩
  have hs := b.step m _ h2
  generalize b.state (m + 1) = s' at hs ⊢
  cases hs with
  | bgVisit g1 g2 =>
    rw [h3] at g2
    simp only [List.cons.injEq] at g2
    rw [setEng_engs, if_pos rfl, ← g2.1]
    rfl

/-- **C64.** When a load has been completed and no other `LoadIR` call of the engine follows, its listeners are finally told, on the message thread, and `IsLoading` is false then. -/
theorem C64_listeners_are_told {b : Behaviour ops build} {e i : ℕ} (hf : b.Fair fun l => l = .async) {n : ℕ} (hact : b.act n = some (.jobDone i))
    (hj : ∃ j ∈ (b.state n).jobs, j.id = i ∧ j.eng = e) (hno : ∀ m, n ≤ m → ∀ req, b.act m ≠ some (.loadLock e req))
    (hal : ∀ m, n ≤ m → ((b.state m).engs e).status = .alive) :
    ∃ m, n < m ∧ b.act m = some .async ∧ ((b.state (m + 1)).engs e).notified = ((b.state m).engs e).notified ++ [false] := by
  obtain ⟨j, hjm, rfl, rfl⟩ := hj
  have inv : ∀ m, Inv ops (b.state m) := fun m => exec_inv (upTo_exec b m)
  have hs := b.step n _ hact
  have h0 : j.eng ∈ (b.state (n + 1)).async ∧ ((b.state (n + 1)).engs j.eng).loading = false ∧ ((b.state (n + 1)).engs j.eng).loader = none := by
    have hid : (Label.jobDone j.id : Label R) = .jobDone j.id := rfl
    generalize hs' : b.state (n + 1) = s' at hs
    generalize hl : (Label.jobDone j.id : Label R) = l at hs
    cases hs <;> try (cases hl)
    case jobDone k h1 h2 h3 =>
      simp only [Label.jobDone.injEq] at hl
      have := same_job (inv n).ids.nodup hjm h1 hl
      subst this
      refine ⟨List.mem_append_right _ (List.mem_singleton.mpr rfl), ?_, ?_⟩
      · show ((Sys.setEng _ j.eng _).engs j.eng).loading = false
        rw [setEng_engs, if_pos rfl]
      · show ((Sys.setEng _ j.eng _).engs j.eng).loader = none
        rw [setEng_engs, if_pos rfl]
        show ((b.state n).engs j.eng).loader = none
        by_contra hc
        have h5 := (inv n).locks.excl _ hc
        have h6 := (inv n).locks.jhold j hjm (holds_iff.mpr (Or.inr h2))
        rw [h5] at h6; cases h6
    case jobDoneDead k h1 h2 h3 =>
      simp only [Label.jobDone.injEq] at hl
      have := same_job (inv n).ids.nodup hjm h1 hl
      subst this
      rw [hal n le_rfl] at h3; cases h3
  have keep : ∀ m, n + 1 ≤ m → ((b.state m).engs j.eng).loading = false ∧ ((b.state m).engs j.eng).loader = none :=
    always (P := fun s => (s.engs j.eng).loading = false ∧ (s.engs j.eng).loader = none) h0.2 fun m hm l hl h => by
      have hs := b.step m l hl
      obtain ⟨h1, h2⟩ := h
      have hnl : ∀ req, l ≠ .loadLock j.eng req := fun req hc => hno m (by omega) req (by rw [hl, hc])
      generalize b.state (m + 1) = s' at hs
      generalize b.state m = s at hs h1 h2
      have same : ∀ {e0 : ℕ} {x : Eng V R} {s1 : Sys V R}, s1.engs = s.engs → (e0 = j.eng → x.loading = false ∧ x.loader = none) →
          ((s1.setEng e0 x).engs j.eng).loading = false ∧ ((s1.setEng e0 x).engs j.eng).loader = none := by
        intro e0 x s1 hs1 hx
        rw [setEng_engs]
        split_ifs with hc
        · exact hx hc.symm
        · rw [hs1]; exact ⟨h1, h2⟩
      cases hs
      case loadLock e0 req g1 g2 => exact same (s1 := s) rfl fun hc => absurd (by rw [hc]) (hnl req)
      case loadRemove e0 i req g1 => exact same (s1 := s) rfl fun hc => by subst hc; rw [g1] at h2; cases h2
      case loadFlag e0 i req g1 g2 => exact same (s1 := s) rfl fun hc => by subst hc; rw [g1] at h2; cases h2
      case loadSkip e0 i req g1 g2 => exact same (s1 := s) rfl fun hc => by subst hc; rw [g1] at h2; cases h2
      case loadAdd e0 i req p g1 g2 => exact same (s1 := s) rfl fun hc => by subst hc; rw [g1] at h2; cases h2
      case pick k g1 => exact ⟨h1, h2⟩
      case visit e0 n k d g rest g1 g2 =>
        refine same (s1 := s) rfl fun hc => ?_
        subst hc
        rw [visit_eq]; exact ⟨h1, h2⟩
      case body e0 k d r g1 g2 =>
        refine same (s1 := s) rfl fun hc => ?_
        subst hc
        rw [finish_eq]; exact ⟨h1, h2⟩
      case call e0 k g1 g2 =>
        refine same (s1 := s) rfl fun hc => ?_
        subst hc
        refine ⟨?_, h2⟩
        show (if k.resets = true then false else (s.engs j.eng).loading) = false
        rw [h1]; split_ifs <;> rfl
      case jobDone k g1 g2 g3 => exact same (s1 := s.dropJob k.id) rfl fun hc => ⟨rfl, by rw [hc]; exact h2⟩
      all_goals
        first
          | exact same (s1 := s) rfl fun hc => by rw [hc]; exact ⟨h1, h2⟩
          | exact same (s1 := s.setJob _) (by rfl) fun hc => by rw [hc]; exact ⟨h1, h2⟩
          | exact same (s1 := s.dropJob _) (by rfl) fun hc => by rw [hc]; exact ⟨h1, h2⟩
  obtain ⟨m, rest, h1, h2, h3⟩ := callback_runs hf h0.1
  refine ⟨m, by omega, h2, ?_⟩
  have hs := b.step m _ h2
  have hk := (keep m h1).1
  have ha := hal m (by omega)
  generalize b.state (m + 1) = s' at hs ⊢
  cases hs with
  | async g1 g2 =>
    rw [h3] at g1
    simp only [List.cons.injEq] at g1
    obtain ⟨rfl, rfl⟩ := g1
    show ((Sys.setEng _ j.eng _).engs j.eng).notified = _
    rw [setEng_engs, if_pos rfl]
    simp only [hk]
  | asyncDead g1 g2 =>
    rw [h3] at g1
    simp only [List.cons.injEq] at g1
    obtain ⟨rfl, rfl⟩ := g1
    rw [ha] at g2; cases g2

end Zones.Props
