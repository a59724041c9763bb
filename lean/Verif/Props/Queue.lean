import Verif.Proofs.QueueRefine
import Verif.Spec.Fifo

/-!
# Properties of the command queues: C29, C30, C51
-/

open Zones.Spec Zones.Model Zones.Proofs

namespace Zones.Props

variable {α : Type}

/-- Perform a sequence of operations on the queue; `none` if one of them accesses memory outside of `storage_`. A
visited slot whose pointer was null shows up as `none`. -/
def queueRun : Queue α → List (QOp α) → Option (List (QRes (Option α)))
  | _, [] => some []
  | q, .push a :: ops => (q.push a).bind fun r => (queueRun r.2 ops).map fun l => .pushed r.1 :: l
  | q, .service :: ops => q.service.bind fun r => (queueRun r.2 ops).map fun l => .serviced r.1 :: l

theorem queueRun_of_holds {q : Queue α} {R : ℕ} {l : List α} (h : Holds q R l) (ops : List (QOp α)) :
    queueRun q ops = some (boundedFifo some 399 l ops) := by
  induction ops generalizing q R l with
  | nil => rfl
  | cons o ops ih =>
    cases o with
    | push a =>
      rcases holds_push h a with ⟨hl, e⟩ | ⟨hl, q', e, h'⟩
      · unfold queueRun boundedFifo
        rw [e, if_neg (by omega)]
        simp only [Option.bind_some, ih h, Option.map_some]
      · unfold queueRun boundedFifo
        rw [e, if_pos hl]
        simp only [Option.bind_some, ih h', Option.map_some]
    | service =>
      obtain ⟨q', e, h'⟩ := holds_service h
      unfold queueRun boundedFifo
      rw [e]
      simp only [Option.bind_some, ih h', Option.map_some]

/-- **C29.** For every sequence of pushes and services, the queue behaves like a first-in first-out queue with room for 399
commands: a push is refused exactly when 399 commands are waiting, and a service hands over all waiting commands,
oldest first, each once. -/
theorem C29_bounded_fifo (ops : List (QOp α)) :
    queueRun Queue.init ops = some (boundedFifo some 399 [] ops) :=
  queueRun_of_holds holds_init ops

/-- The queue after a sequence of operations. -/
def queueAfter : Queue α → List (QOp α) → Option (Queue α)
  | q, [] => some q
  | q, .push a :: ops => (q.push a).bind fun r => queueAfter r.2 ops
  | q, .service :: ops => q.service.bind fun r => queueAfter r.2 ops

theorem queueAfter_of_holds {q : Queue α} {R : ℕ} {l : List α} (h : Holds q R l) (ops : List (QOp α)) :
    ∃ q' R', queueAfter q ops = some q' ∧ Holds q' R' (waitingAfter 399 l ops) := by
  induction ops generalizing q R l with
  | nil => exact ⟨q, R, rfl, h⟩
  | cons o ops ih =>
    cases o with
    | push a =>
      rcases holds_push h a with ⟨hl, e⟩ | ⟨hl, q', e, h'⟩
      · unfold queueAfter waitingAfter
        rw [e, if_neg (by omega)]
        exact ih h
      · unfold queueAfter waitingAfter
        rw [e, if_pos hl]
        exact ih h'
    | service =>
      obtain ⟨q', e, h'⟩ := holds_service h
      unfold queueAfter waitingAfter
      rw [e]
      exact ih h'

/-- **C29** (`HasPendingCommands`). After any operations, it reports whether a command is waiting. -/
theorem C29_has_pending (ops : List (QOp α)) :
    ∃ q, queueAfter Queue.init ops = some q ∧ (q.hasPending = true ↔ waitingAfter 399 [] ops ≠ []) := by
  obtain ⟨q, R, e, h⟩ := queueAfter_of_holds holds_init ops
  refine ⟨q, e, ?_⟩
  unfold Queue.hasPending
  rw [h.size, h.vs, h.ve, numReady_eq (by omega) (by have := h.len; omega), Nat.add_sub_cancel_left]
  generalize waitingAfter 399 [] ops = l
  cases l <;> simp

example : boundedFifo (some : ℕ → _) 2 [] [.push 1, .push 2, .push 3, .service, .push 4, .service] =
    [.pushed true, .pushed true, .pushed false, .serviced [some 1, some 2], .pushed true, .serviced [some 4]] := rfl

/-- `s` occurs in some execution. -/
def QReachable (s : QSys α) : Prop := ∃ ls, (QSys.init : QSys α).run ls = some s

theorem QReachable.inv {s : QSys α} (h : QReachable s) : QInv s := by
  obtain ⟨ls, e⟩ := h
  exact qinv_run qinv_init e

/-- **C30.** In every interleaving of single loads and stores of one pushing and one servicing thread, the commands handed
to the visitor so far are a prefix of the accepted commands: nothing is lost, duplicated, reordered or read before it
has been written. -/
theorem C30_in_order_exactly_once {s : QSys α} (h : QReachable s) :
    ∃ rest, s.accepted.map some = s.visited ++ rest := by
  refine ⟨(s.accepted.drop s.visited.length).map some, ?_⟩
  conv_rhs => rw [h.inv.visited]
  rw [List.length_map, List.length_take, min_eq_left h.inv.mid, ← List.map_append, List.take_append_drop]

/-- **C30** (no conflicting access). The servicing thread never moves from a slot while the pushing thread assigns to it,
and both only access the 400 slots that exist. -/
theorem C30_no_conflict {s : QSys α} (h : QReachable s) :
    (∀ a i b j is b', s.p = .writing a i b → s.c = .reading j is b' → i ≠ j) ∧
      (∀ a i b, s.p = .writing a i b → 0 ≤ i ∧ i < 400) ∧
      (∀ j is b, s.c = .reading j is b → 0 ≤ j ∧ j < 400) := by
  obtain ⟨_, _, hlo, hmid, _, _, _, hp, hc⟩ := h.inv
  unfold PInv at hp
  unfold CInvQ at hc
  refine ⟨fun a i b j is b' e1 e2 => ?_, fun a i b e1 => ?_, fun j is b e2 => ?_⟩
  · rw [e1] at hp
    rw [e2] at hc
    obtain ⟨k, m, hb, hk, hm, hj, _⟩ := hc
    simp only at hp
    omega
  · rw [e1] at hp
    simp only at hp
    omega
  · rw [e2] at hc
    obtain ⟨k, m, hb, hk, hm, hj, _⟩ := hc
    omega

/-- progress of a service that began when `A` commands had been accepted -/
def Serving (A n0 : ℕ) (s : QSys α) : Prop :=
  (s.served = n0 ∧ A ≤ s.accepted.length ∧ match s.c with
    | .idle => False
    | .ready1 => True
    | .ready2 _ => True
    | .prep1 n => (A : ℤ) ≤ s.released + n
    | .prep2 n _ => (A : ℤ) ≤ s.released + n
    | .loop _ b => (A : ℤ) ≤ s.released + b
    | .reading _ _ b => (A : ℤ) ≤ s.released + b
    | .fin1 b => (A : ℤ) ≤ s.released + b
    | .fin2 _ => A ≤ s.visited.length) ∨
  (n0 < s.served ∧ A ≤ s.visited.length)

theorem serving_step {A n0 : ℕ} {s s' : QSys α} {l : QLabel α} (hi : QInv s) (h : Serving A n0 s)
    (e : s.step l = some s') : Serving A n0 s' := by
  have hinv := hi
  obtain ⟨hvs, hve, hlo, hmid, hhi, hsl, hvis, hp, hc⟩ := hi
  cases l with
  | push a =>
    unfold QSys.step at e
    simp only at e
    split at e <;> cases e
    exact h
  | producer =>
    unfold QSys.step QSys.pstep at e
    simp only at e
    split at e
    all_goals first
      | cases e; done
      | (cases e; exact h)
      | skip
    · split at e <;> (cases e; exact h)
    · split at e
      · cases e; exact h
      · split at e <;> (cases e; exact h)
    · cases e
      rcases h with ⟨a, b, c⟩ | h
      · exact Or.inl ⟨a, by show A ≤ (s.accepted ++ _).length; simp; omega, c⟩
      · exact Or.inr h
  | service =>
    unfold QSys.step at e
    simp only at e
    split at e
    · rename_i hcc
      cases e
      rcases h with ⟨_, _, c⟩ | h
      · rw [hcc] at c; exact c.elim
      · exact Or.inr h
    · cases e
  | consumer =>
    unfold QSys.step QSys.cstep at e
    simp only at e
    rcases h with ⟨hn, hA, hm⟩ | h
    · unfold CInvQ at hc
      cases hcc : s.c with
      | idle => rw [hcc] at e; cases e
      | ready1 => rw [hcc] at e; cases e; exact Or.inl ⟨hn, hA, trivial⟩
      | ready2 v =>
        rw [hcc] at e hc
        cases e
        refine Or.inl ⟨hn, hA, ?_⟩
        show (A : ℤ) ≤ s.released + Fifo.numReady kMaxQueueSize v s.ve
        rw [hc.2, hve]
        have : Fifo.numReady kMaxQueueSize _ _ = _ := numReady_eq (R := s.released) (W := s.accepted.length) (by omega) hhi
        rw [this]
        omega
      | prep1 n => rw [hcc] at e hm; cases e; exact Or.inl ⟨hn, hA, hm⟩
      | prep2 n v =>
        rw [hcc] at e hm hc
        obtain ⟨hV, hv, k, hk, hkW⟩ := hc
        obtain ⟨_, p2⟩ := prepareToRead_eq (R := s.released) (W := s.accepted.length) (n := k) (by omega) hhi (by omega)
        cases e
        refine Or.inl ⟨hn, hA, ?_⟩
        show (A : ℤ) ≤ s.released + ((Fifo.prepareToRead kMaxQueueSize v s.ve n).b1 + (Fifo.prepareToRead kMaxQueueSize v s.ve n).b2)
        have : (Fifo.prepareToRead kMaxQueueSize v s.ve n).b1 + (Fifo.prepareToRead kMaxQueueSize v s.ve n).b2 = k := by
          rw [hv, hve, hk]; exact p2
        rw [this]
        simp only at hm
        omega
      | loop is b =>
        rw [hcc] at hm
        cases is <;> rw [hcc] at e <;> cases e <;> exact Or.inl ⟨hn, hA, hm⟩
      | reading i is b => rw [hcc] at e hm; cases e; exact Or.inl ⟨hn, hA, hm⟩
      | fin1 b =>
        rw [hcc] at e hm hc
        obtain ⟨k, hb, _, hV⟩ := hc
        cases e
        refine Or.inl ⟨hn, hA, ?_⟩
        show A ≤ s.visited.length
        simp only at hm
        omega
      | fin2 v => rw [hcc] at e hm; cases e; exact Or.inr ⟨by show n0 < s.served + 1; omega, hm⟩
    · right
      split at e
      all_goals first
        | cases e; done
        | (cases e; exact h)
        | skip
      · cases e
        exact ⟨h.1, by show A ≤ (s.visited ++ _).length; simp; omega⟩
      · cases e
        exact ⟨by show n0 < s.served + 1; omega, h.2⟩

/-- **C30** (nothing is left behind). When a call of `Service` returns, every command whose push had taken effect before
the call has been handed to the visitor, whatever the pushing thread did meanwhile. -/
theorem C30_service_is_complete {s s1 s2 : QSys α} (h : QReachable s) (e1 : s.step .service = some s1)
    {ls : List (QLabel α)} (e2 : s1.run ls = some s2) (hs : s.served < s2.served) :
    s.accepted.length ≤ s2.visited.length := by
  have h1 : Serving s.accepted.length s.served s1 := by
    unfold QSys.step at e1
    simp only at e1
    split at e1 <;> cases e1
    exact Or.inl ⟨rfl, le_refl _, trivial⟩
  have hi : QInv s1 := qinv_step h.inv e1
  have : Serving s.accepted.length s.served s2 := by
    clear e1 hs
    induction ls generalizing s1 with
    | nil => cases e2; exact h1
    | cons l ls ih =>
      unfold QSys.run at e2
      rw [Option.bind_eq_some_iff] at e2
      obtain ⟨t, ea, eb⟩ := e2
      exact ih eb (serving_step hi h1 ea) (qinv_step hi ea)
  rcases this with h | h
  · omega
  · exact h.2

/-- progress of a push that began when `R0` commands had been released, `W0` accepted and `n0` pushes finished -/
def Pushing (R0 W0 n0 : ℕ) (s : QSys α) : Prop :=
  (s.results.length = n0 ∧ s.accepted.length = W0 ∧ R0 ≤ s.released ∧ match s.p with
    | .idle => False
    | .free2 _ v => ∃ R', v = ((R' % 400 : ℕ) : ℤ) ∧ R0 ≤ R' ∧ R' ≤ W0 ∧ W0 - R' ≤ 399
    | _ => True) ∨
  (n0 < s.results.length ∧ (s.results[n0]? = some false → W0 - R0 = 399))

theorem pushing_step {R0 W0 n0 : ℕ} {s s' : QSys α} {l : QLabel α} (hi : QInv s) (hle : W0 - R0 ≤ 399) (h : Pushing R0 W0 n0 s)
    (e : s.step l = some s') : Pushing R0 W0 n0 s' := by
  obtain ⟨hvs, hve, hlo, hmid, hhi, hsl, hvis, hp, hc⟩ := hi
  have key : ∀ (r : List Bool) (b : Bool), n0 < r.length → (r[n0]? = some false → W0 - R0 = 399) →
      n0 < (r ++ [b]).length ∧ ((r ++ [b])[n0]? = some false → W0 - R0 = 399) := by
    intro r b h1 h2
    refine ⟨by simp; omega, fun h => h2 ?_⟩
    rwa [List.getElem?_append_left h1] at h
  cases l with
  | push a =>
    unfold QSys.step at e
    simp only at e
    split at e
    · rename_i hpc
      cases e
      rcases h with ⟨_, _, _, c⟩ | h
      · rw [hpc] at c; exact c.elim
      · exact Or.inr h
    · cases e
  | service =>
    unfold QSys.step at e
    simp only at e
    split at e <;> cases e
    exact h
  | consumer =>
    unfold QSys.step QSys.cstep at e
    simp only at e
    split at e
    all_goals first
      | cases e; done
      | (cases e; exact h)
      | skip
    cases e
    rcases h with ⟨a, b, c, d⟩ | h
    · exact Or.inl ⟨a, b, by show R0 ≤ s.visited.length; omega, d⟩
    · exact Or.inr h
  | producer =>
    unfold QSys.step QSys.pstep at e
    simp only at e
    rcases h with ⟨hn, hW, hR, hm⟩ | ⟨h1, h2⟩
    · unfold PInv at hp
      cases hpc : s.p with
      | idle => rw [hpc] at e; cases e
      | free1 a => rw [hpc] at e; cases e; exact Or.inl ⟨hn, hW, hR, s.released, hvs, hR, by omega, by omega⟩
      | free2 a v =>
        rw [hpc] at e hm
        obtain ⟨R', hv, h0, h1, h2⟩ := hm
        have hfs : Fifo.freeSpace kMaxQueueSize v s.ve = 399 - ((s.accepted.length - R' : ℕ) : ℤ) := by
          rw [hv, hve]; exact freeSpace_eq (by omega) (by omega)
        simp only [hfs] at e
        split at e
        · cases e
          refine Or.inr ⟨by show n0 < (s.results ++ _).length; simp; omega, fun _ => ?_⟩
          omega
        · cases e
          exact Or.inl ⟨hn, hW, hR, trivial⟩
      | prep1 a => rw [hpc] at e; cases e; exact Or.inl ⟨hn, hW, hR, trivial⟩
      | prep2 a v => rw [hpc] at e; cases e; exact Or.inl ⟨hn, hW, hR, trivial⟩
      | write a w =>
        rw [hpc] at e
        simp only at e
        split at e
        · cases e; exact Or.inl ⟨hn, hW, hR, trivial⟩
        · split at e <;> (cases e; exact Or.inl ⟨hn, hW, hR, trivial⟩)
      | writing a i b => rw [hpc] at e; cases e; exact Or.inl ⟨hn, hW, hR, trivial⟩
      | fin1 a b => rw [hpc] at e; cases e; exact Or.inl ⟨hn, hW, hR, trivial⟩
      | fin2 a v =>
        rw [hpc] at e; cases e
        refine Or.inr ⟨by show n0 < (s.results ++ _).length; simp; omega, fun h => ?_⟩
        simp [← hn] at h
    · right
      split at e
      all_goals first
        | cases e; done
        | (cases e; exact ⟨h1, h2⟩)
        | skip
      · split at e
        · cases e; exact key _ _ h1 h2
        · cases e; exact ⟨h1, h2⟩
      · split at e
        · cases e; exact ⟨h1, h2⟩
        · split at e <;> (cases e; exact ⟨h1, h2⟩)
      · cases e; exact key _ _ h1 h2

/-- **C30** (refusals). A push is refused only if 399 accepted commands had not yet been given back by the servicing thread
when the call began. -/
theorem C30_refused_only_when_full {s s1 s2 : QSys α} (h : QReachable s) {a : α} (e1 : s.step (.push a) = some s1)
    {ls : List (QLabel α)} (e2 : s1.run ls = some s2) (hr : s2.results[s.results.length]? = some false) :
    s.accepted.length - s.released = 399 := by
  have hs := h.inv
  have h1 : Pushing s.released s.accepted.length s.results.length s1 := by
    unfold QSys.step at e1
    simp only at e1
    split at e1 <;> cases e1
    exact Or.inl ⟨rfl, rfl, le_refl _, trivial⟩
  have hi : QInv s1 := qinv_step h.inv e1
  have : Pushing s.released s.accepted.length s.results.length s2 := by
    clear e1 hr
    induction ls generalizing s1 with
    | nil => cases e2; exact h1
    | cons l ls ih =>
      unfold QSys.run at e2
      rw [Option.bind_eq_some_iff] at e2
      obtain ⟨t, ea, eb⟩ := e2
      exact ih eb (pushing_step hi hs.hi h1 ea) (qinv_step hi ea)
  rcases this with ⟨h, _⟩ | h
  · rw [← h] at hr; simp at hr
  · exact h.2 hr

/-- **C30** (atomicity, each step). Every single load or store of the two threads either changes nothing in the atomic queue they stand
for, or is exactly one of its steps: pushes and services behave as if they happened atomically. -/
theorem C30_each_step_is_atomic {s s' : QSys α} (h : QReachable s) {l : QLabel α} (e : s.step l = some s') :
    abstractQueue s' = abstractQueue s ∨ AtomicQueue.Step 399 (abstractQueue s) (abstractQueue s') :=
  refine_step h.inv e

/-- **C30** (atomicity, executions). After every interleaving, what has been handed to the visitor, what has been accepted and what the
pushes have returned are those of an execution of the atomic queue with 399 places. -/
theorem C30_executions_are_atomic {s : QSys α} (h : QReachable s) :
    ∃ q : AtomicQueue α, AtomicQueue.Steps 399 {} q ∧
      s.visited = q.visited.map some ∧ s.accepted = q.visited ++ q.waiting ∧
      (s.p = .idle → q.answers = s.results) ∧ (s.c = .idle → q.left = none ∧ q.taken = 0) := by
  have hi := h.inv
  obtain ⟨ls, e⟩ := h
  refine ⟨abstractQueue s, refine_run qinv_init e {} ?_, hi.visited, (List.take_append_drop _ _).symm, fun hp => ?_, fun hc => ?_⟩
  · have : abstractQueue (QSys.init : QSys α) = {} := rfl
    rw [this]
    exact .refl _
  · simp [abstractQueue, owed, hp]
  · have := hi.c
    unfold CInvQ at this
    rw [hc] at this
    simp only at this
    refine ⟨by simp [abstractQueue, hc, leftOf], ?_⟩
    simp only [abstractQueue]
    omega

/-- An interleaving in which a push overlaps a service: the service that began before the push finished does not see
the second command, the next one would. -/
example : ∃ s : QSys ℕ, QSys.init.run ([.push 1] ++ List.replicate 8 .producer ++ [.push 2, .service] ++
    [.producer, .consumer, .producer, .consumer, .producer, .consumer, .producer, .consumer, .producer, .consumer] ++
    [.producer, .consumer, .producer, .producer, .consumer, .consumer, .consumer]) = some s ∧
    s.accepted = [1, 2] ∧ s.visited = [some 1] ∧ s.released = 1 ∧ s.results = [true, true] ∧ s.served = 1 :=
  ⟨_, rfl, rfl, rfl, rfl, rfl, rfl⟩

/-! ## No waiting -/

def prank : PPc α → ℕ
  | .idle => 0
  | .free1 _ => 8
  | .free2 _ _ => 7
  | .prep1 _ => 6
  | .prep2 _ _ => 5
  | .write _ _ => 4
  | .writing _ _ _ => 3
  | .fin1 _ _ => 2
  | .fin2 _ _ => 1

def crank : CPc → ℕ
  | .idle => 0
  | .ready1 => 805
  | .ready2 _ => 804
  | .prep1 _ => 803
  | .prep2 _ _ => 802
  | .loop is _ => 2 * is.length + 3
  | .reading _ is _ => 2 * is.length + 4
  | .fin1 _ => 2
  | .fin2 _ => 1

theorem pstep_rank {s : QSys α} (h : s.p ≠ .idle) :
    ∃ s', s.pstep = some s' ∧ prank s'.p < prank s.p ∧
      (s'.p = .idle → s'.results.length = s.results.length + 1) := by
  cases hp : s.p with
  | idle => exact (h hp).elim
  | free1 a => refine ⟨_, by unfold QSys.pstep; rw [hp], by simp [prank], by simp⟩
  | free2 a v =>
    by_cases hf : Fifo.freeSpace kMaxQueueSize v s.ve = 0
    · exact ⟨_, by unfold QSys.pstep; rw [hp]; simp only; rw [if_pos hf], by simp [prank], by simp⟩
    · exact ⟨_, by unfold QSys.pstep; rw [hp]; simp only; rw [if_neg hf], by simp [prank], by simp⟩
  | prep1 a => refine ⟨_, by unfold QSys.pstep; rw [hp], by simp [prank], by simp⟩
  | prep2 a v => refine ⟨_, by unfold QSys.pstep; rw [hp], by simp [prank], by simp⟩
  | write a w =>
    by_cases h1 : w.b1 ≠ 0
    · exact ⟨_, by unfold QSys.pstep; rw [hp]; simp only; rw [if_pos h1], by simp [prank], by simp⟩
    · by_cases h2 : w.b2 ≠ 0
      · exact ⟨_, by unfold QSys.pstep; rw [hp]; simp only; rw [if_neg h1, if_pos h2], by simp [prank], by simp⟩
      · exact ⟨_, by unfold QSys.pstep; rw [hp]; simp only; rw [if_neg h1, if_neg h2], by simp [prank], by simp⟩
  | writing a i b => refine ⟨_, by unfold QSys.pstep; rw [hp], by simp [prank], by simp⟩
  | fin1 a b => refine ⟨_, by unfold QSys.pstep; rw [hp], by simp [prank], by simp⟩
  | fin2 a v => refine ⟨_, by unfold QSys.pstep; rw [hp], by simp [prank], by simp⟩

theorem pstep_frame {s s' : QSys α} (e : s.pstep = some s') : s'.c = s.c ∧ s'.served = s.served := by
  unfold QSys.pstep at e
  split at e
  all_goals first
    | cases e; done
    | (cases e; exact ⟨rfl, rfl⟩)
    | skip
  · split at e <;> (cases e; exact ⟨rfl, rfl⟩)
  · split at e
    · cases e; exact ⟨rfl, rfl⟩
    · split at e <;> (cases e; exact ⟨rfl, rfl⟩)

theorem cstep_frame {s s' : QSys α} (e : s.cstep = some s') : s'.p = s.p ∧ s'.results = s.results := by
  unfold QSys.cstep at e
  split at e
  all_goals first
    | cases e; done
    | (cases e; exact ⟨rfl, rfl⟩)

theorem cstep_rank {s : QSys α} (hi : QInv s) (h : s.c ≠ .idle) :
    ∃ s', s.cstep = some s' ∧ crank s'.c < crank s.c ∧ (s'.c = .idle → s'.served = s.served + 1) := by
  cases hc : s.c with
  | idle => exact (h hc).elim
  | ready1 => exact ⟨_, by unfold QSys.cstep; rw [hc], by simp [crank], by simp⟩
  | ready2 v => exact ⟨_, by unfold QSys.cstep; rw [hc], by simp [crank], by simp⟩
  | prep1 n => exact ⟨_, by unfold QSys.cstep; rw [hc], by simp [crank], by simp⟩
  | prep2 n v =>
    refine ⟨_, by unfold QSys.cstep; rw [hc], ?_, by simp⟩
    have hcc := hi.c
    unfold CInvQ at hcc
    rw [hc] at hcc
    obtain ⟨hV, hv, k, hk, hkW⟩ := hcc
    have := hi.hi
    obtain ⟨p1, _⟩ := prepareToRead_eq (R := s.released) (W := s.accepted.length) (n := k) (by omega) hi.hi (by omega)
    have : (Fifo.prepareToRead kMaxQueueSize v s.ve n).indices.length = k := by
      rw [hv, hi.ve, hk]
      have := congrArg List.length p1
      rw [List.length_map, List.length_range] at this
      exact this
    simp only [crank, this]
    omega
  | loop is b =>
    cases is with
    | nil => exact ⟨_, by unfold QSys.cstep; rw [hc], by simp [crank], by simp⟩
    | cons i is => exact ⟨_, by unfold QSys.cstep; rw [hc], by simp [crank]; omega, by simp⟩
  | reading i is b => exact ⟨_, by unfold QSys.cstep; rw [hc], by simp [crank], by simp⟩
  | fin1 b => exact ⟨_, by unfold QSys.cstep; rw [hc], by simp [crank], by simp⟩
  | fin2 v => exact ⟨_, by unfold QSys.cstep; rw [hc], by simp [crank], by simp⟩

def QLabel.isProducer : QLabel α → Bool
  | .producer => true
  | _ => false

def QLabel.isConsumer : QLabel α → Bool
  | .consumer => true
  | _ => false

theorem results_mono {s s' : QSys α} {ls : List (QLabel α)} (e : s.run ls = some s') : s.results.length ≤ s'.results.length := by
  induction ls generalizing s with
  | nil => cases e; exact le_refl _
  | cons l ls ih =>
    unfold QSys.run at e
    rw [Option.bind_eq_some_iff] at e
    obtain ⟨t, ea, eb⟩ := e
    refine le_trans ?_ (ih eb)
    cases l with
    | push a => unfold QSys.step at ea; simp only at ea; split at ea <;> cases ea; exact le_refl _
    | service => unfold QSys.step at ea; simp only at ea; split at ea <;> cases ea; exact le_refl _
    | consumer => rw [(cstep_frame ea).2]
    | producer =>
      unfold QSys.step QSys.pstep at ea
      simp only at ea
      split at ea
      all_goals first
        | cases ea; done
        | (cases ea; exact le_refl _)
        | skip
      · split at ea <;> (cases ea; simp)
      · split at ea
        · cases ea; simp
        · split at ea <;> (cases ea; simp)
      · cases ea; simp

theorem served_mono {s s' : QSys α} {ls : List (QLabel α)} (e : s.run ls = some s') : s.served ≤ s'.served := by
  induction ls generalizing s with
  | nil => cases e; exact le_refl _
  | cons l ls ih =>
    unfold QSys.run at e
    rw [Option.bind_eq_some_iff] at e
    obtain ⟨t, ea, eb⟩ := e
    refine le_trans ?_ (ih eb)
    cases l with
    | push a => unfold QSys.step at ea; simp only at ea; split at ea <;> cases ea; exact le_refl _
    | service => unfold QSys.step at ea; simp only at ea; split at ea <;> cases ea; exact le_refl _
    | producer => rw [(pstep_frame ea).2]
    | consumer =>
      unfold QSys.step QSys.cstep at ea
      simp only at ea
      split at ea
      all_goals first
        | cases ea; done
        | (cases ea; exact le_refl _)
        | skip
      cases ea; simp

theorem push_ranked {s s' : QSys α} {ls : List (QLabel α)} (hp : s.p ≠ .idle)
    (e : s.run ls = some s') (hn : prank s.p ≤ ls.countP QLabel.isProducer) : s.results.length < s'.results.length := by
  induction ls generalizing s with
  | nil =>
    have : prank s.p = 0 := by simpa using hn
    cases h : s.p with
    | idle => exact (hp h).elim
    | _ => rw [h] at this; simp [prank] at this
  | cons l ls ih =>
    unfold QSys.run at e
    rw [Option.bind_eq_some_iff] at e
    obtain ⟨t, ea, eb⟩ := e
    cases l with
    | push a =>
      exfalso
      unfold QSys.step at ea
      revert ea
      cases h : s.p with
      | idle => exact (hp h).elim
      | _ => simp
    | service =>
      unfold QSys.step at ea; simp only at ea; split at ea <;> cases ea
      exact ih (s := { s with c := .ready1 }) hp eb (by simpa [QLabel.isProducer] using hn)
    | consumer =>
      have := cstep_frame ea
      rw [← this.2]
      exact ih (by rw [this.1]; exact hp) eb (by rw [this.1]; simpa [QLabel.isProducer] using hn)
    | producer =>
      obtain ⟨t', e', hr, hi⟩ := pstep_rank hp
      have : t' = t := by
        have := e'.symm.trans ea
        exact Option.some.inj this
      subst this
      by_cases hidle : t'.p = .idle
      · have := results_mono eb
        have := hi hidle
        omega
      · have hlt := ih hidle eb (by
          have hn' : prank s.p ≤ ls.countP QLabel.isProducer + 1 := by rwa [List.countP_cons_of_pos rfl] at hn
          omega)
        have : s.results.length ≤ t'.results.length := results_mono (ls := [.producer]) (by simp [QSys.run, QSys.step, e'])
        omega

theorem service_ranked {s s' : QSys α} {ls : List (QLabel α)} (hinv : QInv s) (hc : s.c ≠ .idle)
    (e : s.run ls = some s') (hn : crank s.c ≤ ls.countP QLabel.isConsumer) : s.served < s'.served := by
  induction ls generalizing s with
  | nil =>
    have : crank s.c = 0 := by simpa using hn
    cases h : s.c with
    | idle => exact (hc h).elim
    | _ => rw [h] at this; simp [crank] at this
  | cons l ls ih =>
    unfold QSys.run at e
    rw [Option.bind_eq_some_iff] at e
    obtain ⟨t, ea, eb⟩ := e
    have hinv' := qinv_step hinv ea
    cases l with
    | push a =>
      unfold QSys.step at ea; simp only at ea; split at ea <;> cases ea
      exact ih (s := { s with p := .free1 a }) hinv' hc eb (by simpa [QLabel.isConsumer] using hn)
    | service =>
      exfalso
      unfold QSys.step at ea
      revert ea
      cases h : s.c with
      | idle => exact (hc h).elim
      | _ => simp
    | producer =>
      have := pstep_frame ea
      rw [← this.2]
      exact ih hinv' (by rw [this.1]; exact hc) eb (by rw [this.1]; simpa [QLabel.isConsumer] using hn)
    | consumer =>
      obtain ⟨t', e', hr, hi⟩ := cstep_rank hinv hc
      have : t' = t := by
        have := e'.symm.trans ea
        exact Option.some.inj this
      subst this
      by_cases hidle : t'.c = .idle
      · have := served_mono eb
        have := hi hidle
        omega
      · have hlt := ih hinv' hidle eb (by
          have hn' : crank s.c ≤ ls.countP QLabel.isConsumer + 1 := by rwa [List.countP_cons_of_pos rfl] at hn
          omega)
        have : s.served ≤ t'.served := served_mono (ls := [.consumer]) (by simp [QSys.run, QSys.step, e'])
        omega

/-- **C51.** Neither side ever waits for the other: whatever the servicing thread does or does not do, `PushCommand`
returns after at most 8 of its own steps; -/
theorem C51_push_never_waits {s s1 s2 : QSys α} {a : α} (e1 : s.step (.push a) = some s1)
    {ls : List (QLabel α)} (e2 : s1.run ls = some s2) (hn : 8 ≤ ls.countP QLabel.isProducer) :
    s.results.length < s2.results.length := by
  unfold QSys.step at e1
  simp only at e1
  split at e1 <;> cases e1
  exact push_ranked (s := { s with p := .free1 a }) (by simp) e2 hn

/-- **C51.** and whatever the pushing thread does or does not do, `Service` returns after at most 805 of its own steps. -/
theorem C51_service_never_waits {s s1 s2 : QSys α} (h : QReachable s) (e1 : s.step .service = some s1)
    {ls : List (QLabel α)} (e2 : s1.run ls = some s2) (hn : 805 ≤ ls.countP QLabel.isConsumer) :
    s.served < s2.served := by
  have hi : QInv s1 := qinv_step h.inv e1
  unfold QSys.step at e1
  simp only at e1
  split at e1 <;> cases e1
  exact service_ranked (s := { s with c := .ready1 }) hi (by simp) e2 hn

/-- Both threads can always take their next step (so the counts above can always be reached). -/
theorem C51_next_step_exists {s : QSys α} (h : QReachable s) :
    (s.p ≠ .idle → (s.step .producer).isSome) ∧ (s.c ≠ .idle → (s.step .consumer).isSome) := by
  refine ⟨fun hp => ?_, fun hc => ?_⟩
  · obtain ⟨_, e, _⟩ := pstep_rank hp
    show s.pstep.isSome = true
    rw [e]; rfl
  · obtain ⟨_, e, _⟩ := cstep_rank h.inv hc
    show s.cstep.isSome = true
    rw [e]; rfl

end Zones.Props
