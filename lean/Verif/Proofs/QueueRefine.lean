import Verif.Proofs.Queue
import Verif.Spec.AtomicQueue

/-! The single loads and stores of `Model/Queue.lean` refine the atomic queue (used by `Model/EngineSys.lean`). -/

open Zones.Model Zones.Spec

namespace Zones.Proofs
variable {α : Type}

/-- The refusal a push is bound to return: it has loaded `validStart` and found the queue full. -/
def owed (s : QSys α) : List Bool := match s.p with
  | .free2 _ vs => if Fifo.freeSpace kMaxQueueSize vs s.ve = 0 then [false] else []
  | _ => []

/-- Commands the current service has left. -/
def leftOf : CPc → Option ℕ
  | .idle => none
  | .ready1 => none
  | .ready2 _ => none
  | .prep1 n => some n.toNat
  | .prep2 n _ => some n.toNat
  | .loop is _ => some is.length
  | .reading _ is _ => some (is.length + 1)
  | .fin1 _ => some 0
  | .fin2 _ => some 0

/-- The atomic queue a state of the threads stands for. -/
def abstractQueue (s : QSys α) : AtomicQueue α where
  waiting := s.accepted.drop s.visited.length
  taken := s.visited.length - s.released
  left := leftOf s.c
  visited := s.accepted.take s.visited.length
  answers := s.results ++ owed s

theorem refine_pstep {s s' : QSys α} (h : QInv s) (e : s.pstep = some s') :
    abstractQueue s' = abstractQueue s ∨ AtomicQueue.Step 399 (abstractQueue s) (abstractQueue s') := by
  obtain ⟨hvs, hve, hlo, hmid, hhi, hsl, hvis, hp, hc⟩ := h
  unfold QSys.pstep at e
  unfold PInv at hp
  cases hpc : s.p with
  | idle => rw [hpc] at e; cases e
  | free1 a =>
    rw [hpc] at e hp; cases e
    by_cases hf : Fifo.freeSpace kMaxQueueSize s.vs s.ve = 0
    · right
      have hfs : Fifo.freeSpace kMaxQueueSize s.vs s.ve = 399 - ((s.accepted.length - s.released : ℕ) : ℤ) := by
        rw [hvs, hve]; exact freeSpace_eq (by omega) hhi
      have := AtomicQueue.Step.refuse (cap := 399) (q := abstractQueue s) (by simp [abstractQueue]; omega)
      convert this using 1
      simp [abstractQueue, owed, hpc, hf]
    · left
      simp [abstractQueue, owed, hpc, hf]
  | free2 a v =>
    rw [hpc] at e hp
    by_cases hf : Fifo.freeSpace kMaxQueueSize v s.ve = 0
    · simp only [hf, if_true] at e
      cases e
      left
      simp [abstractQueue, owed, hpc, hf]
    · simp only [hf, if_false] at e
      cases e
      left
      simp [abstractQueue, owed, hpc, hf]
  | prep1 a => rw [hpc] at e hp; cases e; left; simp [abstractQueue, owed, hpc]
  | prep2 a v => rw [hpc] at e hp; cases e; left; simp [abstractQueue, owed, hpc]
  | write a w =>
    rw [hpc] at e hp
    left
    simp only at e
    split at e
    · cases e; simp [abstractQueue, owed, hpc]
    · split at e <;> (cases e; simp [abstractQueue, owed, hpc])
  | writing a i b => rw [hpc] at e hp; cases e; left; simp [abstractQueue, owed, hpc]
  | fin1 a b => rw [hpc] at e hp; cases e; left; simp [abstractQueue, owed, hpc]
  | fin2 a v =>
    rw [hpc] at e hp
    obtain ⟨hv, hW, hs⟩ := hp
    cases e
    right
    have := AtomicQueue.Step.accept (cap := 399) (q := abstractQueue s) a (by simp [abstractQueue]; omega)
    convert this using 1
    simp [abstractQueue, owed, hpc, List.drop_append_of_le_length hmid, List.take_append_of_le_length hmid]

theorem refine_cstep {s s' : QSys α} (h : QInv s) (e : s.cstep = some s') :
    abstractQueue s' = abstractQueue s ∨ AtomicQueue.Step 399 (abstractQueue s) (abstractQueue s') := by
  obtain ⟨hvs, hve, hlo, hmid, hhi, hsl, hvis, hp, hc⟩ := h
  unfold QSys.cstep at e
  unfold CInvQ at hc
  cases hcc : s.c with
  | idle => rw [hcc] at e; cases e
  | ready1 => rw [hcc] at e; cases e; left; simp [abstractQueue, owed, hcc, leftOf]
  | ready2 v =>
    rw [hcc] at e hc; cases e
    right
    have := AtomicQueue.Step.begin (cap := 399) (q := abstractQueue s) (by simp [abstractQueue, hcc, leftOf])
    convert this using 1
    have hn : Fifo.numReady kMaxQueueSize v s.ve = ((s.accepted.length - s.released : ℕ) : ℤ) := by
      rw [hc.2, hve]; exact numReady_eq (by omega) hhi
    simp [abstractQueue, owed, leftOf, hn, hc.1]
  | prep1 n => rw [hcc] at e; cases e; left; simp [abstractQueue, owed, hcc, leftOf]
  | prep2 n v =>
    rw [hcc] at e hc
    obtain ⟨hV, hv, k, hn, hk⟩ := hc
    obtain ⟨p1, p2⟩ := prepareToRead_eq (R := s.released) (W := s.accepted.length) (n := k) (by omega) hhi (by omega)
    have q1 : (Fifo.prepareToRead kMaxQueueSize v s.ve n).indices.length = k := by
      rw [hv, hve, hn]
      show (Fifo.prepareToRead 400 _ _ _).indices.length = k
      rw [p1]
      simp
    cases e
    left
    have hk' : n.toNat = k := by omega
    simp only [abstractQueue, owed, hcc, leftOf, q1, hk']
  | loop is b =>
    rw [hcc] at hc
    cases is with
    | nil => rw [hcc] at e; cases e; left; simp [abstractQueue, owed, hcc, leftOf]
    | cons i is => rw [hcc] at e; cases e; left; simp [abstractQueue, owed, hcc, leftOf]
  | reading i is b =>
    rw [hcc] at e hc
    obtain ⟨k, m, hb, hk, hm, hi, his⟩ := hc
    have hlt : s.visited.length < s.accepted.length := by omega
    cases e
    right
    have := AtomicQueue.Step.visit (cap := 399) (q := abstractQueue s) (a := s.accepted[s.visited.length])
      (rest := s.accepted.drop (s.visited.length + 1)) (n := is.length) (by simp [abstractQueue, hcc, leftOf])
      (by simp only [abstractQueue]; exact List.drop_eq_getElem_cons hlt)
    convert this using 1
    simp only [abstractQueue, owed, leftOf, List.length_append, List.length_singleton]
    congr 1
    · omega
    · exact List.take_succ_eq_append_getElem hlt
  | fin1 b => rw [hcc] at e; cases e; left; simp [abstractQueue, owed, hcc, leftOf]
  | fin2 v =>
    rw [hcc] at e
    cases e
    right
    have := AtomicQueue.Step.finish (cap := 399) (q := abstractQueue s) (by simp [abstractQueue, hcc, leftOf])
    convert this using 1
    simp [abstractQueue, owed, leftOf]

theorem refine_step {s s' : QSys α} {l : QLabel α} (h : QInv s) (e : s.step l = some s') :
    abstractQueue s' = abstractQueue s ∨ AtomicQueue.Step 399 (abstractQueue s) (abstractQueue s') := by
  cases l with
  | push a =>
    unfold QSys.step at e
    simp only at e
    split at e
    · rename_i hpc; cases e; left; simp [abstractQueue, owed, hpc]
    · cases e
  | producer => exact refine_pstep h e
  | service =>
    unfold QSys.step at e
    simp only at e
    split at e
    · rename_i hcc; cases e; left; simp [abstractQueue, owed, hcc, leftOf]
    · cases e
  | consumer => exact refine_cstep h e

theorem refine_run {s s' : QSys α} {ls : List (QLabel α)} (h : QInv s) (e : s.run ls = some s') :
    ∀ q, AtomicQueue.Steps 399 q (abstractQueue s) → AtomicQueue.Steps 399 q (abstractQueue s') := by
  induction ls generalizing s with
  | nil => cases e; exact fun q hq => hq
  | cons l ls ih =>
    unfold QSys.run at e
    rw [Option.bind_eq_some_iff] at e
    obtain ⟨t, e1, e2⟩ := e
    intro q hq
    refine ih (qinv_step h e1) e2 q ?_
    rcases refine_step h e1 with r | r
    · rw [r]; exact hq
    · exact .tail hq r

end Zones.Proofs
