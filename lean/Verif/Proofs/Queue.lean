import Verif.Model.Queue
import Mathlib.Tactic.Linarith

/-! Refinement of the ring buffer queue to a list. -/

open Zones.Model

namespace Zones.Proofs

theorem numReady_eq {R W : ℕ} (h : R ≤ W) (hl : W - R ≤ 399) :
    Fifo.numReady 400 ((R % 400 : ℕ) : ℤ) ((W % 400 : ℕ) : ℤ) = ((W - R : ℕ) : ℤ) := by
  unfold Fifo.numReady
  split <;> omega

theorem freeSpace_eq {R W : ℕ} (h : R ≤ W) (hl : W - R ≤ 399) :
    Fifo.freeSpace 400 ((R % 400 : ℕ) : ℤ) ((W % 400 : ℕ) : ℤ) = 399 - ((W - R : ℕ) : ℤ) := by
  unfold Fifo.freeSpace
  rw [numReady_eq h hl]
  omega

theorem advance_eq (P k : ℕ) (hk : k ≤ 400) :
    Fifo.advance 400 ((P % 400 : ℕ) : ℤ) (k : ℤ) = (((P + k) % 400 : ℕ) : ℤ) := by
  unfold Fifo.advance
  split <;> omega

theorem prepareToWrite_eq {R W : ℕ} (h : R ≤ W) (hl : W - R ≤ 398) :
    Fifo.prepareToWrite 400 ((R % 400 : ℕ) : ℤ) ((W % 400 : ℕ) : ℤ) 1 = ⟨((W % 400 : ℕ) : ℤ), 1, 0, 0⟩ := by
  have hfree : (if ((W % 400 : ℕ) : ℤ) ≥ ((R % 400 : ℕ) : ℤ) then (400 : ℤ) - (((W % 400 : ℕ) : ℤ) - ((R % 400 : ℕ) : ℤ))
      else ((R % 400 : ℕ) : ℤ) - ((W % 400 : ℕ) : ℤ)) = 400 - ((W - R : ℕ) : ℤ) := by
    split <;> omega
  have h1 : min (1 : ℤ) (400 - ((W - R : ℕ) : ℤ) - 1) = 1 := by omega
  have h2 : min ((400 : ℤ) - ((W % 400 : ℕ) : ℤ)) 1 = 1 := by omega
  simp only [Fifo.prepareToWrite, hfree, h1, h2]
  norm_num

theorem prepareToRead_eq {R W n : ℕ} (h : R ≤ W) (hl : W - R ≤ 399) (hn : n ≤ W - R) :
    (Fifo.prepareToRead 400 ((R % 400 : ℕ) : ℤ) ((W % 400 : ℕ) : ℤ) n).indices =
        (List.range n).map (fun i : ℕ => (((R + i) % 400 : ℕ) : ℤ)) ∧
      (Fifo.prepareToRead 400 ((R % 400 : ℕ) : ℤ) ((W % 400 : ℕ) : ℤ) n).b1 +
        (Fifo.prepareToRead 400 ((R % 400 : ℕ) : ℤ) ((W % 400 : ℕ) : ℤ) n).b2 = n := by
  have hmin : min (n : ℤ) ((W - R : ℕ) : ℤ) = n := by omega
  simp only [Fifo.prepareToRead, numReady_eq h hl, hmin]
  by_cases h0 : (n : ℤ) ≤ 0
  · have : n = 0 := by omega
    subst this
    simp [Blocks.indices]
  · rw [if_neg h0]
    by_cases hw : R % 400 + n ≤ 400
    · have e1 : min ((400 : ℤ) - ((R % 400 : ℕ) : ℤ)) (n : ℤ) = n := by omega
      simp only [e1, sub_self, le_refl, if_true, Blocks.indices, Int.toNat_natCast, Int.toNat_zero, List.range_zero,
        List.map_nil, List.append_nil, add_zero, and_true]
      refine List.map_congr_left fun i hi => ?_
      rw [List.mem_range] at hi
      omega
    · have e1 : min ((400 : ℤ) - ((R % 400 : ℕ) : ℤ)) (n : ℤ) = ((400 - R % 400 : ℕ) : ℤ) := by omega
      have e2 : min ((n : ℤ) - ((400 - R % 400 : ℕ) : ℤ)) ((W % 400 : ℕ) : ℤ) = ((n - (400 - R % 400) : ℕ) : ℤ) := by omega
      have e3 : ¬ ((n : ℤ) - ((400 - R % 400 : ℕ) : ℤ) ≤ 0) := by omega
      simp only [e1, e2, e3, if_false, Blocks.indices, Int.toNat_natCast]
      refine ⟨?_, by omega⟩
      apply List.ext_getElem
      · simp; omega
      · intro i h1 h2
        simp only [List.length_append, List.length_map, List.length_range] at h1 h2
        rw [List.getElem_append]
        split
        · rename_i hlt
          simp only [List.length_map, List.length_range] at hlt
          simp only [List.getElem_map, List.getElem_range]
          omega
        · rename_i hlt
          simp only [List.length_map, List.length_range] at hlt
          simp only [List.getElem_map, List.getElem_range, List.length_map, List.length_range]
          omega

variable {α : Type}

/-- The queue holds the list `l`: it has been read from `R` times. -/
structure Holds (q : Queue α) (R : ℕ) (l : List α) : Prop where
  size : q.fifo.size = 400
  vs : q.fifo.vs = ((R % 400 : ℕ) : ℤ)
  ve : q.fifo.ve = (((R + l.length) % 400 : ℕ) : ℤ)
  len : l.length ≤ 399
  slots : ∀ i, (hi : i < l.length) → q.storage (((R + i) % 400 : ℕ) : ℤ) = some l[i]

theorem holds_init : Holds (Queue.init : Queue α) 0 [] :=
  ⟨rfl, rfl, rfl, by simp, fun i hi => by simp at hi⟩

theorem holds_push {q : Queue α} {R : ℕ} {l : List α} (h : Holds q R l) (a : α) :
    (l.length = 399 ∧ q.push a = some (false, q)) ∨
      (l.length < 399 ∧ ∃ q', q.push a = some (true, q') ∧ Holds q' R (l ++ [a])) := by
  have hlen := h.len
  have hf := freeSpace_eq (R := R) (W := R + l.length) (by omega) (by omega)
  by_cases hfull : l.length = 399
  · left
    refine ⟨hfull, ?_⟩
    unfold Queue.push
    rw [h.size, h.vs, h.ve, hf, if_pos (by omega)]
  · right
    refine ⟨by omega, ⟨⟨400, q.fifo.vs, (((R + l.length + 1) % 400 : ℕ) : ℤ)⟩,
      Function.update q.storage (((R + l.length) % 400 : ℕ) : ℤ) (some a)⟩, ?_, ?_⟩
    · unfold Queue.push
      rw [h.size, h.vs, h.ve, hf, if_neg (by omega)]
      have hp := prepareToWrite_eq (R := R) (W := R + l.length) (by omega) (by omega)
      simp only [hp]
      have : (1 : ℤ) ≠ 0 := by norm_num
      have hr : Queue.InRange (((R + l.length) % 400 : ℕ) : ℤ) := by unfold Queue.InRange kMaxQueueSize; omega
      have ha : Fifo.advance 400 (((R + l.length) % 400 : ℕ) : ℤ) (1 + 0) = (((R + l.length + 1) % 400 : ℕ) : ℤ) :=
        advance_eq _ 1 (by norm_num)
      rw [if_pos this, if_pos hr, ha]
      have := h.vs
      have := h.size
      cases hq : q.fifo
      simp_all
    · refine ⟨rfl, h.vs, ?_, by simp; omega, fun i hi => ?_⟩
      · simp only [List.length_append, List.length_singleton]; rfl
      · simp only [List.length_append, List.length_singleton] at hi
        by_cases hl : i < l.length
        · show Function.update q.storage _ _ _ = _
          rw [Function.update_of_ne (by omega), h.slots i hl, List.getElem_append_left hl]
        · have : i = l.length := by omega
          subst this
          show Function.update q.storage _ _ _ = _
          rw [Function.update_self]
          simp

theorem visit_all (R : ℕ) (l : List α) : ∀ (k : ℕ) (st : ℤ → Option α) (acc : List (Option α)),
    k + l.length ≤ 400 → (∀ i, (hi : i < l.length) → st (((R + k + i) % 400 : ℕ) : ℤ) = some l[i]) →
    ∃ st', ((List.range l.length).map (fun i : ℕ => (((R + k + i) % 400 : ℕ) : ℤ))).foldlM Queue.visitOne (acc, st) =
      some (acc ++ l.map some, st') := by
  induction l with
  | nil => intro k st acc _ _; exact ⟨st, by simp⟩
  | cons a l ih =>
    intro k st acc hk hst
    simp only [List.length_cons] at hk
    have h0 := hst 0 (by simp)
    simp only [List.getElem_cons_zero, add_zero] at h0
    obtain ⟨st', e⟩ := ih (k+1) (Function.update st (((R + k) % 400 : ℕ) : ℤ) none) (acc ++ [some a]) (by omega)
      (fun i hi => by
        rw [Function.update_of_ne (by omega)]
        have := hst (i+1) (by simpa using hi)
        simp only [List.getElem_cons_succ] at this
        rw [← this]; congr 3; omega)
    refine ⟨st', ?_⟩
    rw [List.length_cons, List.range_succ_eq_map, List.map_cons, List.foldlM_cons]
    have hr : Queue.InRange (((R + k + 0) % 400 : ℕ) : ℤ) := by unfold Queue.InRange kMaxQueueSize; omega
    have : Queue.visitOne (acc, st) (((R + k + 0) % 400 : ℕ) : ℤ) =
        some (acc ++ [some a], Function.update st (((R + k) % 400 : ℕ) : ℤ) none) := by
      unfold Queue.visitOne
      rw [if_pos hr]
      simp only [add_zero, h0]
    rw [this]
    simp only [Option.bind_eq_bind, Option.bind_some, List.map_map, List.map_cons]
    have e' : (fun i : ℕ => (((R + (k + 1) + i) % 400 : ℕ) : ℤ)) = (fun i : ℕ => (((R + k + i) % 400 : ℕ) : ℤ)) ∘ Nat.succ := by
      funext i; simp only [Function.comp, Nat.succ_eq_add_one]; rw [show R + (k+1) + i = R + k + (i+1) by omega]
    rw [← e', e]
    simp

theorem holds_service {q : Queue α} {R : ℕ} {l : List α} (h : Holds q R l) :
    ∃ q', q.service = some (l.map some, q') ∧ Holds q' (R + l.length) [] := by
  have hlen := h.len
  have hn := numReady_eq (R := R) (W := R + l.length) (by omega) (by omega)
  rw [Nat.add_sub_cancel_left] at hn
  obtain ⟨p1, p2⟩ := prepareToRead_eq (R := R) (W := R + l.length) (n := l.length) (by omega) (by omega) (by omega)
  obtain ⟨st', e⟩ := visit_all R l 0 q.storage [] (by omega) (fun i hi => h.slots i hi)
  refine ⟨⟨⟨400, (((R + l.length) % 400 : ℕ) : ℤ), q.fifo.ve⟩, st'⟩, ?_, ?_⟩
  · unfold Queue.service
    simp only [h.size, h.vs, h.ve, hn, p1, p2]
    simp only [add_zero, List.nil_append] at e
    rw [e, advance_eq _ _ (by omega)]
    have := h.size
    cases hq : q.fifo
    simp_all
  · exact ⟨rfl, rfl, by simpa using h.ve, by simp, fun i hi => by simp at hi⟩

/-! ## Interleavings -/

/-- What the pushing thread knows. `R0` is how many commands had been released when the call began. -/
def PInv (s : QSys α) (R W : ℕ) : Prop :=
  match s.p with
  | .idle => True
  | .free1 _ => True
  | .free2 _ v => ∃ R', v = ((R' % 400 : ℕ) : ℤ) ∧ R' ≤ R ∧ W - R' ≤ 399
  | .prep1 _ => W - R ≤ 398
  | .prep2 _ v => ∃ R', v = ((R' % 400 : ℕ) : ℤ) ∧ R' ≤ R ∧ W - R' ≤ 398
  | .write _ w => w = ⟨((W % 400 : ℕ) : ℤ), 1, 0, 0⟩ ∧ W - R ≤ 398
  | .writing _ i b => i = ((W % 400 : ℕ) : ℤ) ∧ b = 1 ∧ W - R ≤ 398
  | .fin1 a b => b = 1 ∧ W - R ≤ 398 ∧ s.slots ((W % 400 : ℕ) : ℤ) = some a
  | .fin2 a v => v = (((W+1) % 400 : ℕ) : ℤ) ∧ W - R ≤ 398 ∧ s.slots ((W % 400 : ℕ) : ℤ) = some a

/-- What the servicing thread knows. -/
def CInvQ (s : QSys α) (R W : ℕ) : Prop :=
  match s.c with
  | .idle => s.visited.length = R
  | .ready1 => s.visited.length = R
  | .ready2 v => s.visited.length = R ∧ v = ((R % 400 : ℕ) : ℤ)
  | .prep1 n => s.visited.length = R ∧ ∃ k : ℕ, n = k ∧ R + k ≤ W
  | .prep2 n v => s.visited.length = R ∧ v = ((R % 400 : ℕ) : ℤ) ∧ ∃ k : ℕ, n = k ∧ R + k ≤ W
  | .loop is b => ∃ k m : ℕ, b = k ∧ R + k ≤ W ∧ s.visited.length + m = R + k ∧
      is = (List.range m).map (fun i : ℕ => (((s.visited.length + i) % 400 : ℕ) : ℤ))
  | .reading j is b => ∃ k m : ℕ, b = k ∧ R + k ≤ W ∧ s.visited.length + (m + 1) = R + k ∧
      j = ((s.visited.length % 400 : ℕ) : ℤ) ∧
      is = (List.range m).map (fun i : ℕ => (((s.visited.length + 1 + i) % 400 : ℕ) : ℤ))
  | .fin1 b => ∃ k : ℕ, b = k ∧ R + k ≤ W ∧ s.visited.length = R + k
  | .fin2 v => ∃ k : ℕ, v = (((R + k) % 400 : ℕ) : ℤ) ∧ R + k ≤ W ∧ s.visited.length = R + k

structure QInv (s : QSys α) : Prop where
  vs : s.vs = ((s.released % 400 : ℕ) : ℤ)
  ve : s.ve = ((s.accepted.length % 400 : ℕ) : ℤ)
  lo : s.released ≤ s.visited.length
  mid : s.visited.length ≤ s.accepted.length
  hi : s.accepted.length - s.released ≤ 399
  slots : ∀ j, s.visited.length ≤ j → (hj : j < s.accepted.length) →
    s.slots ((j % 400 : ℕ) : ℤ) = some s.accepted[j]
  visited : s.visited = (s.accepted.take s.visited.length).map some
  p : PInv s s.released s.accepted.length
  c : CInvQ s s.released s.accepted.length

theorem qinv_init : QInv (QSys.init : QSys α) :=
  ⟨rfl, rfl, le_refl _, le_refl _, by simp [QSys.init], fun j h hj => by simp [QSys.init] at hj, rfl, trivial, rfl⟩

theorem qinv_pstep {s s' : QSys α} (h : QInv s) (e : s.pstep = some s') : QInv s' := by
  obtain ⟨hvs, hve, hlo, hmid, hhi, hsl, hvis, hp, hc⟩ := h
  unfold QSys.pstep at e
  unfold PInv at hp
  cases hpc : s.p with
  | idle => rw [hpc] at e; cases e
  | free1 a =>
    rw [hpc] at e hp; cases e
    exact ⟨hvs, hve, hlo, hmid, hhi, hsl, hvis, ⟨s.released, hvs, le_refl _, hhi⟩, hc⟩
  | free2 a v =>
    rw [hpc] at e hp
    obtain ⟨R', hv, hR, hW⟩ := hp
    have hfs : Fifo.freeSpace kMaxQueueSize v s.ve = 399 - ((s.accepted.length - R' : ℕ) : ℤ) := by
      rw [hv, hve]; exact freeSpace_eq (by omega) hW
    simp only [hfs] at e
    split at e
    · cases e; exact ⟨hvs, hve, hlo, hmid, hhi, hsl, hvis, trivial, hc⟩
    · cases e; exact ⟨hvs, hve, hlo, hmid, hhi, hsl, hvis, by show s.accepted.length - s.released ≤ 398; omega, hc⟩
  | prep1 a =>
    rw [hpc] at e hp; cases e
    exact ⟨hvs, hve, hlo, hmid, hhi, hsl, hvis, ⟨s.released, hvs, le_refl _, hp⟩, hc⟩
  | prep2 a v =>
    rw [hpc] at e hp
    obtain ⟨R', hv, hR, hW⟩ := hp
    have hw : Fifo.prepareToWrite kMaxQueueSize v s.ve 1 = ⟨((s.accepted.length % 400 : ℕ) : ℤ), 1, 0, 0⟩ := by
      rw [hv, hve]; exact prepareToWrite_eq (by omega) hW
    simp only [hw] at e
    cases e
    refine ⟨hvs, hve, hlo, hmid, hhi, hsl, hvis, ⟨rfl, ?_⟩, hc⟩
    show s.accepted.length - s.released ≤ 398
    omega
  | write a w =>
    rw [hpc] at e hp
    obtain ⟨hw, hW⟩ := hp
    subst hw
    simp only [ne_eq, one_ne_zero, not_false_eq_true, if_true] at e
    cases e
    exact ⟨hvs, hve, hlo, hmid, hhi, hsl, hvis, ⟨rfl, by norm_num, hW⟩, hc⟩
  | writing a i b =>
    rw [hpc] at e hp
    obtain ⟨hi, hb, hW⟩ := hp
    cases e
    refine ⟨hvs, hve, hlo, hmid, hhi, fun j h1 h2 => ?_, hvis, ⟨hb, hW, ?_⟩, hc⟩
    · show Function.update s.slots i (some a) _ = _
      have h2' : j < s.accepted.length := h2
      have h1' : s.visited.length ≤ j := h1
      rw [hi, Function.update_of_ne (by omega)]
      exact hsl j h1 h2
    · show Function.update s.slots i (some a) _ = _
      rw [hi, Function.update_self]
  | fin1 a b =>
    rw [hpc] at e hp
    obtain ⟨hb, hW, hs⟩ := hp
    cases e
    refine ⟨hvs, hve, hlo, hmid, hhi, hsl, hvis, ⟨?_, hW, hs⟩, hc⟩
    rw [hve, hb]
    exact advance_eq _ 1 (by norm_num)
  | fin2 a v =>
    rw [hpc] at e hp
    obtain ⟨hv, hW, hs⟩ := hp
    cases e
    refine ⟨hvs, ?_, hlo, ?_, ?_, fun j h1 h2 => ?_, ?_, trivial, ?_⟩
    · show v = _
      rw [hv]; simp
    · show s.visited.length ≤ (s.accepted ++ [a]).length
      simp; omega
    · show (s.accepted ++ [a]).length - s.released ≤ 399
      simp; omega
    · show s.slots _ = some ((s.accepted ++ [a])[j])
      have h2' : j < (s.accepted ++ [a]).length := h2
      simp only [List.length_append, List.length_singleton] at h2'
      by_cases hj : j < s.accepted.length
      · rw [hsl j h1 hj, List.getElem_append_left hj]
      · have : j = s.accepted.length := by omega
        subst this
        rw [hs]; simp
    · show s.visited = ((s.accepted ++ [a]).take s.visited.length).map some
      rw [List.take_append_of_le_length hmid]
      exact hvis
    · unfold CInvQ at hc ⊢
      simp only [List.length_append, List.length_singleton]
      cases hcc : s.c with
      | idle => rw [hcc] at hc; exact hc
      | ready1 => rw [hcc] at hc; exact hc
      | ready2 v => rw [hcc] at hc; exact hc
      | prep1 n => rw [hcc] at hc; obtain ⟨a, k, b, c⟩ := hc; exact ⟨a, k, b, by omega⟩
      | prep2 n v => rw [hcc] at hc; obtain ⟨a, a', k, b, c⟩ := hc; exact ⟨a, a', k, b, by omega⟩
      | loop is b => rw [hcc] at hc; obtain ⟨k, m, a, b, c⟩ := hc; exact ⟨k, m, a, by omega, c⟩
      | reading i is b => rw [hcc] at hc; obtain ⟨k, m, a, b, c⟩ := hc; exact ⟨k, m, a, by omega, c⟩
      | fin1 b => rw [hcc] at hc; obtain ⟨k, a, b, c⟩ := hc; exact ⟨k, a, by omega, c⟩
      | fin2 v => rw [hcc] at hc; obtain ⟨k, a, b, c⟩ := hc; exact ⟨k, a, by omega, c⟩

theorem qinv_cstep {s s' : QSys α} (h : QInv s) (e : s.cstep = some s') : QInv s' := by
  obtain ⟨hvs, hve, hlo, hmid, hhi, hsl, hvis, hp, hc⟩ := h
  unfold QSys.cstep at e
  unfold CInvQ at hc
  cases hcc : s.c with
  | idle => rw [hcc] at e; cases e
  | ready1 =>
    rw [hcc] at e hc; cases e
    exact ⟨hvs, hve, hlo, hmid, hhi, hsl, hvis, hp, ⟨hc, hvs⟩⟩
  | ready2 v =>
    rw [hcc] at e hc; cases e
    refine ⟨hvs, hve, hlo, hmid, hhi, hsl, hvis, hp, ⟨hc.1, s.accepted.length - s.released, ?_, ?_⟩⟩
    · rw [hc.2, hve]; exact numReady_eq (by omega) hhi
    · show s.released + (s.accepted.length - s.released) ≤ s.accepted.length
      omega
  | prep1 n =>
    rw [hcc] at e hc; cases e
    exact ⟨hvs, hve, hlo, hmid, hhi, hsl, hvis, hp, ⟨hc.1, hvs, hc.2⟩⟩
  | prep2 n v =>
    rw [hcc] at e hc
    obtain ⟨hV, hv, k, hn, hk⟩ := hc
    obtain ⟨p1, p2⟩ := prepareToRead_eq (R := s.released) (W := s.accepted.length) (n := k) (by omega) hhi (by omega)
    have q1 : (Fifo.prepareToRead kMaxQueueSize v s.ve n).indices =
        (List.range k).map (fun i : ℕ => (((s.visited.length + i) % 400 : ℕ) : ℤ)) := by
      rw [hv, hve, hn, hV]; exact p1
    have q2 : (Fifo.prepareToRead kMaxQueueSize v s.ve n).b1 + (Fifo.prepareToRead kMaxQueueSize v s.ve n).b2 = k := by
      rw [hv, hve, hn]; exact p2
    simp only [q1, q2] at e
    cases e
    exact ⟨hvs, hve, hlo, hmid, hhi, hsl, hvis, hp, ⟨k, k, rfl, hk, congrArg (· + k) hV, rfl⟩⟩
  | loop is b =>
    rw [hcc] at hc
    obtain ⟨k, m, hb, hk, hm, his⟩ := hc
    cases is with
    | nil =>
      rw [hcc] at e; cases e
      have : m = 0 := by
        have := congrArg List.length his
        simpa using this.symm
      subst this
      exact ⟨hvs, hve, hlo, hmid, hhi, hsl, hvis, hp, ⟨k, hb, hk, hm⟩⟩
    | cons i is =>
      rw [hcc] at e; cases e
      cases m with
      | zero => simp at his
      | succ m =>
        rw [List.range_succ_eq_map, List.map_cons, List.map_map] at his
        injection his with h1 h2
        refine ⟨hvs, hve, hlo, hmid, hhi, hsl, hvis, hp, ⟨k, m, hb, hk, hm, h1, ?_⟩⟩
        rw [h2]
        refine List.map_congr_left fun i _ => ?_
        simp only [Function.comp, Nat.succ_eq_add_one]
        rw [show s.visited.length + 1 + i = s.visited.length + (i + 1) by omega]
  | reading i is b =>
    rw [hcc] at e hc
    obtain ⟨k, m, hb, hk, hm, hi, his⟩ := hc
    have hlt : s.visited.length < s.accepted.length := by omega
    have hslot := hsl _ (le_refl _) hlt
    rw [← hi] at hslot
    cases e
    refine ⟨hvs, hve, ?_, ?_, hhi, fun j h1 h2 => ?_, ?_, ?_, ⟨k, m, hb, hk, ?_, ?_⟩⟩
    · show s.released ≤ (s.visited ++ [s.slots i]).length
      simp; omega
    · show (s.visited ++ [s.slots i]).length ≤ s.accepted.length
      simp; omega
    · show Function.update s.slots i none _ = _
      have h1' : (s.visited ++ [s.slots i]).length ≤ j := h1
      have h2' : j < s.accepted.length := h2
      simp only [List.length_append, List.length_singleton] at h1'
      rw [Function.update_of_ne (by omega)]
      exact hsl j (by omega) h2
    · show s.visited ++ [s.slots i] = (s.accepted.take (s.visited ++ [s.slots i]).length).map some
      rw [List.length_append, List.length_singleton, List.take_succ_eq_append_getElem hlt, List.map_append, ← hvis, hslot]
      rfl
    · unfold PInv at hp ⊢
      cases hpc : s.p with
      | idle => trivial
      | free1 a => trivial
      | free2 a v => rw [hpc] at hp; exact hp
      | prep1 a => rw [hpc] at hp; exact hp
      | prep2 a v => rw [hpc] at hp; exact hp
      | write a w => rw [hpc] at hp; exact hp
      | writing a i b => rw [hpc] at hp; exact hp
      | fin1 a b =>
        rw [hpc] at hp
        refine ⟨hp.1, hp.2.1, ?_⟩
        show Function.update s.slots i none ((s.accepted.length % 400 : ℕ) : ℤ) = _
        rw [Function.update_of_ne (by omega)]
        exact hp.2.2
      | fin2 a v =>
        rw [hpc] at hp
        refine ⟨hp.1, hp.2.1, ?_⟩
        show Function.update s.slots i none ((s.accepted.length % 400 : ℕ) : ℤ) = _
        rw [Function.update_of_ne (by omega)]
        exact hp.2.2
    · show (s.visited ++ [s.slots i]).length + m = _
      simp; omega
    · show is = _
      rw [his]
      show _ = (List.range m).map (fun j : ℕ => ((((s.visited ++ [s.slots i]).length + j) % 400 : ℕ) : ℤ))
      rw [List.length_append, List.length_singleton]
  | fin1 b =>
    rw [hcc] at e hc
    obtain ⟨k, hb, hk, hV⟩ := hc
    cases e
    refine ⟨hvs, hve, hlo, hmid, hhi, hsl, hvis, hp, ⟨k, ?_, hk, hV⟩⟩
    rw [hvs, hb]
    exact advance_eq _ k (by omega)
  | fin2 v =>
    rw [hcc] at e hc
    obtain ⟨k, hv, hk, hV⟩ := hc
    cases e
    refine ⟨?_, hve, le_refl _, hmid, ?_, hsl, hvis, ?_, rfl⟩
    · show v = _
      rw [hv, hV]
    · show s.accepted.length - s.visited.length ≤ 399
      omega
    · unfold PInv at hp ⊢
      cases hpc : s.p with
      | idle => trivial
      | free1 a => trivial
      | free2 a v => rw [hpc] at hp; obtain ⟨R', a, b, c⟩ := hp; exact ⟨R', a, by dsimp only; omega, c⟩
      | prep1 a => rw [hpc] at hp; show s.accepted.length - s.visited.length ≤ 398; simp only at hp; omega
      | prep2 a v => rw [hpc] at hp; obtain ⟨R', a, b, c⟩ := hp; exact ⟨R', a, by dsimp only; omega, c⟩
      | write a w => rw [hpc] at hp; exact ⟨hp.1, by dsimp only; omega⟩
      | writing a i b => rw [hpc] at hp; exact ⟨hp.1, hp.2.1, by dsimp only; omega⟩
      | fin1 a b => rw [hpc] at hp; exact ⟨hp.1, by dsimp only; omega, hp.2.2⟩
      | fin2 a v => rw [hpc] at hp; exact ⟨hp.1, by dsimp only; omega, hp.2.2⟩

theorem qinv_step {s s' : QSys α} {l : QLabel α} (h : QInv s) (e : s.step l = some s') : QInv s' := by
  cases l with
  | push a =>
    unfold QSys.step at e
    simp only at e
    split at e
    · cases e
      exact ⟨h.vs, h.ve, h.lo, h.mid, h.hi, h.slots, h.visited, trivial, h.c⟩
    · cases e
  | producer => exact qinv_pstep h e
  | service =>
    unfold QSys.step at e
    simp only at e
    split at e
    · rename_i hc
      cases e
      refine ⟨h.vs, h.ve, h.lo, h.mid, h.hi, h.slots, h.visited, h.p, ?_⟩
      have := h.c
      unfold CInvQ at this
      rw [hc] at this
      exact this
    · cases e
  | consumer => exact qinv_cstep h e

theorem qinv_run {s s' : QSys α} {ls : List (QLabel α)} (h : QInv s) (e : s.run ls = some s') : QInv s' := by
  induction ls generalizing s with
  | nil => cases e; exact h
  | cons l ls ih =>
    unfold QSys.run at e
    rw [Option.bind_eq_some_iff] at e
    obtain ⟨t, e1, e2⟩ := e
    exact ih (qinv_step h e1) e2

end Zones.Proofs
