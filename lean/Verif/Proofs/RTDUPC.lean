import Verif.Proofs.RFFT
import Verif.Proofs.TDUPC

/-! # `TimeDistributedUPC` in an arbitrary arithmetic: a bit exact closed form -/

open Finset Zones.Spec Zones.Model

namespace Zones.Proofs.R

variable [Arith]

/-- the products accumulated on `a`, in the order of the loop -/
noncomputable def macs (K : ℕ) (X H : ℕ → ℂ) (a : ℂ) : ℂ :=
  (List.range K).foldl (fun a i => Arith.add a (Arith.mul (X i) (H i))) a

theorem macs_succ (K : ℕ) (X H : ℕ → ℂ) (a : ℂ) :
    macs (K+1) X H a = Arith.add (macs K X H a) (Arith.mul (X K) (H K)) := by
  simp [macs, List.range_succ]

theorem macs_congr {K : ℕ} {X X' H H' : ℕ → ℂ} {a : ℂ} (hX : ∀ i < K, X i = X' i) (hH : ∀ i < K, H i = H' i) :
    macs K X H a = macs K X' H' a := by
  induction K with
  | zero => rfl
  | succ K ih =>
    rw [macs_succ, macs_succ, ih (fun i hi => hX i (by omega)) (fun i hi => hH i (by omega)), hX K (by omega),
      hH K (by omega)]

/-- the state `s` has the shape given by `c`, is in phase `ph` and its buffers hold `A B C F T` -/
structure Rep (c : Par) (ph : ℕ) (A B C : ℕ → ℂ) (F : ℕ → ℕ → ℂ) (T : ℕ → ℝ) (s : TDUPC) : Prop where
  partSize : s.partSize = c.P
  fftPoints : s.fftPoints = 2^c.n
  numPhases : s.numPhases = 2^c.p
  phase : s.phase = ph
  nd : s.nd = c.nd
  hnd : c.nd + 1 ≤ c.p
  hoff : c.off + 2^(c.nd+1) ≤ 2^c.p
  off : s.transformOffset = c.off
  K : s.numPartitions = c.K
  Kf : s.numFilters = c.K
  hK : 0 < c.K
  filt : ∀ i < c.K, (s.filters i).np = 2^c.n ∧ s.filterChannel < (s.filters i).ch ∧
    ∀ k < 2^c.n, (s.filters i).get s.filterChannel k = down c.n (c.H i) k
  fdlK : s.fdl.numBlocks = c.K
  fdlh : s.fdl.head < c.K
  fdl : ∀ i < c.K, (s.fdl.line i).ch = 1 ∧ (s.fdl.line i).np = 2^c.n
  sth : s.stages.head < 3
  st : ∀ i < 3, (s.stages.stages i).ch = 1 ∧ (s.stages.stages i).np = 2^c.n
  tch : s.tail.ch = 1
  tn : s.tail.n = c.P
  hA : ∀ i < 2^c.n, (s.stages.get 0).get 0 i = A i
  hB : ∀ i < 2^c.n, (s.stages.get 1).get 0 i = B i
  hC : ∀ i < 2^c.n, (s.stages.get 2).get 0 i = C i
  hF : ∀ i < c.K, ∀ k < 2^c.n, (s.fdl.line (s.fdl.idx i)).get 0 k = F i k
  hT : ∀ i < c.P, s.tail.data 0 i = T i

variable {c : Par} {ph : ℕ} {A B C : ℕ → ℂ} {F : ℕ → ℕ → ℂ} {T : ℕ → ℝ} {s : TDUPC}

theorem Rep.get_shape (h : Rep c ph A B C F T s) {j : ℕ} (hj : j < 3) :
    (s.stages.get j).ch = 1 ∧ (s.stages.get j).np = 2^c.n :=
  h.st _ (stages_idx_lt h.sth hj)

/-- writing stage `j` -/
theorem Rep.setStage (h : Rep c ph A B C F T s) {j : ℕ} (hj : j < 3) {b : CBuf} (hb : b.ch = 1 ∧ b.np = 2^c.n)
    {A' B' C' : ℕ → ℂ}
    (hA : ∀ i < 2^c.n, A' i = if j = 0 then b.get 0 i else A i)
    (hB : ∀ i < 2^c.n, B' i = if j = 1 then b.get 0 i else B i)
    (hC : ∀ i < 2^c.n, C' i = if j = 2 then b.get 0 i else C i) :
    Rep c ph A' B' C' F T { s with stages := s.stages.set j b } := by
  have key : ∀ k < 3, ((s.stages.set j b).get k) = if j = k then b else s.stages.get k := by
    intro k hk
    split
    · next e => subst e; exact stages_get_set_same _ _ _
    · next e => exact stages_get_set_ne h.sth hj hk (Ne.symm e) _
  refine { h with sth := h.sth, st := ?_, hA := ?_, hB := ?_, hC := ?_ }
  · intro i hi
    simp only [Stages.set]
    by_cases e : i = s.stages.idx j
    · subst e; rw [Function.update_self]; exact hb
    · rw [Function.update_of_ne e]; exact h.st i hi
  · intro i hi
    rw [hA i hi]; simp only [key 0 (by omega)]
    split
    · rfl
    · exact h.hA i hi
  · intro i hi
    rw [hB i hi]; simp only [key 1 (by omega)]
    split
    · rfl
    · exact h.hB i hi
  · intro i hi
    rw [hC i hi]; simp only [key 2 (by omega)]
    split
    · rfl
    · exact h.hC i hi

theorem Rep.pointer (h : Rep c ph A B C F T s) {j : ℕ} (hj : j < 3) :
    (s.stages.get j).pointer 0 = some ((s.stages.get j).get 0) := by
  unfold CBuf.pointer; rw [if_pos]; rw [(h.get_shape hj).1]; norm_num

theorem Rep.fill (h : Rep c ph A B C F T s) (hph : ph < 2^c.p) (inp : ℕ → ℝ) :
    ∃ s', s.fill (2^c.b) inp = some s' ∧
      Rep c ph (fun i => if ph * 2^c.b ≤ i ∧ i < (ph+1) * 2^c.b then ((inp (i - ph * 2^c.b) : ℝ) : ℂ) else A i)
        B C F T s' := by
  unfold TDUPC.fill
  have hphs := h.phase
  simp only [h.pointer (j := 0) (by omega), Option.bind_eq_bind, Option.bind_some,
    (h.get_shape (j := 0) (by omega)).2]
  have e1 : (ph + 1) * 2^c.b = ph * 2^c.b + 2^c.b := by ring
  have e2 : (ph + 1) * 2^c.b ≤ c.P := by
    simp only [Par.P]
    rw [pow_add, mul_comm]; exact Nat.mul_le_mul_left _ hph
  have e3 : (2:ℕ)^c.n = 2 * c.P := by simp only [Par.P, Par.n]; rw [pow_succ]; ring
  rw [if_pos (by rw [hphs]; omega)]
  obtain rfl := h.phase
  refine ⟨_, rfl, h.setStage (j := 0) (by norm_num) (b := CBuf.setChannel _ _ _) (h.get_shape (j := 0) (by omega)) ?_ ?_ ?_⟩
  · intro i hi
    rw [if_pos rfl, get_setChannel_same (by rw [(h.get_shape (j := 0) (by omega)).2]; exact hi), e1]
    split
    · rfl
    · exact (h.hA i hi).symm
  · intro i _; simp
  · intro i _; simp

theorem Rep.forward {x : ℕ → ℂ} (h : Rep c ph A B C F T s) (hph : ph < 2^c.p)
    (hx : ∀ i ≥ 2^(c.b+c.p), x i = 0) (hA : FwdSched c.b c.p c.nd x ph 0 A) :
    ∃ s' A', s.forwardR = some s' ∧ Rep c ph A' B C F T s' ∧ FwdSched c.b c.p c.nd x ph c.nd A' := by
  have hnp := (h.get_shape (j := 0) (by omega)).2
  have hA' : FwdSched c.b c.p c.nd x ph 0 ((s.stages.get 0).get 0) := fun i hi m hm hD => by
    rw [h.hA i hi]; exact hA i hi m hm hD
  obtain ⟨d', h1, h2, _⟩ := FwdSched_phase (sz := (s.stages.get 0).np) hx (by have := h.hnd; omega) hph
    hnp.ge hA'
  unfold TDUPC.forwardR
  obtain rfl := h.phase
  rw [← h.fftPoints, ← h.numPhases, ← h.nd] at h1
  simp only [h.pointer (j := 0) (by omega), Option.bind_eq_bind, Option.bind_some, h1]
  refine ⟨_, d', rfl, h.setStage (j := 0) (by norm_num) (b := CBuf.setChannel _ _ _) (h.get_shape (j := 0) (by omega)) ?_ ?_ ?_, h2⟩
  · intro i hi
    rw [if_pos rfl, get_setChannel_same (by rw [hnp]; exact hi)]
  · intro i _; simp
  · intro i _; simp

theorem Rep.inverse {G : ℕ → ℕ → ℂ} (h : Rep c ph A B C F T s) (hG : ∀ m < c.nd, G m = ilev (2^(c.b+c.p-m)) (G (m+1)))
    (hC : InvSched c.b c.p c.nd G ph c.nd C) :
    ∃ s' C', s.inverseR = some s' ∧ Rep c ph A B C' F T s' ∧ InvSched c.b c.p c.nd G (ph+1) c.nd C' := by
  have hnp := (h.get_shape (j := 2) (by omega)).2
  have hC' : InvSched c.b c.p c.nd G ph c.nd ((s.stages.get 2).get 0) := fun i hi m hm hD => by
    rw [h.hC i hi]; exact hC i hi m hm hD
  obtain ⟨d', h1, h2, _⟩ := InvSched_phase (hG := hG) (sz := (s.stages.get 2).np) (by have := h.hnd; omega)
    hnp.ge hC'
  unfold TDUPC.inverseR
  obtain rfl := h.phase
  rw [← h.fftPoints, ← h.numPhases, ← h.nd] at h1
  simp only [h.pointer (j := 2) (by omega), Option.bind_eq_bind, Option.bind_some, h1]
  refine ⟨_, d', rfl, h.setStage (j := 2) (by norm_num) (b := CBuf.setChannel _ _ _) (h.get_shape (j := 2) (by omega)) ?_ ?_ ?_, h2⟩
  · intro i _; simp
  · intro i _; simp
  · intro i hi
    rw [if_pos rfl, get_setChannel_same (by rw [hnp]; exact hi)]

theorem Rep.output (h : Rep c ph A B C F T s) (hph : ph < 2^c.p) :
    ∃ s', s.outputR (2^c.b) = some (s', fun i => Arith.addF ((s.stages.get 2).get 0 (ph * 2^c.b + i)).re
        (s.tail.data 0 (ph * 2^c.b + i))) ∧
      (∀ i < 2^c.b, Arith.addF ((s.stages.get 2).get 0 (ph * 2^c.b + i)).re (s.tail.data 0 (ph * 2^c.b + i)) =
        Arith.addF (C (ph * 2^c.b + i)).re (T (ph * 2^c.b + i))) ∧
      Rep c ((ph+1) % 2^c.p) A B C F
        (fun i => if ph * 2^c.b ≤ i ∧ i < (ph+1) * 2^c.b then (C (i + c.P)).re else T i) s' := by
  unfold TDUPC.outputR
  have hnp := (h.get_shape (j := 2) (by omega)).2
  have e1 : (ph + 1) * 2^c.b = ph * 2^c.b + 2^c.b := by ring
  have e2 : (ph + 1) * 2^c.b ≤ c.P := by
    simp only [Par.P]
    rw [pow_add, mul_comm]; exact Nat.mul_le_mul_left _ hph
  have e3 : (2:ℕ)^c.n = 2 * c.P := by simp only [Par.P, Par.n]; rw [pow_succ]; ring
  have e4 : 0 < 2^c.p := by positivity
  simp only [h.pointer (j := 2) (by omega), h.phase, Option.bind_eq_bind, Option.bind_some, h.numPhases,
    h.partSize, hnp]
  have f1 := h.tn
  have f2 := h.tch
  rw [if_pos (by refine ⟨?_, ?_, ?_, ?_⟩ <;> omega)]
  refine ⟨_, rfl, ?_, { h with tch := h.tch, tn := h.tn, hT := ?_, phase := rfl, partSize := rfl, numPhases := rfl }⟩
  · intro i hi
    rw [h.hC _ (by omega), h.hT _ (by omega)]
  · intro i hi
    simp only [true_and, e1]
    split
    · rw [h.hC _ (by omega)]
    · exact h.hT i hi

theorem Rep.begin_pos (h : Rep c ph A B C F T s) (hph : ph ≠ 0) : s.begin = some s := by
  unfold TDUPC.begin
  rw [if_neg (by rw [h.phase]; exact hph)]

theorem Rep.begin_zero (h : Rep c 0 A B C F T s) :
    ∃ s', s.begin = some s' ∧
      Rep c 0 (fun _ => 0) A B (fun i k => if i = 0 then 0 else F (i-1) k) T s' := by
  unfold TDUPC.begin
  rw [if_pos h.phase, fdl_getNext (by rw [h.fdlK]; exact h.hK) (by rw [h.fdlK]; exact h.fdlh)]
  have hK := h.hK
  have hKf := h.fdlK
  have hh := h.fdlh
  have hst : ∀ k < 3, s.stages.promote.get k = s.stages.get ((k + 2) % 3) := by
    intro k hk
    have := stages_promote_get h.sth (j := (k+2) % 3) (by omega)
    rw [← this]; congr 1; omega
  simp only [Option.bind_eq_bind, Option.bind_some, FDL.getOffset, hKf]
  rw [if_neg (by omega)]
  refine ⟨_, rfl, { h with sth := stages_promote_head, fdlK := rfl, st := ?_, fdlh := Nat.mod_lt _ hK, fdl := ?_, hA := ?_, hB := ?_, hC := ?_, hF := ?_ }⟩
  · intro i hi
    simp only [FDL.setOffset]
    by_cases e : i = FDL.idx { numBlocks := c.K, head := (s.fdl.head + c.K - 1) % c.K, line := s.fdl.line } 0
    · subst e; rw [Function.update_self]
      exact h.fdl _ (Nat.mod_lt _ hK)
    · rw [Function.update_of_ne e]; exact h.fdl i hi
  · intro i hi
    have hsh : (s.stages.promote.get 0).ch = 1 ∧ (s.stages.promote.get 0).np = 2^c.n := by
      rw [hst 0 (by omega)]; exact h.get_shape (by omega)
    simp only [Stages.set]
    by_cases e : i = s.stages.promote.idx 0
    · subst e; rw [Function.update_self]; exact hsh
    · rw [Function.update_of_ne e]; exact h.st i hi
  · intro i hi
    rw [stages_get_set_same]
    apply get_clear
    · rw [hst 0 (by omega), (h.get_shape (by omega)).1]; norm_num
    · rw [hst 0 (by omega), (h.get_shape (by omega)).2]; exact hi
  · intro i hi
    rw [stages_get_set_ne stages_promote_head (by omega) (by omega) (by omega), hst 1 (by omega)]
    exact h.hA i hi
  · intro i hi
    rw [stages_get_set_ne stages_promote_head (by omega) (by omega) (by omega), hst 2 (by omega)]
    exact h.hB i hi
  · intro i hi k hk
    have hmod : (s.fdl.head + c.K - 1) % c.K < c.K := Nat.mod_lt _ hK
    simp only [FDL.setOffset, FDL.idx, hKf]
    by_cases e : i = 0
    · subst e
      rw [Function.update_self, if_pos rfl]
      apply get_clear
      · rw [(h.fdl _ (Nat.mod_lt _ hK)).1]; norm_num
      · rw [(h.fdl _ (Nat.mod_lt _ hK)).2]; exact hk
    · rw [Function.update_of_ne, if_neg e]
      · obtain ⟨i, rfl⟩ : ∃ i', i = i' + 1 := ⟨i-1, by omega⟩
        rw [fdl_idx_shift hK, Nat.add_sub_cancel, ← h.hF i (by omega) k hk]
        simp only [FDL.idx, hKf]
      · intro hc
        exact e (fdl_idx_inj hmod hi hK hc)

theorem Rep.piece_le (h : Rep c ph A B C F T s) {sb : ℕ} (hs : sb < 2^c.nd) :
    sb * 2^c.M + 2^c.M ≤ 2^c.n := by
  have e : 2^c.nd * 2^c.M = 2^c.n := by
    rw [← pow_add]; congr 1
    have := h.hnd
    simp only [Par.M, Par.n]; omega
  rw [← e]
  calc sb * 2^c.M + 2^c.M = (sb+1) * 2^c.M := by ring
    _ ≤ _ := Nat.mul_le_mul_right _ hs

theorem Rep.subForward (h : Rep c ph A B C F T s) {sb : ℕ} (hs : sb < 2^c.nd) :
    ∃ s', s.subForwardR (sb * 2^c.M) (2^c.M) = some s' ∧
      Rep c ph A (fun i => if InBlk c.M sb i then 0 else B i) C
        (fun i k => if i = 0 ∧ InBlk c.M sb k then down c.M B k else F i k) T s' := by
  have hle := h.piece_le hs
  have hnp := (h.get_shape (j := 1) (by omega)).2
  have hK := h.hK
  have hidx : s.fdl.idx 0 < c.K := by unfold FDL.idx; rw [h.fdlK]; exact Nat.mod_lt _ hK
  have hf := h.fdl _ hidx
  unfold TDUPC.subForwardR
  simp only [h.pointer (j := 1) (by omega), Option.bind_eq_bind, Option.bind_some,
    forwardFFT_eq (M := c.M) (s := sb) (sz := (s.stages.get 1).np) (by rw [hnp]; exact hle),
    FDL.getOffset, h.fdlK]
  rw [if_neg (by omega)]
  simp only [Option.bind_some, CBuf.pointer, hf.1, zero_lt_one, if_true]
  rw [if_pos (by rw [hf.2, hnp]; exact ⟨hle, hle⟩)]
  have hst := h.setStage (j := 1) (by omega)
    (b := (s.stages.get 1).setChannel 0 fun i =>
      if sb * 2^c.M ≤ i ∧ i < sb * 2^c.M + 2^c.M then 0
      else onSet (InBlk c.M sb) (down c.M) ((s.stages.get 1).get 0) i)
    (h.get_shape (j := 1) (by omega))
    (A' := A) (B' := fun i => if InBlk c.M sb i then 0 else B i) (C' := C) (by intro i _; simp)
    (by
      intro i hi
      rw [if_pos rfl, get_setChannel_same (by rw [hnp]; exact hi)]
      by_cases hin : InBlk c.M sb i
      · rw [if_pos hin]; exact (if_pos hin).symm
      · rw [if_neg hin]; refine ((if_neg hin).trans ?_).symm
        rw [onSet, if_neg hin, h.hB i hi])
    (by intro i _; simp)
  refine ⟨_, rfl, { hst with fdlK := h.fdlK, fdlh := h.fdlh, fdl := ?_, hF := ?_ }⟩
  · intro i hi
    simp only [FDL.setOffset]
    by_cases e : i = s.fdl.idx 0
    · subst e; rw [Function.update_self]; exact hf
    · rw [Function.update_of_ne e]; exact h.fdl i hi
  · intro i hi k hk
    have hi' : (FDL.setOffset s.fdl 0 ((s.fdl.line (s.fdl.idx 0)).setChannel 0 fun i =>
      if sb * 2^c.M ≤ i ∧ i < sb * 2^c.M + 2^c.M then
        onSet (InBlk c.M sb) (down c.M) ((s.stages.get 1).get 0) i
      else (s.fdl.line (s.fdl.idx 0)).get 0 i)).idx i = s.fdl.idx i := rfl
    simp only [hi']
    simp only [FDL.setOffset]
    by_cases e : i = 0
    · subst e
      rw [Function.update_self, get_setChannel_same (by rw [hf.2]; exact hk)]
      simp only [true_and, InBlk]
      split
      · next hin =>
        rw [onSet, if_pos (by exact hin)]
        refine down_congrOn (S := InBlk c.M sb) (fun a ha => closed_InBlk ha) (fun j hj => ?_) k hin
        exact h.hB j (lt_of_lt_of_le hj.2 hle)
      · exact h.hF 0 hi k hk
    · rw [Function.update_of_ne]
      · simp only [e, false_and, if_false]
        exact h.hF i hi k hk
      · intro hc
        apply e
        unfold FDL.idx at hc
        rw [h.fdlK] at hc
        exact fdl_idx_inj h.fdlh hi hK hc

theorem Rep.accumulate (h : Rep c ph A B C F T s) {o hf : ℕ} (hle : o + hf ≤ 2^c.n) :
    ∃ s', s.accumulateR o hf = some s' ∧
      Rep c ph A (fun j => if o ≤ j ∧ j < o + hf then
        macs c.K (fun i => F i j) (fun i => down c.n (c.H i) j) (B j) else B j) C F T s' := by
  have hnp := (h.get_shape (j := 1) (by omega)).2
  have hK := h.hK
  have main : ∀ k ≤ c.K, ∀ d : ℕ → ℂ, ∃ d', (List.range k).foldlM (s.accumulateOneR o hf) d = some d' ∧
      ∀ j, d' j = if o ≤ j ∧ j < o + hf then macs k (fun i => F i j) (fun i => down c.n (c.H i) j) (d j) else d j := by
    intro k hk d
    induction k with
    | zero => exact ⟨d, rfl, fun j => by simp [macs]⟩
    | succ k ih =>
      obtain ⟨d', h1, h2⟩ := ih (by omega)
      rw [List.range_succ, List.foldlM_append, h1]
      simp only [Option.bind_eq_bind, Option.bind_some, List.foldlM_cons, List.foldlM_nil]
      have hidx : s.fdl.idx k < c.K := by unfold FDL.idx; rw [h.fdlK]; exact Nat.mod_lt _ hK
      have hfd := h.fdl _ hidx
      have hfl := h.filt k (by omega)
      unfold TDUPC.accumulateOneR
      simp only [FDL.getOffset, h.fdlK, Option.bind_eq_bind]
      rw [if_neg (by omega)]
      simp only [Option.bind_some, CBuf.pointer, hfd.1, zero_lt_one, if_true, h.Kf]
      rw [if_pos (by omega : k < c.K)]
      simp only [hfl.2.1, if_true, Option.bind_some]
      rw [if_pos (by rw [hfd.2, hfl.1, hnp]; exact ⟨hle, hle, hle⟩)]
      refine ⟨_, rfl, fun j => ?_⟩
      simp only [h2]
      split
      · next hj =>
        rw [macs_succ, h.hF k (by omega) j (by omega), hfl.2.2 j (by omega)]
      · rfl
  obtain ⟨d', h1, h2⟩ := main c.K le_rfl ((s.stages.get 1).get 0)
  unfold TDUPC.accumulateR
  rw [← h.K] at h1
  simp only [h.pointer (j := 1) (by omega), Option.bind_eq_bind, Option.bind_some, h1]
  refine ⟨_, rfl, h.setStage (j := 1) (by norm_num) (b := CBuf.setChannel _ _ _) (h.get_shape (j := 1) (by omega)) ?_ ?_ ?_⟩
  · intro i _; simp
  · intro i hi
    rw [if_pos rfl, get_setChannel_same (by rw [hnp]; exact hi), h2, h.hB i hi]
  · intro i _; simp

theorem Rep.subInverse (h : Rep c ph A B C F T s) {sb : ℕ} (hs : sb < 2^c.nd) {w : ℕ} (hw : w = 2*sb+1) :
    ∃ s', s.subInverseR w (2^c.M) = some s' ∧
      Rep c ph A (fun j => if InBlk c.M sb j then up c.M B j else B j) C F T s' := by
  have hle := h.piece_le hs
  have hnp := (h.get_shape (j := 1) (by omega)).2
  unfold TDUPC.subInverseR
  have e : (w - 1) / 2 = sb := by omega
  simp only [h.pointer (j := 1) (by omega), Option.bind_eq_bind, Option.bind_some, e,
    inverseFFT_eq (M := c.M) (s := sb) (sz := (s.stages.get 1).np) (by rw [hnp]; exact hle)]
  refine ⟨_, rfl, h.setStage (j := 1) (by norm_num) (b := CBuf.setChannel _ _ _) (h.get_shape (j := 1) (by omega)) ?_ ?_ ?_⟩
  · intro i _; simp
  · intro i hi
    rw [if_pos rfl, get_setChannel_same (by rw [hnp]; exact hi), onSet]
    split
    · next hin =>
      refine (up_congrOn (S := InBlk c.M sb) (fun a ha => closed_InBlk ha) (fun j hj => ?_) i hin).symm
      exact h.hB j (lt_of_lt_of_le hj.2 hle)
    · exact (h.hB i hi).symm
  · intro i _; simp

theorem Fl_congr_mod {n m : ℕ} (hm : m ≤ n) {x x' : ℕ → ℂ} (i : ℕ)
    (h : ∀ j, j % 2^(n-m) = i % 2^(n-m) → x j = x' j) : Fl n m x i = Fl n m x' i := by
  induction m generalizing i with
  | zero => exact h i rfl
  | succ m ih =>
    simp only [Fl]
    have hh : 0 < 2^(n-1-m) := by positivity
    refine lev_congrOn (S := fun j => j % 2^(n-1-m) = i % 2^(n-1-m)) ?_ ?_ i rfl
    · intro y hy
      have := low_mod_h hh y
      exact ⟨this.1.trans hy, this.2.trans hy⟩
    · intro y hy
      refine ih (by omega) y (fun j hj => h j ?_)
      have e : n - (m+1) = n - 1 - m := by omega
      rw [e, ← hy]
      have e2 : 2^(n-m) = 2^(n-1-m) * 2 := by rw [← pow_succ]; congr 1; omega
      rw [e2] at hj
      rw [← Nat.mod_mul_right_mod j _ 2, hj, Nat.mod_mul_right_mod]

theorem FwdSched_congr {b p nd ph : ℕ} {x x' d : ℕ → ℂ} (hnd : nd ≤ p + 1)
    (hx : ∀ i ≥ 2^(b+p), x i = 0) (hx' : ∀ i ≥ 2^(b+p), x' i = 0)
    (hxx : ∀ i < (ph+1) * 2^b, x i = x' i)
    (h : FwdSched b p nd x ph nd d) : FwdSched b p nd x' ph nd d := by
  intro i hi m hm hD
  rw [h i hi m hm hD]
  by_cases hm0 : m = 0
  · rw [if_pos hm0, if_pos hm0]
    unfold arrived
    split
    · next hlt => exact hxx i hlt
    · rfl
  · rw [if_neg hm0, if_neg hm0]
    have hdone := (hD (m-1) (by omega)).mpr (by omega)
    have hle : fwdT b p (m-1) i ≤ ph := by unfold FwdDone at hdone; omega
    unfold fwdT tau at hle
    have e1 : b + p - (m-1) = b + p + 1 - m := by omega
    have e2 : p - (m - 1) = p + 1 - m := by omega
    rw [e1, e2] at hle
    refine Fl_congr_mod (by omega) i (fun j hj => ?_)
    by_cases hj2 : 2^(b+p) ≤ j
    · rw [hx j hj2, hx' j hj2]
    · apply hxx
      have hD : 2^(b+p+1-m) = 2^(p+1-m) * 2^b := by rw [← pow_add]; congr 1; omega
      have hP : 2^(b+p) = 2^(m-1) * 2^(b+p+1-m) := by rw [← pow_add]; congr 1; omega
      have hP2 : 2^(b+p) = 2^p * 2^b := by rw [← pow_add]; congr 1; omega
      have hle2 : 2^(p+1-m) ≤ 2^p := Nat.pow_le_pow_right (by norm_num) (by omega)
      have hdiv : j / 2^(b+p+1-m) < 2^(m-1) := by
        rw [Nat.div_lt_iff_lt_mul (by positivity), ← hP]; omega
      have hj3 := Nat.div_add_mod j (2^(b+p+1-m))
      rw [hj] at hj3
      have h5 : 2^(b+p+1-m) * (j / 2^(b+p+1-m)) + 2^(b+p+1-m) ≤ 2^(b+p) := by
        calc _ = 2^(b+p+1-m) * (j / 2^(b+p+1-m) + 1) := by ring
          _ ≤ 2^(b+p+1-m) * 2^(m-1) := Nat.mul_le_mul_left _ hdiv
          _ = 2^(b+p) := by rw [hP]; ring
      have h6 : i % 2^(b+p+1-m) < (ph + 1 - (2^p - 2^(p+1-m))) * 2^b := by
        rw [← Nat.div_lt_iff_lt_mul (by positivity)]; omega
      have h7 : (ph + 1 - (2^p - 2^(p+1-m))) * 2^b = (ph+1) * 2^b - (2^p * 2^b - 2^(p+1-m) * 2^b) := by
        rw [Nat.sub_mul, Nat.sub_mul]
      rw [h7, ← hP2, ← hD] at h6
      omega

/-- operations on zeros give zero -/
class ZeroLaws : Prop where
  addF : Arith.addF 0 0 = 0
  add : Arith.add 0 0 = 0
  sub : Arith.sub 0 0 = 0
  mul : ∀ z, Arith.mul 0 z = 0
  half : Arith.half 0 = 0

/-- the operations on zeros that occur in the transforms give zero -/
class ZeroBase : Prop where
  addF : Arith.addF 0 0 = 0
  add : Arith.add 0 0 = 0
  sub : Arith.sub 0 0 = 0
  mulF : ∀ n e, Arith.mul 0 (Arith.twF n e) = 0
  mulI : ∀ n e, Arith.mul 0 (Arith.twI n e) = 0
  half : Arith.half 0 = 0

instance ZeroLaws.toBase [ZeroLaws] : ZeroBase :=
  ⟨ZeroLaws.addF, ZeroLaws.add, ZeroLaws.sub, fun _ _ => ZeroLaws.mul _, fun _ _ => ZeroLaws.mul _, ZeroLaws.half⟩

theorem lev_zero [ZeroBase] {h : ℕ} : lev h (fun _ => 0) = fun _ => 0 := by
  funext i; unfold lev; split <;> simp [ZeroBase.add, ZeroBase.sub, ZeroBase.mulF]

theorem ilev_zero [ZeroBase] {h : ℕ} : ilev h (fun _ => 0) = fun _ => 0 := by
  funext i; unfold ilev; split <;> simp [ZeroBase.add, ZeroBase.sub, ZeroBase.mulI, ZeroBase.half]

theorem down_zero [ZeroBase] (n : ℕ) : down n (fun _ => 0) = fun _ => 0 := by
  induction n with
  | zero => rfl
  | succ n ih => simp only [down, lev_zero, ih]

theorem up_zero [ZeroBase] (n : ℕ) : up n (fun _ => 0) = fun _ => 0 := by
  induction n with
  | zero => rfl
  | succ n ih => simp only [up, ih, ilev_zero]

theorem Fl_zero [ZeroBase] (n l : ℕ) : Fl n l (fun _ => 0) = fun _ => 0 := by
  induction l with
  | zero => rfl
  | succ l ih => simp only [Fl, ih, lev_zero]

theorem FwdSched_zero [ZeroBase] {b p nd ph l : ℕ} {d : ℕ → ℂ} (h : ∀ i < 2^(b+p+1), d i = 0) :
    FwdSched b p nd (fun _ => 0) ph l d := by
  intro i hi m hm hD
  rw [h i hi, Fl_zero]
  unfold arrived
  split <;> simp

/-! ## Windows -/

/-- the accumulated products of window `W` -/
noncomputable def yw (c : Par) (x : ℕ → ℝ) (W k : ℕ) : ℂ :=
  macs c.K (fun i => down c.n (xw c.P x (W - i)) k) (fun i => down c.n (c.H i) k) 0

/-- the window's result with the levels from `m` on undone -/
noncomputable def gw (c : Par) (x : ℕ → ℝ) (W m : ℕ) : ℕ → ℂ := up (c.n - m) (yw c x W)

/-- the result of window `W` -/
noncomputable def zw (c : Par) (x : ℕ → ℝ) (W : ℕ) : ℕ → ℂ := up c.n (yw c x W)

theorem gw_step (c : Par) (x : ℕ → ℝ) (W m : ℕ) (hm : m ≤ c.b + c.p) :
    gw c x W m = ilev (2^(c.b+c.p-m)) (gw c x W (m+1)) := by
  unfold gw
  have e : c.n - m = (c.n - (m+1)) + 1 := by simp only [Par.n]; omega
  rw [e, up]
  congr 2
  simp only [Par.n]; omega

/-- stage B and the newest block of the delay line after `w` working phases -/
def BProg (c : Par) (x : ℕ → ℝ) (W w : ℕ) (B F0 : ℕ → ℂ) : Prop :=
  ∀ sb < 2^c.nd, ∀ k, InBlk c.M sb k →
    (w ≤ 2*sb → B k = Fl c.n c.nd (xw c.P x (W-1)) k) ∧
    (2*sb < w → F0 k = down c.n (xw c.P x (W-1)) k) ∧
    (w = 2*sb+1 → B k = if k < sb * 2^c.M + 2^(c.M-1) then yw c x (W-1) k else 0) ∧
    (2*sb+1 < w → B k = gw c x (W-1) c.nd k)

variable {x : ℕ → ℝ} {W : ℕ}

theorem Rep.transform (h : Rep c ph A B C F T s)
    (hB : BProg c x W (ph - c.off) B (F 0))
    (hF : ∀ i, 0 < i → i < c.K → ∀ k < 2^c.n, F i k = down c.n (xw c.P x (W-1-i)) k) :
    ∃ s' B' F', s.transformR = some s' ∧ Rep c ph A B' C F' T s' ∧
      BProg c x W (ph + 1 - c.off) B' (F' 0) ∧
      (∀ i, 0 < i → i < c.K → ∀ k < 2^c.n, F' i k = down c.n (xw c.P x (W-1-i)) k) := by
  unfold TDUPC.transformR
  have hM : c.n - c.nd = c.M := rfl
  have hnd := h.hnd
  have hsub : 2^c.n / 2^c.nd = 2^c.M := by
    rw [Nat.pow_div (by simp only [Par.n]; omega) (by norm_num)]
  have hMpos : 1 ≤ c.M := by simp only [Par.M]; omega
  have hhalf : 2^c.M = 2 * 2^(c.M-1) := by
    conv_lhs => rw [show c.M = (c.M - 1) + 1 by omega, pow_succ]
    ring
  have hhalf2 : 2^c.M / 2 = 2^(c.M-1) := by rw [hhalf]; omega
  have hpos : 0 < 2^(c.M-1) := by positivity
  have h2 : 2^(c.nd+1) = 2 * 2^c.nd := by rw [pow_succ]; ring
  simp only [h.phase, h.off, h.nd, h.fftPoints, hsub, hhalf2]
  by_cases hact : ph ≥ c.off ∧ ph < c.off + 2^c.nd * 2
  swap
  · rw [if_neg hact]
    refine ⟨s, B, F, rfl, h, ?_, hF⟩
    intro sb hs k hk
    have := hB sb hs k hk
    refine ⟨fun hw => this.1 (by omega), fun hw => this.2.1 (by omega), fun hw => ?_, fun hw => this.2.2.2 (by omega)⟩
    exfalso; omega
  rw [if_pos hact]
  have hw1 : ph + 1 - c.off = (ph - c.off) + 1 := by omega
  have hwlt : ph - c.off < 2^c.nd * 2 := by omega
  rw [hw1]
  generalize ph - c.off = w at hB hwlt ⊢
  rcases Nat.mod_two_eq_zero_or_one w with hpar | hpar
  · -- even
    obtain ⟨sb, rfl⟩ : ∃ sb, w = 2 * sb := ⟨w/2, by omega⟩
    have hs : sb < 2^c.nd := by omega
    have hoff : 2 * sb * 2^(c.M-1) = sb * 2^c.M := by rw [hhalf]; ring
    rw [hoff]
    have hle := h.piece_le hs
    obtain ⟨s1, e1, r1⟩ := h.subForward hs
    obtain ⟨s2, e2, r2⟩ := r1.accumulate (o := sb * 2^c.M) (hf := 2^(c.M-1)) (by omega)
    have hne : ¬ (2 * sb % 2 ≠ 0) := by omega
    simp only [hpar, if_true, Option.bind_eq_bind, e1, Option.bind_some, e2, ne_eq, not_true_eq_false, if_false]
    have hF0 : ∀ k, InBlk c.M sb k → down c.M B k = down c.n (xw c.P x (W-1)) k := by
      intro k hk
      rw [← down_Fl (n := c.n) (l := c.nd) (by simp only [Par.n]; omega)]
      exact down_congrOn (S := InBlk c.M sb) (fun a ha => closed_InBlk ha)
        (fun j hj => (hB sb hs j hj).1 le_rfl) k hk
    refine ⟨s2, _, _, rfl, r2, ?_, ?_⟩
    · intro sb' hs' k hk
      by_cases hsb : sb' = sb
      · subst hsb
        refine ⟨fun hc => by omega, fun _ => ?_, fun _ => ?_, fun hc => by omega⟩
        · simp only [true_and]
          rw [if_pos hk]; exact hF0 k hk
        · have hk2 : sb' * 2^c.M ≤ k := hk.1
          have hk3 : k < 2^c.n := lt_of_lt_of_le hk.2 hle
          simp only [hk, hk2, true_and, if_true]
          split
          · apply macs_congr _ (fun i _ => rfl)
            intro i hi
            by_cases hi0 : i = 0
            · subst hi0; simp only [and_true, if_true, hk]; exact hF0 k hk
            · simp only [hi0, false_and, if_false]
              exact hF i (by omega) hi k hk3
          · rfl
      · have hk0 : ¬ InBlk c.M sb k := fun hc => hsb (InBlk_disj hk hc)
        have hk1 : ¬ (sb * 2^c.M ≤ k ∧ k < sb * 2^c.M + 2^(c.M-1)) := fun hc => hk0 ⟨hc.1, by omega⟩
        simp only [hk0, hk1, and_false, if_false]
        have := hB sb' hs' k hk
        exact ⟨fun hc => this.1 (by omega), fun hc => this.2.1 (by omega), fun hc => by omega,
          fun hc => this.2.2.2 (by omega)⟩
    · intro i hi hiK k hk
      rw [if_neg (by omega)]; exact hF i hi hiK k hk
  · -- odd
    obtain ⟨sb, rfl⟩ : ∃ sb, w = 2 * sb + 1 := ⟨w/2, by omega⟩
    have hs : sb < 2^c.nd := by omega
    have hoff : (2 * sb + 1) * 2^(c.M-1) = sb * 2^c.M + 2^(c.M-1) := by rw [hhalf]; ring
    rw [hoff]
    have hle := h.piece_le hs
    obtain ⟨s2, e2, r2⟩ := h.accumulate (o := sb * 2^c.M + 2^(c.M-1)) (hf := 2^(c.M-1)) (by omega)
    obtain ⟨s3, e3, r3⟩ := r2.subInverse hs (w := 2*sb+1) rfl
    simp only [hpar, one_ne_zero, if_false, Option.bind_eq_bind, Option.bind_some, e2, ne_eq, not_false_eq_true,
      if_true, e3]
    have hacc : ∀ k, InBlk c.M sb k →
        (if sb * 2^c.M + 2^(c.M-1) ≤ k ∧ k < sb * 2^c.M + 2^(c.M-1) + 2^(c.M-1) then
          macs c.K (fun i => F i k) (fun i => down c.n (c.H i) k) (B k) else B k) = yw c x (W-1) k := by
      intro k hk
      have hk3 : k < 2^c.n := lt_of_lt_of_le hk.2 hle
      have hb := (hB sb hs k hk).2.2.1 rfl
      have hk1 := hk.1
      have hk2 := hk.2
      by_cases hkl : k < sb * 2^c.M + 2^(c.M-1)
      · rw [if_neg (by omega), hb, if_pos hkl]
      · rw [if_pos (by omega), hb, if_neg hkl]
        apply macs_congr _ (fun i _ => rfl)
        intro i hi
        by_cases hi0 : i = 0
        · subst hi0; exact (hB sb hs k hk).2.1 (by omega)
        · exact hF i (by omega) hi k hk3
    refine ⟨s3, _, _, rfl, r3, ?_, hF⟩
    intro sb' hs' k hk
    by_cases hsb : sb' = sb
    · subst hsb
      refine ⟨fun hc => by omega, fun _ => (hB sb' hs k hk).2.1 (by omega), fun hc => by omega, fun _ => ?_⟩
      simp only [hk, if_true]
      exact up_congrOn (S := InBlk c.M sb') (fun a ha => closed_InBlk ha) (fun j hj => hacc j hj) k hk
    · have hk0 : ¬ InBlk c.M sb k := fun hc => hsb (InBlk_disj hk hc)
      have hk1 : ¬ (sb * 2^c.M + 2^(c.M-1) ≤ k ∧ k < sb * 2^c.M + 2^(c.M-1) + 2^(c.M-1)) :=
        fun hc => hk0 ⟨by omega, by omega⟩
      simp only [hk0, hk1, if_false]
      have := hB sb' hs' k hk
      exact ⟨fun hc => this.1 (by omega), fun hc => this.2.1 (by omega), fun hc => by omega,
        fun hc => this.2.2.2 (by omega)⟩

/-- state after `q` blocks of window `W` of the stream `x` -/
structure Core (c : Par) (x : ℕ → ℝ) (W q : ℕ) (s : TDUPC) : Prop where
  ex : ∃ A B C F T, Rep c (q % 2^c.p) A B C F T s ∧
    (q = 0 → ∀ i < 2^c.n, A i = 0) ∧
    (0 < q → FwdSched c.b c.p c.nd (xw c.P x W) (q-1) c.nd A) ∧
    BProg c x W (q - c.off) B (F 0) ∧
    (∀ i, 0 < i → i < c.K → ∀ k < 2^c.n, F i k = down c.n (xw c.P x (W-1-i)) k) ∧
    InvSched c.b c.p c.nd (gw c x (W-2)) q c.nd C ∧
    ∀ j < c.P, T j = if j < q * 2^c.b then (zw c x (W-2) (j + c.P)).re else (zw c x (W-3) (j + c.P)).re

/-- the rest of `Process` after the window start -/
theorem Core.step {q : ℕ} (hs : Core c x W q s) (hq : q < 2^c.p)
    (inp : ℕ → ℝ) (hin : ∀ i < 2^c.b, inp i = x (W * c.P + q * 2^c.b + i)) :
    ∃ s' out, (do let s ← s.fill (2^c.b) inp; let s ← s.forwardR; let s ← s.transformR
                  let s ← s.inverseR; s.outputR (2^c.b)) = some (s', out) ∧
      (∀ i < 2^c.b, out i = Arith.addF (zw c x (W-2) (q * 2^c.b + i)).re (zw c x (W-3) (q * 2^c.b + i + c.P)).re) ∧
      Core c x W (q+1) s' := by
  obtain ⟨A, B, C, F, T, rep, hA0, hA, hB, hF, hC, hT⟩ := hs.ex
  rw [Nat.mod_eq_of_lt hq] at rep
  have e1 : (q + 1) * 2^c.b = q * 2^c.b + 2^c.b := by ring
  have e2 : (q + 1) * 2^c.b ≤ c.P := by
    simp only [Par.P]
    rw [pow_add, mul_comm]; exact Nat.mul_le_mul_left _ hq
  have e3 : (2:ℕ)^c.n = 2 * c.P := by simp only [Par.P, Par.n]; rw [pow_succ]; ring
  obtain ⟨s1, f1, r1⟩ := rep.fill hq inp
  have hwr : ∀ i, q * 2^c.b ≤ i ∧ i < (q+1) * 2^c.b →
      ((inp (i - q * 2^c.b) : ℝ) : ℂ) = xw c.P x W i := by
    intro i hi
    unfold xw
    rw [if_pos (by omega), hin _ (by omega)]
    congr 2; omega
  have hfwd : FwdSched c.b c.p c.nd (xw c.P x W) q 0
      (fun i => if q * 2^c.b ≤ i ∧ i < (q+1) * 2^c.b then ((inp (i - q * 2^c.b) : ℝ) : ℂ) else A i) := by
    rcases Nat.eq_zero_or_pos q with hq0 | hq0
    · subst hq0
      apply FwdSched_init
      intro i hi
      unfold arrived
      split
      · next hi2 => rw [if_pos hi2.2]; exact hwr i hi2
      · next hi2 => rw [if_neg (fun hc => hi2 ⟨by omega, hc⟩)]; exact hA0 rfl i hi
    · obtain ⟨q, rfl⟩ : ∃ q', q = q' + 1 := ⟨q-1, by omega⟩
      refine FwdSched_next hq (hA (by omega)) (fun i hi => ?_)
      by_cases hi2 : (q+1) * 2^c.b ≤ i ∧ i < (q+1+1) * 2^c.b
      · rw [if_pos hi2, if_pos hi2]; exact hwr i hi2
      · rw [if_neg hi2, if_neg hi2]
  obtain ⟨s2, A', f2, r2, hA'⟩ := r1.forward hq (xw_zero_pad c.P x W) hfwd
  obtain ⟨s3, B', F', f3, r3, hB', hF'⟩ := r2.transform hB hF
  have hnd0 := rep.hnd
  obtain ⟨s4, C', f4, r4, hC'⟩ := r3.inverse (fun m hm => gw_step c x (W-2) m (by omega)) hC
  obtain ⟨s5, f5, ho, r5⟩ := r4.output hq
  simp only [Option.bind_eq_bind, f1, f2, f3, f4, f5, Option.bind_some]
  have hnd := rep.hnd
  have hpb : 0 < 2^c.b := by positivity
  have hread : ∀ j, q * 2^c.b ≤ j → j < (q+1) * 2^c.b → C' j = zw c x (W-2) j ∧ C' (j + c.P) = zw c x (W-2) (j + c.P) := by
    intro j hj1 hj2
    have hd : j / 2^c.b < q + 1 := by rw [Nat.div_lt_iff_lt_mul hpb]; exact hj2
    refine ⟨InvSched_read (by omega) hC' j (by rw [show c.b + c.p + 1 = c.n from rfl]; omega) ?_,
      InvSched_read (by omega) hC' _ (by rw [show c.b + c.p + 1 = c.n from rfl]; omega) ?_⟩
    · rw [Nat.mod_eq_of_lt (by rw [show 2^(c.b+c.p) = c.P from rfl]; omega)]; exact hd
    · rw [show 2^(c.b+c.p) = c.P from rfl, Nat.add_mod_right, Nat.mod_eq_of_lt (by omega)]; exact hd
  refine ⟨s5, _, rfl, ?_, ⟨_, _, _, _, _, r5, ?_, ?_, hB', hF', hC', ?_⟩⟩
  · intro i hi
    rw [ho i hi, (hread (q * 2^c.b + i) (by omega) (by omega)).1, hT _ (by omega), if_neg (by omega)]
  · omega
  · intro _; exact hA'
  · intro j hj
    by_cases hj1 : q * 2^c.b ≤ j ∧ j < (q+1) * 2^c.b
    · rw [if_pos hj1, if_pos hj1.2, (hread j hj1.1 hj1.2).2]
    · rw [if_neg hj1, hT j hj]
      by_cases hj2 : j < q * 2^c.b
      · rw [if_pos hj2, if_pos (by omega)]
      · rw [if_neg hj2, if_neg (by omega)]

/-- start of the next window -/
theorem Core.nextWindow (hs : Core c x W (2^c.p) s) : ∃ s', s.begin = some s' ∧ Core c x (W+1) 0 s' := by
  obtain ⟨A, B, C, F, T, rep, hA0, hA, hB, hF, hC, hT⟩ := hs.ex
  rw [Nat.mod_self] at rep
  obtain ⟨s', e, r⟩ := rep.begin_zero
  have hnd := rep.hnd
  have hoff := rep.hoff
  have hp : 0 < 2^c.p := by positivity
  have h2 : 2^(c.nd+1) = 2 * 2^c.nd := by rw [pow_succ]; ring
  have e3 : 2^c.p * 2^c.b = c.P := by rw [← pow_add, add_comm]
  have hblk : ∀ k < 2^c.n, ∃ sb < 2^c.nd, InBlk c.M sb k := by
    intro k hk
    have hMp : 0 < 2^c.M := by positivity
    refine ⟨k / 2^c.M, ?_, ?_⟩
    · rw [Nat.div_lt_iff_lt_mul hMp, ← pow_add]
      rw [show c.nd + c.M = c.n by simp only [Par.n, Par.M]; omega]; exact hk
    · have := Nat.div_add_mod k (2^c.M)
      have := Nat.mod_lt k hMp
      unfold InBlk
      rw [mul_comm]; omega
  have hBall : ∀ k < 2^c.n, B k = gw c x (W-1) c.nd k ∧ F 0 k = down c.n (xw c.P x (W-1)) k := by
    intro k hk
    obtain ⟨sb, hsb, hin⟩ := hblk k hk
    have := hB sb hsb k hin
    exact ⟨this.2.2.2 (by omega), this.2.1 (by omega)⟩
  refine ⟨s', e, ⟨_, _, _, _, _, by simpa using r, ?_, ?_, ?_, ?_, ?_, ?_⟩⟩
  · intro _ i _; rfl
  · intro hc; omega
  · intro sb hsb k hk
    have hk3 : k < 2^c.n := lt_of_lt_of_le hk.2 (rep.piece_le hsb)
    refine ⟨fun _ => ?_, fun hc => by omega, fun hc => by omega, fun hc => by omega⟩
    exact FwdSched_final (xw_zero_pad c.P x W) (by omega) (hA hp) k hk3
  · intro i hi hiK k hk
    rw [if_neg (by omega)]
    by_cases hi1 : i = 1
    · subst hi1; rw [(hBall k hk).2]; congr 2
    · rw [hF (i-1) (by omega) (by omega) k hk]
      congr 2; omega
  · apply InvSched_init
    intro i hi
    rw [(hBall i hi).1]; rfl
  · intro j hj
    rw [hT j hj, if_pos (by rw [e3]; exact hj), if_neg (by omega)]; rfl

/-- state after `t` blocks of the (virtual) stream `x` -/
def TInv (c : Par) (x : ℕ → ℝ) (t : ℕ) (s : TDUPC) : Prop :=
  ∃ W q, 0 < q ∧ q ≤ 2^c.p ∧ t = W * 2^c.p + q ∧ c.K + 3 ≤ W ∧ Core c x W q s

theorem TInv.step {t : ℕ} (hs : TInv c x t s) (inp : ℕ → ℝ)
    (hin : ∀ i < 2^c.b, inp i = x (t * 2^c.b + i)) :
    ∃ s' out, s.processR (2^c.b) inp = some (s', out) ∧
      (∀ i < 2^c.b, out i = Arith.addF (zw c x ((t * 2^c.b + i) / c.P - 2) ((t * 2^c.b + i) % c.P)).re
        (zw c x ((t * 2^c.b + i) / c.P - 3) ((t * 2^c.b + i) % c.P + c.P)).re) ∧
      TInv c x (t+1) s' := by
  obtain ⟨W, q, hq, hq2, ht, hW, hcore⟩ := hs
  have e3 : 2^c.p * 2^c.b = c.P := by rw [← pow_add, add_comm]
  have idx : ∀ V q i, q < 2^c.p → i < 2^c.b →
      Arith.addF (zw c x ((V * c.P + q * 2^c.b + i) / c.P - 2) ((V * c.P + q * 2^c.b + i) % c.P)).re
        (zw c x ((V * c.P + q * 2^c.b + i) / c.P - 3) ((V * c.P + q * 2^c.b + i) % c.P + c.P)).re =
      Arith.addF (zw c x (V - 2) (q * 2^c.b + i)).re (zw c x (V - 3) (q * 2^c.b + i + c.P)).re := by
    intro V q i hq hi
    have h1 : (q+1) * 2^c.b ≤ 2^c.p * 2^c.b := Nat.mul_le_mul_right _ hq
    have h2 : (q+1) * 2^c.b = q * 2^c.b + 2^c.b := by ring
    have hlt : q * 2^c.b + i < c.P := by omega
    have hd : (V * c.P + q * 2^c.b + i) / c.P = V := by
      rw [add_assoc, add_comm, Nat.add_mul_div_right _ _ (by positivity), Nat.div_eq_of_lt hlt, zero_add]
    have hm : (V * c.P + q * 2^c.b + i) % c.P = q * 2^c.b + i := by
      rw [add_assoc, add_comm, Nat.add_mul_mod_self_right, Nat.mod_eq_of_lt hlt]
    rw [hd, hm]
  unfold TDUPC.processR
  rcases Nat.eq_or_lt_of_le hq2 with heq | hlt
  · rw [heq] at hcore
    obtain ⟨s1, e1, hcore1⟩ := hcore.nextWindow
    have htt : t * 2^c.b = (W+1) * c.P + 0 * 2^c.b := by
      rw [ht, heq, ← e3]; ring
    obtain ⟨s', out, e2, ho, hc'⟩ := hcore1.step (by positivity) inp (by rw [← htt]; exact hin)
    simp only [e1, Option.bind_eq_bind, Option.bind_some] at e2 ⊢
    refine ⟨s', out, e2, by rw [htt]; exact fun i hi => (ho i hi).trans (idx _ _ i (by positivity) hi).symm, W+1, 0+1, by omega, ?_, ?_, by omega, hc'⟩
    · exact Nat.one_le_two_pow
    · rw [ht, heq]; ring
  · obtain ⟨A, B, C, F, T, rep, _⟩ := hcore.ex
    rw [Nat.mod_eq_of_lt hlt] at rep
    have htt : t * 2^c.b = W * c.P + q * 2^c.b := by
      rw [ht, ← e3]; ring
    obtain ⟨s', out, e2, ho, hc'⟩ := hcore.step hlt inp (by rw [← htt]; exact hin)
    simp only [rep.begin_pos (by omega), Option.bind_eq_bind, Option.bind_some] at e2 ⊢
    exact ⟨s', out, e2, by rw [htt]; exact fun i hi => (ho i hi).trans (idx _ _ i hlt hi).symm, W, q+1, by omega, hlt, by rw [ht]; ring, hW, hc'⟩

/-- a state with all buffers zero is a state of any stream that is silent so far -/
theorem TInv.of_zero [ZeroBase] {t : ℕ} (hH : ∀ i < c.K, ∀ k, Arith.mul 0 (down c.n (c.H i) k) = 0)
    (h : Rep c (t % 2^c.p) (fun _ => 0) (fun _ => 0) (fun _ => 0) (fun _ _ => 0) (fun _ => 0) s)
    (ht : (c.K + 5) * 2^c.p ≤ t) (hx : ∀ i < t * 2^c.b, x i = 0) : TInv c x t s := by
  have hp : 0 < 2^c.p := by positivity
  have e3 : 2^c.p * 2^c.b = c.P := by rw [← pow_add, add_comm]
  obtain ⟨W, q, hq0, hq1, htq⟩ : ∃ W q, 0 < q ∧ q ≤ 2^c.p ∧ t = W * 2^c.p + q := by
    have hd := Nat.div_add_mod (t-1) (2^c.p)
    have hm := Nat.mod_lt (t-1) hp
    have : 2^c.p ≤ (c.K+5) * 2^c.p := Nat.le_mul_of_pos_left _ (by omega)
    refine ⟨(t-1)/2^c.p, (t-1)%2^c.p + 1, by omega, by omega, ?_⟩
    rw [mul_comm] at hd; omega
  have hW : c.K + 4 ≤ W := by
    by_contra hc
    have : (W + 1) * 2^c.p < (c.K+5) * 2^c.p := Nat.mul_lt_mul_of_pos_right (by omega) hp
    rw [Nat.add_mul] at this; omega
  have hmod : t % 2^c.p = q % 2^c.p := by rw [htq, add_comm, Nat.add_mul_mod_self_right]
  rw [hmod] at h
  have htb : t * 2^c.b = W * c.P + q * 2^c.b := by rw [htq, ← e3]; ring
  rw [htb] at hx
  have hxz : ∀ V < W, xw c.P x V = fun _ => 0 := by
    intro V hV
    funext j
    unfold xw
    split
    · next hj =>
      have := Nat.mul_le_mul_right c.P (show V + 1 ≤ W from hV)
      rw [Nat.add_mul] at this
      rw [hx _ (by omega)]; simp
    · rfl
  have hyz : ∀ V < W, yw c x V = fun _ => 0 := by
    intro V hV
    funext j
    have : ∀ k ≤ c.K, macs k (fun i => down c.n (xw c.P x (V - i)) j) (fun i => down c.n (c.H i) j) 0 = 0 := by
      intro k
      induction k with
      | zero => intro _; rfl
      | succ k ih => intro hk; rw [macs_succ, ih (by omega), hxz (V-k) (by omega), down_zero, hH k (by omega), ZeroBase.add]
    exact this _ le_rfl
  have hgz : ∀ V < W, gw c x V = fun _ _ => 0 := by
    intro V hV; funext m; unfold gw; rw [hyz V hV, up_zero]
  have hzz : ∀ V < W, zw c x V = fun _ => 0 := by
    intro V hV; unfold zw; rw [hyz V hV, up_zero]
  refine ⟨W, q, hq0, hq1, htq, by omega, ⟨_, _, _, _, _, h, fun _ _ _ => rfl, fun _ => ?_, ?_, ?_, ?_, ?_⟩⟩
  · have hnd := h.hnd
    refine FwdSched_congr (x := fun _ => 0) (by omega) (fun _ _ => rfl) (xw_zero_pad c.P x W) ?_
      (FwdSched_zero (fun _ _ => rfl))
    intro i hi
    rw [Nat.sub_add_cancel hq0] at hi
    unfold xw
    split
    · rw [hx _ (by omega)]; simp
    · rfl
  · intro sb _ k _
    rw [hxz (W-1) (by omega), hyz (W-1) (by omega), hgz (W-1) (by omega), down_zero, Fl_zero]
    exact ⟨fun _ => rfl, fun _ => rfl, fun _ => by simp, fun _ => rfl⟩
  · intro i _ _ k _
    rw [hxz (W-1-i) (by omega), down_zero]
  · rw [hgz (W-2) (by omega)]
    intro i _ m _ _; rfl
  · intro j _
    rw [hzz (W-2) (by omega), hzz (W-3) (by omega)]
    simp

theorem Rep.reset (h : Rep c ph A B C F T s) :
    Rep c ph (fun _ => 0) (fun _ => 0) (fun _ => 0) (fun _ _ => 0) (fun _ => 0) s.reset := by
  have hst : ∀ j < 3, s.reset.stages.get j = (s.stages.get j).clear := by
    intro j hj
    have := stages_idx_lt h.sth hj
    simp only [TDUPC.reset, Stages.clear, Stages.get]
    rw [show Stages.idx { head := s.stages.head, stages := fun i => if i < 3 then (s.stages.stages i).clear
      else s.stages.stages i } j = s.stages.idx j from rfl, if_pos this]
  have hstz : ∀ j < 3, ∀ i < 2^c.n, (s.reset.stages.get j).get 0 i = 0 := by
    intro j hj i hi
    rw [hst j hj]
    apply get_clear
    · rw [(h.get_shape hj).1]; norm_num
    · rw [(h.get_shape hj).2]; exact hi
  refine { h with
    fdlK := h.fdlK, fdlh := h.fdlh, sth := h.sth, fdl := ?_, st := ?_, tch := h.tch,
    tn := h.tn, hA := hstz 0 (by omega), hB := hstz 1 (by omega), hC := hstz 2 (by omega), hF := ?_, hT := ?_ }
  · intro i hi
    simp only [TDUPC.reset, FDL.clear, h.fdlK, hi, if_true]
    exact h.fdl i hi
  · intro i hi
    simp only [TDUPC.reset, Stages.clear, hi, if_true]
    exact h.st i hi
  · intro i hi k hk
    have hidx : s.fdl.idx i < c.K := by unfold FDL.idx; rw [h.fdlK]; exact Nat.mod_lt _ h.hK
    have hline : s.reset.fdl.line (s.reset.fdl.idx i) = (s.fdl.line (s.fdl.idx i)).clear := by
      show (if s.fdl.idx i < s.fdl.numBlocks then _ else _) = _
      rw [if_pos (by rw [h.fdlK]; exact hidx)]; rfl
    rw [hline]
    apply get_clear
    · rw [(h.fdl _ hidx).1]; norm_num
    · rw [(h.fdl _ hidx).2]; exact hk
  · intro i hi
    simp only [TDUPC.reset, Buf.clear]
    rw [if_pos ⟨by rw [h.tch]; norm_num, by rw [h.tn]; exact hi⟩]

theorem Rep.create (c : Par) (hnd : c.nd + 1 ≤ c.p) (hoff : c.off + 2^(c.nd+1) ≤ 2^c.p) (hK : 0 < c.K)
    (filters : ℕ → CBuf) (fch : ℕ) (tail0 : ℕ → ℕ → ℝ)
    (hf : ∀ i < c.K, (filters i).np = 2^c.n ∧ fch < (filters i).ch ∧
      ∀ k < 2^c.n, (filters i).get fch k = down c.n (c.H i) k) :
    Rep c 0 (fun _ => 0) (fun _ => 0) (fun _ => 0) (fun _ _ => 0) (fun _ => 0)
      (TDUPC.create (2^c.b) (2^c.p) c.K filters fch c.off c.nd tail0) := by
  have e3 : 2^c.b * 2^c.p = c.P := by rw [← pow_add]
  have e4 : 2 * (2^c.b * 2^c.p) = 2^c.n := by rw [e3]; simp only [Par.P, Par.n]; rw [pow_succ]; ring
  unfold TDUPC.create
  refine Rep.reset (A := (CBuf.mk0 (2^c.n) 1).clear.get 0) (B := (CBuf.mk0 (2^c.n) 1).clear.get 0)
    (C := (CBuf.mk0 (2^c.n) 1).clear.get 0) (F := fun _ => (CBuf.mk0 (2^c.n) 1).clear.get 0)
    (T := tail0 0) (ph := 0) ?_
  simp only [e4]
  exact
    { partSize := e3, fftPoints := rfl, numPhases := rfl, phase := rfl, nd := rfl, hnd := hnd, hoff := hoff,
      off := rfl, K := rfl, Kf := rfl, hK := hK, filt := hf, fdlK := rfl, fdlh := hK,
      fdl := fun i _ => ⟨rfl, rfl⟩, sth := by show 0 < 3; omega, st := fun i _ => ⟨rfl, rfl⟩, tch := rfl, tn := e3,
      hA := fun i _ => rfl, hB := fun i _ => rfl, hC := fun i _ => rfl, hF := fun i _ k _ => rfl,
      hT := fun i _ => rfl }

theorem TInv.rep {t : ℕ} (h : TInv c x t s) : ∃ A B C F T, Rep c (t % 2^c.p) A B C F T s := by
  obtain ⟨W, q, _, _, ht, _, hc⟩ := h
  obtain ⟨A, B, C, F, T, rep, _⟩ := hc.ex
  refine ⟨A, B, C, F, T, ?_⟩
  rw [ht, add_comm, Nat.add_mul_mod_self_right]; exact rep

end Zones.Proofs.R
