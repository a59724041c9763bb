import Verif.Model.TDUPC
import Verif.Proofs.Buffers
import Verif.Proofs.FFTMore
import Verif.Proofs.Schedule

/-! # Effect of the individual steps of `TimeDistributedUPC::Process` -/

open Finset Zones.Spec Zones.Model

namespace Zones.Proofs

/-! ## Stage buffers -/

theorem stages_idx {s : Stages} (hh : s.head < 3) {j : ℕ} (hj : j < 3) :
    s.idx j = (j + 3 - s.head) % 3 := by
  unfold Stages.idx
  have : ((j:ℤ) - s.head + 3) = ((j + 3 - s.head : ℕ) : ℤ) := by omega
  rw [this]
  rw [show (3:ℤ) = ((3:ℕ):ℤ) from rfl, ← Int.ofNat_tmod, Int.toNat_natCast]

theorem stages_idx_lt {s : Stages} (hh : s.head < 3) {j : ℕ} (hj : j < 3) : s.idx j < 3 := by
  rw [stages_idx hh hj]; omega

theorem stages_idx_inj {s : Stages} (hh : s.head < 3) {j k : ℕ} (hj : j < 3) (hk : k < 3)
    (h : s.idx j = s.idx k) : j = k := by
  rw [stages_idx hh hj, stages_idx hh hk] at h; omega

theorem stages_get_set_same (s : Stages) (j : ℕ) (b : CBuf) : (s.set j b).get j = b := by
  simp [Stages.get, Stages.set, Stages.idx]

theorem stages_get_set_ne {s : Stages} (hh : s.head < 3) {j k : ℕ} (hj : j < 3) (hk : k < 3)
    (hne : k ≠ j) (b : CBuf) : (s.set j b).get k = s.get k := by
  have : s.idx k ≠ s.idx j := fun h => hne (stages_idx_inj hh hk hj h)
  simp only [Stages.get, Stages.set]
  rw [show Stages.idx { head := s.head, stages := Function.update s.stages (s.idx j) b } k = s.idx k from rfl]
  exact Function.update_of_ne this _ _

@[simp] theorem stages_set_head (s : Stages) (j : ℕ) (b : CBuf) : (s.set j b).head = s.head := rfl

theorem stages_promote_head {s : Stages} : s.promote.head < 3 := by
  simp only [Stages.promote]; omega

theorem stages_promote_get {s : Stages} (hh : s.head < 3) {j : ℕ} (hj : j < 3) :
    s.promote.get ((j+1) % 3) = s.get j := by
  simp only [Stages.get]
  rw [stages_idx stages_promote_head (by omega), stages_idx hh hj]
  simp only [Stages.promote]
  congr 1; omega

/-! ## Abstract view of the state -/

/-- the parameters of one sub convolver -/
structure Par where
  b : ℕ
  p : ℕ
  K : ℕ
  nd : ℕ
  off : ℕ
  /-- partition `i` of the filter segment, zero-padded -/
  H : ℕ → ℕ → ℂ

namespace Par
/-- partition size -/
abbrev P (c : Par) : ℕ := 2^(c.b+c.p)
/-- log of the transform size -/
abbrev n (c : Par) : ℕ := c.b+c.p+1
/-- log of the piece size -/
abbrev M (c : Par) : ℕ := c.b+c.p+1-c.nd
end Par

/-- the state `s` has the shape given by `c`, is in phase `ph` and its buffers hold `A B C F T` -/
structure Rep (c : Par) (ph : ℕ) (A B C : ℕ → ℂ) (F : ℕ → ℕ → ℂ) (T : ℕ → ℝ) (s : TDUPC) : Prop where
  partSize : s.partSize = c.P
  fftPoints : s.fftPoints = 2^c.n
  numPhases : s.numPhases = 2^c.p
  phase : s.phase = ph
  nd : s.nd = c.nd
  hnd : c.nd + 1 ≤ c.p
  hoff : c.off + 2^(c.nd+1) ≤ 2^c.p
  off : s.transformOffset = c.off
  K : s.numPartitions = c.K
  Kf : s.numFilters = c.K
  hK : 0 < c.K
  filt : ∀ i < c.K, (s.filters i).np = 2^c.n ∧ s.filterChannel < (s.filters i).ch ∧
    ∀ k < 2^c.n, (s.filters i).get s.filterChannel k = down c.n (c.H i) k
  fdlK : s.fdl.numBlocks = c.K
  fdlh : s.fdl.head < c.K
  fdl : ∀ i < c.K, (s.fdl.line i).ch = 1 ∧ (s.fdl.line i).np = 2^c.n
  sth : s.stages.head < 3
  st : ∀ i < 3, (s.stages.stages i).ch = 1 ∧ (s.stages.stages i).np = 2^c.n
  tch : s.tail.ch = 1
  tn : s.tail.n = c.P
  hA : ∀ i < 2^c.n, (s.stages.get 0).get 0 i = A i
  hB : ∀ i < 2^c.n, (s.stages.get 1).get 0 i = B i
  hC : ∀ i < 2^c.n, (s.stages.get 2).get 0 i = C i
  hF : ∀ i < c.K, ∀ k < 2^c.n, (s.fdl.line (s.fdl.idx i)).get 0 k = F i k
  hT : ∀ i < c.P, s.tail.data 0 i = T i

variable {c : Par} {ph : ℕ} {A B C : ℕ → ℂ} {F : ℕ → ℕ → ℂ} {T : ℕ → ℝ} {s : TDUPC}

theorem Rep.get_shape (h : Rep c ph A B C F T s) {j : ℕ} (hj : j < 3) :
    (s.stages.get j).ch = 1 ∧ (s.stages.get j).np = 2^c.n :=
  h.st _ (stages_idx_lt h.sth hj)

/-- writing stage `j` -/
theorem Rep.setStage (h : Rep c ph A B C F T s) {j : ℕ} (hj : j < 3) {b : CBuf} (hb : b.ch = 1 ∧ b.np = 2^c.n)
    {A' B' C' : ℕ → ℂ}
    (hA : ∀ i < 2^c.n, A' i = if j = 0 then b.get 0 i else A i)
    (hB : ∀ i < 2^c.n, B' i = if j = 1 then b.get 0 i else B i)
    (hC : ∀ i < 2^c.n, C' i = if j = 2 then b.get 0 i else C i) :
    Rep c ph A' B' C' F T { s with stages := s.stages.set j b } := by
  have key : ∀ k < 3, ((s.stages.set j b).get k) = if j = k then b else s.stages.get k := by
    intro k hk
    split
    · next e => subst e; exact stages_get_set_same _ _ _
    · next e => exact stages_get_set_ne h.sth hj hk (Ne.symm e) _
  refine { h with sth := h.sth, st := ?_, hA := ?_, hB := ?_, hC := ?_ }
  · intro i hi
    simp only [Stages.set]
    by_cases e : i = s.stages.idx j
    · subst e; rw [Function.update_self]; exact hb
    · rw [Function.update_of_ne e]; exact h.st i hi
  · intro i hi
    rw [hA i hi]; simp only [key 0 (by omega)]
    split
    · rfl
    · exact h.hA i hi
  · intro i hi
    rw [hB i hi]; simp only [key 1 (by omega)]
    split
    · rfl
    · exact h.hB i hi
  · intro i hi
    rw [hC i hi]; simp only [key 2 (by omega)]
    split
    · rfl
    · exact h.hC i hi

theorem Rep.pointer (h : Rep c ph A B C F T s) {j : ℕ} (hj : j < 3) :
    (s.stages.get j).pointer 0 = some ((s.stages.get j).get 0) := by
  unfold CBuf.pointer; rw [if_pos]; rw [(h.get_shape hj).1]; norm_num

theorem Rep.fill (h : Rep c ph A B C F T s) (hph : ph < 2^c.p) (inp : ℕ → ℝ) :
    ∃ s', s.fill (2^c.b) inp = some s' ∧
      Rep c ph (fun i => if ph * 2^c.b ≤ i ∧ i < (ph+1) * 2^c.b then ((inp (i - ph * 2^c.b) : ℝ) : ℂ) else A i)
        B C F T s' := by
  unfold TDUPC.fill
  have hphs := h.phase
  simp only [h.pointer (j := 0) (by omega), Option.bind_eq_bind, Option.bind_some,
    (h.get_shape (j := 0) (by omega)).2]
  have e1 : (ph + 1) * 2^c.b = ph * 2^c.b + 2^c.b := by ring
  have e2 : (ph + 1) * 2^c.b ≤ c.P := by
    simp only [Par.P]
    rw [pow_add, mul_comm]; exact Nat.mul_le_mul_left _ hph
  have e3 : (2:ℕ)^c.n = 2 * c.P := by simp only [Par.P, Par.n]; rw [pow_succ]; ring
  rw [if_pos (by rw [hphs]; omega)]
  obtain rfl := h.phase
  refine ⟨_, rfl, h.setStage (j := 0) (by norm_num) (b := CBuf.setChannel _ _ _) (h.get_shape (j := 0) (by omega)) ?_ ?_ ?_⟩
  · intro i hi
    rw [if_pos rfl, get_setChannel_same (by rw [(h.get_shape (j := 0) (by omega)).2]; exact hi), e1]
    split
    · rfl
    · exact (h.hA i hi).symm
  · intro i _; simp
  · intro i _; simp

theorem Rep.forward {x : ℕ → ℂ} (h : Rep c ph A B C F T s) (hph : ph < 2^c.p)
    (hx : ∀ i ≥ 2^(c.b+c.p), x i = 0) (hA : FwdSched c.b c.p c.nd x ph 0 A) :
    ∃ s' A', s.forward = some s' ∧ Rep c ph A' B C F T s' ∧ FwdSched c.b c.p c.nd x ph c.nd A' := by
  have hnp := (h.get_shape (j := 0) (by omega)).2
  have hA' : FwdSched c.b c.p c.nd x ph 0 ((s.stages.get 0).get 0) := fun i hi m hm hD => by
    rw [h.hA i hi]; exact hA i hi m hm hD
  obtain ⟨d', h1, h2, _⟩ := FwdSched_phase (sz := (s.stages.get 0).np) hx (by have := h.hnd; omega) hph
    hnp.ge hA'
  unfold TDUPC.forward
  obtain rfl := h.phase
  rw [← h.fftPoints, ← h.numPhases, ← h.nd] at h1
  simp only [h.pointer (j := 0) (by omega), Option.bind_eq_bind, Option.bind_some, h1]
  refine ⟨_, d', rfl, h.setStage (j := 0) (by norm_num) (b := CBuf.setChannel _ _ _) (h.get_shape (j := 0) (by omega)) ?_ ?_ ?_, h2⟩
  · intro i hi
    rw [if_pos rfl, get_setChannel_same (by rw [hnp]; exact hi)]
  · intro i _; simp
  · intro i _; simp

theorem Rep.inverse {z : ℕ → ℂ} (h : Rep c ph A B C F T s)
    (hC : InvSched c.b c.p c.nd z ph c.nd C) :
    ∃ s' C', s.inverse = some s' ∧ Rep c ph A B C' F T s' ∧ InvSched c.b c.p c.nd z (ph+1) c.nd C' := by
  have hnp := (h.get_shape (j := 2) (by omega)).2
  have hC' : InvSched c.b c.p c.nd z ph c.nd ((s.stages.get 2).get 0) := fun i hi m hm hD => by
    rw [h.hC i hi]; exact hC i hi m hm hD
  obtain ⟨d', h1, h2, _⟩ := InvSched_phase (sz := (s.stages.get 2).np) (by have := h.hnd; omega)
    hnp.ge hC'
  unfold TDUPC.inverse
  obtain rfl := h.phase
  rw [← h.fftPoints, ← h.numPhases, ← h.nd] at h1
  simp only [h.pointer (j := 2) (by omega), Option.bind_eq_bind, Option.bind_some, h1]
  refine ⟨_, d', rfl, h.setStage (j := 2) (by norm_num) (b := CBuf.setChannel _ _ _) (h.get_shape (j := 2) (by omega)) ?_ ?_ ?_, h2⟩
  · intro i _; simp
  · intro i _; simp
  · intro i hi
    rw [if_pos rfl, get_setChannel_same (by rw [hnp]; exact hi)]

theorem Rep.output (h : Rep c ph A B C F T s) (hph : ph < 2^c.p) :
    ∃ s', s.output (2^c.b) = some (s', fun i => ((s.stages.get 2).get 0 (ph * 2^c.b + i)).re +
        s.tail.data 0 (ph * 2^c.b + i)) ∧
      (∀ i < 2^c.b, ((s.stages.get 2).get 0 (ph * 2^c.b + i)).re + s.tail.data 0 (ph * 2^c.b + i) =
        (C (ph * 2^c.b + i)).re + T (ph * 2^c.b + i)) ∧
      Rep c ((ph+1) % 2^c.p) A B C F
        (fun i => if ph * 2^c.b ≤ i ∧ i < (ph+1) * 2^c.b then (C (i + c.P)).re else T i) s' := by
  unfold TDUPC.output
  have hnp := (h.get_shape (j := 2) (by omega)).2
  have e1 : (ph + 1) * 2^c.b = ph * 2^c.b + 2^c.b := by ring
  have e2 : (ph + 1) * 2^c.b ≤ c.P := by
    simp only [Par.P]
    rw [pow_add, mul_comm]; exact Nat.mul_le_mul_left _ hph
  have e3 : (2:ℕ)^c.n = 2 * c.P := by simp only [Par.P, Par.n]; rw [pow_succ]; ring
  have e4 : 0 < 2^c.p := by positivity
  simp only [h.pointer (j := 2) (by omega), h.phase, Option.bind_eq_bind, Option.bind_some, h.numPhases,
    h.partSize, hnp]
  have f1 := h.tn
  have f2 := h.tch
  rw [if_pos (by refine ⟨?_, ?_, ?_, ?_⟩ <;> omega)]
  refine ⟨_, rfl, ?_, { h with tch := h.tch, tn := h.tn, hT := ?_, phase := rfl, partSize := rfl, numPhases := rfl }⟩
  · intro i hi
    rw [h.hC _ (by omega), h.hT _ (by omega)]
  · intro i hi
    simp only [true_and, e1]
    split
    · rw [h.hC _ (by omega)]
    · exact h.hT i hi

theorem Rep.begin_pos (h : Rep c ph A B C F T s) (hph : ph ≠ 0) : s.begin = some s := by
  unfold TDUPC.begin
  rw [if_neg (by rw [h.phase]; exact hph)]

theorem Rep.begin_zero (h : Rep c 0 A B C F T s) :
    ∃ s', s.begin = some s' ∧
      Rep c 0 (fun _ => 0) A B (fun i k => if i = 0 then 0 else F (i-1) k) T s' := by
  unfold TDUPC.begin
  rw [if_pos h.phase, fdl_getNext (by rw [h.fdlK]; exact h.hK) (by rw [h.fdlK]; exact h.fdlh)]
  have hK := h.hK
  have hKf := h.fdlK
  have hh := h.fdlh
  have hst : ∀ k < 3, s.stages.promote.get k = s.stages.get ((k + 2) % 3) := by
    intro k hk
    have := stages_promote_get h.sth (j := (k+2) % 3) (by omega)
    rw [← this]; congr 1; omega
  simp only [Option.bind_eq_bind, Option.bind_some, FDL.getOffset, hKf]
  rw [if_neg (by omega)]
  refine ⟨_, rfl, { h with sth := stages_promote_head, fdlK := rfl, st := ?_, fdlh := Nat.mod_lt _ hK, fdl := ?_, hA := ?_, hB := ?_, hC := ?_, hF := ?_ }⟩
  · intro i hi
    simp only [FDL.setOffset]
    by_cases e : i = FDL.idx { numBlocks := c.K, head := (s.fdl.head + c.K - 1) % c.K, line := s.fdl.line } 0
    · subst e; rw [Function.update_self]
      exact h.fdl _ (Nat.mod_lt _ hK)
    · rw [Function.update_of_ne e]; exact h.fdl i hi
  · intro i hi
    have hsh : (s.stages.promote.get 0).ch = 1 ∧ (s.stages.promote.get 0).np = 2^c.n := by
      rw [hst 0 (by omega)]; exact h.get_shape (by omega)
    simp only [Stages.set]
    by_cases e : i = s.stages.promote.idx 0
    · subst e; rw [Function.update_self]; exact hsh
    · rw [Function.update_of_ne e]; exact h.st i hi
  · intro i hi
    rw [stages_get_set_same]
    apply get_clear
    · rw [hst 0 (by omega), (h.get_shape (by omega)).1]; norm_num
    · rw [hst 0 (by omega), (h.get_shape (by omega)).2]; exact hi
  · intro i hi
    rw [stages_get_set_ne stages_promote_head (by omega) (by omega) (by omega), hst 1 (by omega)]
    exact h.hA i hi
  · intro i hi
    rw [stages_get_set_ne stages_promote_head (by omega) (by omega) (by omega), hst 2 (by omega)]
    exact h.hB i hi
  · intro i hi k hk
    have hmod : (s.fdl.head + c.K - 1) % c.K < c.K := Nat.mod_lt _ hK
    simp only [FDL.setOffset, FDL.idx, hKf]
    by_cases e : i = 0
    · subst e
      rw [Function.update_self, if_pos rfl]
      apply get_clear
      · rw [(h.fdl _ (Nat.mod_lt _ hK)).1]; norm_num
      · rw [(h.fdl _ (Nat.mod_lt _ hK)).2]; exact hk
    · rw [Function.update_of_ne, if_neg e]
      · obtain ⟨i, rfl⟩ : ∃ i', i = i' + 1 := ⟨i-1, by omega⟩
        rw [fdl_idx_shift hK, Nat.add_sub_cancel, ← h.hF i (by omega) k hk]
        simp only [FDL.idx, hKf]
      · intro hc
        exact e (fdl_idx_inj hmod hi hK hc)

theorem Rep.piece_le (h : Rep c ph A B C F T s) {sb : ℕ} (hs : sb < 2^c.nd) :
    sb * 2^c.M + 2^c.M ≤ 2^c.n := by
  have e : 2^c.nd * 2^c.M = 2^c.n := by
    rw [← pow_add]; congr 1
    have := h.hnd
    simp only [Par.M, Par.n]; omega
  rw [← e]
  calc sb * 2^c.M + 2^c.M = (sb+1) * 2^c.M := by ring
    _ ≤ _ := Nat.mul_le_mul_right _ hs

theorem closed_InBlk {M sb a : ℕ} (ha : a < M) : Closed (2^a) (InBlk M sb) :=
  closed_block ha

theorem Rep.subForward (h : Rep c ph A B C F T s) {sb : ℕ} (hs : sb < 2^c.nd) :
    ∃ s', s.subForward (sb * 2^c.M) (2^c.M) = some s' ∧
      Rep c ph A (fun i => if InBlk c.M sb i then 0 else B i) C
        (fun i k => if i = 0 ∧ InBlk c.M sb k then down c.M B k else F i k) T s' := by
  have hle := h.piece_le hs
  have hnp := (h.get_shape (j := 1) (by omega)).2
  have hK := h.hK
  have hidx : s.fdl.idx 0 < c.K := by unfold FDL.idx; rw [h.fdlK]; exact Nat.mod_lt _ hK
  have hf := h.fdl _ hidx
  unfold TDUPC.subForward
  simp only [h.pointer (j := 1) (by omega), Option.bind_eq_bind, Option.bind_some,
    forwardFFT_eq (M := c.M) (s := sb) (sz := (s.stages.get 1).np) (by rw [hnp]; exact hle),
    FDL.getOffset, h.fdlK]
  rw [if_neg (by omega)]
  simp only [Option.bind_some, CBuf.pointer, hf.1, zero_lt_one, if_true]
  rw [if_pos (by rw [hf.2, hnp]; exact ⟨hle, hle⟩)]
  have hst := h.setStage (j := 1) (by omega)
    (b := (s.stages.get 1).setChannel 0 fun i =>
      if sb * 2^c.M ≤ i ∧ i < sb * 2^c.M + 2^c.M then 0
      else onSet (InBlk c.M sb) (down c.M) ((s.stages.get 1).get 0) i)
    (h.get_shape (j := 1) (by omega))
    (A' := A) (B' := fun i => if InBlk c.M sb i then 0 else B i) (C' := C) (by intro i _; simp)
    (by
      intro i hi
      rw [if_pos rfl, get_setChannel_same (by rw [hnp]; exact hi)]
      by_cases hin : InBlk c.M sb i
      · rw [if_pos hin]; exact (if_pos hin).symm
      · rw [if_neg hin]; refine ((if_neg hin).trans ?_).symm
        rw [onSet, if_neg hin, h.hB i hi])
    (by intro i _; simp)
  refine ⟨_, rfl, { hst with fdlK := h.fdlK, fdlh := h.fdlh, fdl := ?_, hF := ?_ }⟩
  · intro i hi
    simp only [FDL.setOffset]
    by_cases e : i = s.fdl.idx 0
    · subst e; rw [Function.update_self]; exact hf
    · rw [Function.update_of_ne e]; exact h.fdl i hi
  · intro i hi k hk
    have hi' : (FDL.setOffset s.fdl 0 ((s.fdl.line (s.fdl.idx 0)).setChannel 0 fun i =>
      if sb * 2^c.M ≤ i ∧ i < sb * 2^c.M + 2^c.M then
        onSet (InBlk c.M sb) (down c.M) ((s.stages.get 1).get 0) i
      else (s.fdl.line (s.fdl.idx 0)).get 0 i)).idx i = s.fdl.idx i := rfl
    simp only [hi']
    simp only [FDL.setOffset]
    by_cases e : i = 0
    · subst e
      rw [Function.update_self, get_setChannel_same (by rw [hf.2]; exact hk)]
      simp only [true_and, InBlk]
      split
      · next hin =>
        rw [onSet, if_pos (by exact hin)]
        refine down_congrOn (S := InBlk c.M sb) (fun a ha => closed_InBlk ha) (fun j hj => ?_) k hin
        exact h.hB j (lt_of_lt_of_le hj.2 hle)
      · exact h.hF 0 hi k hk
    · rw [Function.update_of_ne]
      · simp only [e, false_and, if_false]
        exact h.hF i hi k hk
      · intro hc
        apply e
        unfold FDL.idx at hc
        rw [h.fdlK] at hc
        exact fdl_idx_inj h.fdlh hi hK hc

theorem Rep.accumulate (h : Rep c ph A B C F T s) {o hf : ℕ} (hle : o + hf ≤ 2^c.n) :
    ∃ s', s.accumulate o hf = some s' ∧
      Rep c ph A (fun j => if o ≤ j ∧ j < o + hf then
        B j + ∑ i ∈ range c.K, F i j * down c.n (c.H i) j else B j) C F T s' := by
  have hnp := (h.get_shape (j := 1) (by omega)).2
  have hK := h.hK
  have main : ∀ k ≤ c.K, ∀ d : ℕ → ℂ, ∃ d', (List.range k).foldlM (s.accumulateOne o hf) d = some d' ∧
      ∀ j, d' j = if o ≤ j ∧ j < o + hf then d j + ∑ i ∈ range k, F i j * down c.n (c.H i) j else d j := by
    intro k hk d
    induction k with
    | zero => exact ⟨d, rfl, fun j => by simp⟩
    | succ k ih =>
      obtain ⟨d', h1, h2⟩ := ih (by omega)
      rw [List.range_succ, List.foldlM_append, h1]
      simp only [Option.bind_eq_bind, Option.bind_some, List.foldlM_cons, List.foldlM_nil]
      have hidx : s.fdl.idx k < c.K := by unfold FDL.idx; rw [h.fdlK]; exact Nat.mod_lt _ hK
      have hfd := h.fdl _ hidx
      have hfl := h.filt k (by omega)
      unfold TDUPC.accumulateOne
      simp only [FDL.getOffset, h.fdlK, Option.bind_eq_bind]
      rw [if_neg (by omega)]
      simp only [Option.bind_some, CBuf.pointer, hfd.1, zero_lt_one, if_true, h.Kf]
      rw [if_pos (by omega : k < c.K)]
      simp only [hfl.2.1, if_true, Option.bind_some]
      rw [if_pos (by rw [hfd.2, hfl.1, hnp]; exact ⟨hle, hle, hle⟩)]
      refine ⟨_, rfl, fun j => ?_⟩
      simp only [h2]
      split
      · next hj =>
        rw [sum_range_succ, h.hF k (by omega) j (by omega), hfl.2.2 j (by omega), add_assoc]
      · rfl
  obtain ⟨d', h1, h2⟩ := main c.K le_rfl ((s.stages.get 1).get 0)
  unfold TDUPC.accumulate
  rw [← h.K] at h1
  simp only [h.pointer (j := 1) (by omega), Option.bind_eq_bind, Option.bind_some, h1]
  refine ⟨_, rfl, h.setStage (j := 1) (by norm_num) (b := CBuf.setChannel _ _ _) (h.get_shape (j := 1) (by omega)) ?_ ?_ ?_⟩
  · intro i _; simp
  · intro i hi
    rw [if_pos rfl, get_setChannel_same (by rw [hnp]; exact hi), h2, h.hB i hi]
  · intro i _; simp

theorem Rep.subInverse (h : Rep c ph A B C F T s) {sb : ℕ} (hs : sb < 2^c.nd) {w : ℕ} (hw : w = 2*sb+1) :
    ∃ s', s.subInverse w (2^c.M) = some s' ∧
      Rep c ph A (fun j => if InBlk c.M sb j then up c.M B j else B j) C F T s' := by
  have hle := h.piece_le hs
  have hnp := (h.get_shape (j := 1) (by omega)).2
  unfold TDUPC.subInverse
  have e : (w - 1) / 2 = sb := by omega
  simp only [h.pointer (j := 1) (by omega), Option.bind_eq_bind, Option.bind_some, e,
    inverseFFT_eq (M := c.M) (s := sb) (sz := (s.stages.get 1).np) (by rw [hnp]; exact hle)]
  refine ⟨_, rfl, h.setStage (j := 1) (by norm_num) (b := CBuf.setChannel _ _ _) (h.get_shape (j := 1) (by omega)) ?_ ?_ ?_⟩
  · intro i _; simp
  · intro i hi
    rw [if_pos rfl, get_setChannel_same (by rw [hnp]; exact hi), onSet]
    split
    · next hin =>
      refine (up_congrOn (S := InBlk c.M sb) (fun a ha => closed_InBlk ha) (fun j hj => ?_) i hin).symm
      exact h.hB j (lt_of_lt_of_le hj.2 hle)
    · exact (h.hB i hi).symm
  · intro i _; simp

end Zones.Proofs
