import Verif.Proofs.CostConvolver

/-!
# What a call of `Convolver::Process` costs
-/

namespace Zones.Proofs
open Zones.Model Zones.Spec

variable {nch N K0 b irCh j col : ℕ} {stages : List (ℕ × ℕ)}

theorem NShape.lt {s : NUPC} (h : NShape b irCh nch N K0 stages j col s) : col < 2^b := by
  have := h.step.lt; rwa [h.col, h.B] at this

theorem NShape.reset {s : NUPC} (h : NShape b irCh nch N K0 stages j col s) : NShape b irCh nch N K0 stages j 0 s.reset := by
  refine ⟨⟨?_, h.step.part, rfl⟩, h.B, rfl, h.u.reset, ?_, ?_⟩
  · show 0 < s.blockSize
    rw [h.B]; positivity
  · intro hs
    exact h.proc fun h0 => hs (by show s.subs.map _ = []; rw [h0]; rfl)
  · show List.Forall₂ _ stages (s.subs.map _)
    rw [List.forall₂_map_right_iff]
    exact h.subs.imp fun st c hc => ⟨hc.1, hc.2.reset⟩

/-- the parts of the state the cost depends on, after `j` blocks and `col` samples of the next one -/
structure CShape (b irCh nch N K0 : ℕ) (stages : List (ℕ × ℕ)) (j col : ℕ) (s : Convolver) : Prop where
  B : s.blockSize = 2^b
  num : s.numConv = nch
  rch : s.routing.ch = nch
  nupc : NShape b irCh nch N K0 stages j col s.nupc

theorem CShape.reset {s : Convolver} (h : CShape b irCh nch N K0 stages j col s) : CShape b irCh nch N K0 stages j 0 s.reset :=
  ⟨h.B, h.num, h.rch, h.nupc.reset⟩

theorem CShape.clear {s : Convolver} (h : CShape b irCh nch N K0 stages j col s) :
    CShape b irCh nch N K0 stages j col { s with routing := s.routing.clear } := ⟨h.B, h.num, h.rch, h.nupc⟩

theorem gather_ch {s : Convolver} {out : Buf} (b : Buf) (c : ℕ) (b' : Buf) (h : Convolver.gatherOne s out b c = some b') : b'.ch = b.ch := by
  unfold Convolver.gatherOne at h
  simp only [bind, Option.bind_eq_some_iff, pure, Option.some.injEq] at h
  obtain ⟨_, _, _, _, _, _, rfl⟩ := h
  rfl

theorem cbody_costs {F : RealFFT} {s : Convolver} (h : CShape b irCh nch N K0 stages j col s) {blk : Buf} {done k : ℕ} :
    Costs (s.bodyC F blk done k) (s.body F blk done k) (nCost (stagesCost b nch stages) nch N K0 (2^b) j col k (passesIn (2^b) col k)) ∧
      ∀ r, s.body F blk done k = some r → CShape b irCh nch N K0 stages (j + (col + k) / 2^b) ((col + k) % 2^b) r.1 ∧ r.2.n = blk.n := by
  have hrs : ∀ rs0 rs, s.routing.sub 0 k = some rs0 → ∀ out, (List.range s.numConv).foldlM (Convolver.gatherOne s out) rs0 = some rs → rs.n = k ∧ rs.ch = nch := by
    intro rs0 rs e out e'
    unfold Buf.sub at e
    split_ifs at e
    cases e
    exact ⟨foldlM_keeps (size := Buf.n) gather_n _ _ _ e', (foldlM_keeps (size := Buf.ch) gather_ch _ _ _ e').trans h.rch⟩
  constructor
  · unfold Convolver.bodyC Convolver.body
    refine Costs.free_bind fun out _ => Costs.free_bind fun rs0 e0 => Costs.free_bind fun rs e1 => ?_
    obtain ⟨n1, n2⟩ := hrs rs0 rs e0 out e1
    have := (nloop_costs (F := F) rs.n h.nupc (cur := rs) (done := 0) n2 (Nat.zero_le _)).1
    rw [Nat.sub_zero] at this
    refine Costs.congr (Costs.bind (c' := 0) this fun r _ => Costs.free_bind fun o _ => Costs.pure _) ?_
    rw [add_zero, n1]
  · intro r e
    unfold Convolver.body at e
    obtain ⟨out, _, e⟩ := Option.bind_eq_some_iff.mp e
    obtain ⟨rs0, e0, e⟩ := Option.bind_eq_some_iff.mp e
    obtain ⟨rs, e1, e⟩ := Option.bind_eq_some_iff.mp e
    obtain ⟨q, e2, e⟩ := Option.bind_eq_some_iff.mp e
    obtain ⟨o, _, e⟩ := Option.bind_eq_some_iff.mp e
    cases e
    obtain ⟨n1, n2⟩ := hrs rs0 rs e0 out e1
    have := ((nloop_costs (F := F) rs.n h.nupc (cur := rs) (done := 0) n2 (Nat.zero_le _)).2 q e2).1
    rw [Nat.sub_zero, n1] at this
    exact ⟨⟨h.B, h.num, h.rch, this⟩, rfl⟩

/-- passes of the partition loop in a call with `n` samples -/
def callPasses (B col n : ℕ) : ℕ := n / B * (if col = 0 then 1 else 2) + passesIn B col (n % B)

theorem passesIn_full {B col : ℕ} (h : col < B) : passesIn B col B = if col = 0 then 1 else 2 := by
  unfold passesIn
  rw [if_neg (by omega)]
  by_cases hc : col = 0
  · subst hc
    rw [if_pos rfl, Nat.div_eq_of_lt (by omega)]
  · rw [if_neg hc, show col + B - 1 = (col - 1) + B by omega, Nat.add_div_right _ (by omega), Nat.div_eq_of_lt (by omega)]

theorem cloop_costs {F : RealFFT} : ∀ (fuel : ℕ) {s : Convolver} {cur : Buf} {j col done : ℕ},
    CShape b irCh nch N K0 stages j col s → done ≤ cur.n →
    Costs (Convolver.loopC F fuel s cur done) (Convolver.loop F fuel s cur done)
        (nCost (stagesCost b nch stages) nch N K0 (2^b) j col (cur.n - done) (callPasses (2^b) col (cur.n - done))) ∧
      ∀ r, Convolver.loop F fuel s cur done = some r →
        CShape b irCh nch N K0 stages (j + (col + (cur.n - done)) / 2^b) ((col + (cur.n - done)) % 2^b) r.1 := by
  have zero : ∀ {s : Convolver} {j col : ℕ}, CShape b irCh nch N K0 stages j col s →
      nCost (stagesCost b nch stages) nch N K0 (2^b) j col 0 (callPasses (2^b) col 0) = 0 ∧
      CShape b irCh nch N K0 stages (j + (col + 0) / 2^b) ((col + 0) % 2^b) s := by
    intro s j col h
    have hcol := h.nupc.lt
    constructor
    · unfold callPasses passesIn
      rw [Nat.zero_mod, if_pos rfl, Nat.zero_div, Nat.zero_mul, nCost_zero _ hcol]
    · rw [add_zero, Nat.div_eq_of_lt hcol, Nat.mod_eq_of_lt hcol, add_zero]
      exact h
  intro fuel
  induction fuel with
  | zero =>
    intro s cur j col done h hd
    unfold Convolver.loopC Convolver.loop
    by_cases hlt : done < cur.n
    · rw [if_pos hlt, if_pos hlt]
      exact ⟨Costs.none _, fun r e => by cases e⟩
    · rw [if_neg hlt, if_neg hlt, show cur.n - done = 0 by omega]
      exact ⟨(Costs.pure _).congr (zero h).1.symm, fun r e => by cases e; exact (zero h).2⟩
  | succ fuel ih =>
    intro s cur j col done h hd
    have hcol := h.nupc.lt
    unfold Convolver.loopC Convolver.loop
    by_cases hlt : done < cur.n
    · rw [if_pos hlt, if_pos hlt]
      simp only
      rw [h.B]
      set k := min (cur.n - done) (2^b) with hkdef
      have hP : 0 < 2^b := by positivity
      have hk0 : 0 < k := by omega
      have hkn : k ≤ cur.n - done := min_le_left ..
      obtain ⟨b1, b2⟩ := cbody_costs (F := F) h (blk := cur) (done := done) (k := k)
      have hpass : callPasses (2^b) col (cur.n - done) =
          passesIn (2^b) col k + callPasses (2^b) ((col + k) % 2^b) (cur.n - (done + k)) := by
        by_cases hz : cur.n - done < 2^b
        · rw [show k = cur.n - done by omega, show cur.n - (done + (cur.n - done)) = 0 by omega]
          unfold callPasses
          rw [Nat.div_eq_of_lt hz, Nat.mod_eq_of_lt hz, Nat.zero_div, Nat.zero_mul, Nat.zero_mul, Nat.zero_mod]
          unfold passesIn
          rw [if_pos rfl]; omega
        · have hk : k = 2^b := by omega
          rw [hk, Nat.add_mod_right, Nat.mod_eq_of_lt hcol, passesIn_full hcol]
          unfold callPasses
          rw [show cur.n - done = cur.n - (done + 2^b) + 2^b by omega, Nat.add_div_right _ hP, Nat.add_mod_right, Nat.succ_mul]
          omega
      have hcost : nCost (stagesCost b nch stages) nch N K0 (2^b) j col (cur.n - done) (callPasses (2^b) col (cur.n - done)) =
          nCost (stagesCost b nch stages) nch N K0 (2^b) j col k (passesIn (2^b) col k) +
          nCost (stagesCost b nch stages) nch N K0 (2^b) (j + (col + k) / 2^b) ((col + k) % 2^b) (cur.n - (done + k))
            (callPasses (2^b) ((col + k) % 2^b) (cur.n - (done + k))) := by
        rw [← nCost_add _ hP, show k + (cur.n - (done + k)) = cur.n - done by omega, hpass]
      constructor
      · rw [hcost]
        refine b1.bind fun r e => ?_
        obtain ⟨s1, s3⟩ := b2 r e
        have := (ih (cur := r.2) (done := done + k) s1 (by rw [s3]; omega)).1
        rw [s3] at this
        exact this
      · intro r e
        obtain ⟨q, e1, e⟩ := Option.bind_eq_some_iff.mp e
        obtain ⟨s1, s3⟩ := b2 q e1
        have t1 := (ih (cur := q.2) (done := done + k) s1 (by rw [s3]; omega)).2 r e
        rw [s3] at t1
        have e1 : (col + (cur.n - done)) / 2^b = (col + k) / 2^b + ((col + k) % 2^b + (cur.n - (done + k))) / 2^b := by
          rw [show col + (cur.n - done) = (col + k) + (cur.n - (done + k)) by omega]
          conv_lhs => rw [← Nat.div_add_mod (col + k) (2^b), add_assoc, Nat.mul_add_div hP]
        have e2 : (col + (cur.n - done)) % 2^b = ((col + k) % 2^b + (cur.n - (done + k))) % 2^b := by
          rw [Nat.mod_add_mod]; congr 1; omega
        rw [e1, e2, ← add_assoc]
        exact t1
    · rw [if_neg hlt, if_neg hlt, show cur.n - done = 0 by omega]
      exact ⟨(Costs.pure _).congr (zero h).1.symm, fun r e => by cases e; exact (zero h).2⟩

/-- a call -/
theorem process_costs {F : RealFFT} {s : Convolver} (h : CShape b irCh nch N K0 stages j col s) (blk : Buf) :
    Costs (s.processC F blk) (s.process F blk) (nCost (stagesCost b nch stages) nch N K0 (2^b) j col blk.n (callPasses (2^b) col blk.n)) ∧
      ∀ r, s.process F blk = some r → CShape b irCh nch N K0 stages (j + (col + blk.n) / 2^b) ((col + blk.n) % 2^b) r.1 := by
  have := cloop_costs (F := F) blk.n h.clear (cur := blk) (done := 0) (Nat.zero_le _)
  rw [Nat.sub_zero] at this
  exact this

/-- a history -/
theorem history_shape {F : RealFFT} : ∀ (ops : List Op) {s s' : Convolver} {t j : ℕ}, CShape b irCh nch N K0 stages j (t % 2^b) s →
    history (Convolver.process F) Convolver.reset s ops = some s' →
    CShape b irCh nch N K0 stages (blocksCompleted (2^b) t j ops) (samplesSinceReset t ops % 2^b) s'
  | [], s, s', t, j, h, e => by cases e; exact h
  | .process blk :: ops, s, s', t, j, h, e => by
    unfold history at e
    cases e1 : s.process F blk with
    | none => rw [e1] at e; cases e
    | some r =>
      rw [e1] at e
      have := (process_costs h blk).2 r e1
      rw [Nat.mod_add_mod] at this
      exact history_shape ops this e
  | .reset :: ops, s, s', t, j, h, e => by
    have := h.reset
    rw [← Nat.zero_mod (2^b)] at this
    exact history_shape ops (t := 0) this e

end Zones.Proofs
