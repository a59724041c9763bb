import Verif.Proofs.Schedule

/-!
# Properties C13 and C14: the forward and inverse decomposition schedules

Sizes: blocks of `2^b` samples, `2^p` blocks (phases) per partition, transforms of `2^(b+p+1)` points (twice
the partition), `nd` decomposition levels with `2^nd ≤ 2^p`.
The reference "nd-level decomposition" is what the one-step calls of
`SegmentedForwardDecompositionRadix2` at levels `0 .. nd-1` produce.
-/

open Finset Zones.Spec Zones.Model Zones.Proofs

namespace Zones.Props

/-- Phases `0 .. k-1` of feeding a partition `x`, block by block, into a cleared buffer, calling
`ForwardDecompositionSchedule` after each block (the caller's part of TimeDistributedUPC.cpp:41-46). -/
noncomputable def feedForward (sz b p nd : ℕ) (x : ℕ → ℂ) (k : ℕ) : Option (ℕ → ℂ) :=
  (List.range k).foldlM (fun d ph =>
    forwardSchedule sz nd (2^(b+p+1)) (2^p)
      (fun i => if ph * 2^b ≤ i ∧ i < (ph+1) * 2^b then x i else d i) ph) (fun _ => 0)

theorem feedForward_inv {sz b p nd : ℕ} {x : ℕ → ℂ} (hx : ∀ i ≥ 2^(b+p), x i = 0)
    (hnd : nd ≤ p + 1) (hsz : 2^(b+p+1) ≤ sz) (k : ℕ) (hk : k < 2^p) :
    ∃ d, feedForward sz b p nd x (k+1) = some d ∧ FwdSched b p nd x k nd d := by
  induction k with
  | zero =>
    obtain ⟨d', h1, h2, _⟩ := FwdSched_phase (sz := sz) hx hnd (ph := 0) (by positivity) hsz
      (FwdSched_init (b := b) (p := p) (nd := nd) (x := x)
        (d := fun i => if 0 * 2^b ≤ i ∧ i < (0+1) * 2^b then x i else 0)
        (fun i _ => by simp [arrived]))
    refine ⟨d', ?_, h2⟩
    simp only [feedForward, zero_add, List.range_one, List.foldlM_cons, List.foldlM_nil]
    rw [zero_add] at h1
    rw [h1]; rfl
  | succ k ih =>
    obtain ⟨d, h1, h2⟩ := ih (by omega)
    obtain ⟨d', h3, h4, _⟩ := FwdSched_phase (sz := sz) hx hnd (ph := k+1) hk hsz
      (FwdSched_next (d' := fun i => if (k+1) * 2^b ≤ i ∧ i < (k+1+1) * 2^b then x i else d i) hk h2
        (fun i _ => rfl))
    refine ⟨d', ?_, h4⟩
    unfold feedForward at h1 ⊢
    rw [List.range_succ, List.foldlM_append, h1]
    simp only [Option.bind_eq_bind, Option.bind_some, List.foldlM_cons, List.foldlM_nil]
    rw [h3]; rfl

/-- **C13.** After the last phase the buffer holds exactly the `nd`-level decomposition of the complete
zero-padded partition, although each block was only written in its own phase. -/
theorem C13_forward_schedule_complete (sz b p nd : ℕ) (hnd : 2^nd ≤ 2^p) (hsz : 2^(b+p+1) ≤ sz)
    (x : ℕ → ℂ) (hx : ∀ i ≥ 2^(b+p), x i = 0) :
    ∃ r ref, feedForward sz b p nd x (2^p) = some r ∧
      (List.range nd).foldlM (fun d lv => segmentedForward sz (2^(b+p+1)) (2^lv) 1 0 d) x
        = some ref ∧
      ∀ i < 2^(b+p+1), r i = ref i := by
  have hnd' : nd ≤ p := (Nat.pow_le_pow_iff_right (by norm_num)).mp hnd
  have hp : 0 < 2^p := by positivity
  obtain ⟨d, h1, h2⟩ := feedForward_inv (sz := sz) (nd := nd) hx (by omega) hsz (2^p - 1) (by omega)
  rw [Nat.sub_add_cancel hp] at h1
  refine ⟨d, _, h1, levels_fold (by omega) hsz x, fun i hi => ?_⟩
  rw [FwdSched_final hx (by omega) h2 i hi, onSet, if_pos hi]

/-- A concrete case: blocks of 4, 8 phases, depth 2, a partition that is not zero. -/
example : 2^2 ≤ 2^3 ∧ (∀ i ≥ 2^(2+3), (fun i => if i < 32 then (1:ℂ) else 0) i = 0) ∧
    (fun i => if i < 32 then (1:ℂ) else 0) 31 = 1 := by
  refine ⟨by decide, fun i hi => ?_, by simp⟩
  have : ¬ i < 32 := by omega
  simp [this]

/-- **C14.** Starting from the `nd`-level decomposition `D` of a buffer `z`, after the phases `0 .. k-1` of
`InverseDecompositionSchedule` every sample of the blocks `0 .. k-1`, in both halves of the buffer, has its
final value (so a block is final once its phase has run, and later phases do not change it). -/
theorem C14_inverse_schedule_delivers (sz b p nd : ℕ) (hnd : 2^nd ≤ 2^p) (hsz : 2^(b+p+1) ≤ sz)
    (z D : ℕ → ℂ)
    (hD : (List.range nd).foldlM (fun d lv => segmentedForward sz (2^(b+p+1)) (2^lv) 1 0 d) z = some D)
    (k : ℕ) :
    ∃ r, (List.range k).foldlM
        (fun d ph => inverseSchedule sz nd (2^(b+p+1)) (2^p) d ph) D = some r ∧
      ∀ block < k, block < 2^p → ∀ s < 2^b,
        r (block * 2^b + s) = z (block * 2^b + s) ∧
        r (2^(b+p) + (block * 2^b + s)) = z (2^(b+p) + (block * 2^b + s)) := by
  have hnd' : nd ≤ p := (Nat.pow_le_pow_iff_right (by norm_num)).mp hnd
  rw [levels_fold (by omega) hsz] at hD
  have hD' := Option.some.inj hD
  have main : ∀ k, ∃ r, (List.range k).foldlM
        (fun d ph => inverseSchedule sz nd (2^(b+p+1)) (2^p) d ph) D = some r ∧
      InvSched b p nd z k nd r := by
    intro k
    induction k with
    | zero =>
      refine ⟨D, rfl, InvSched_init fun i hi => ?_⟩
      rw [← hD', onSet, if_pos hi]
    | succ k ih =>
      obtain ⟨r, h1, h2⟩ := ih
      obtain ⟨r', h3, h4, _⟩ := InvSched_phase (sz := sz) (by omega) hsz h2
      refine ⟨r', ?_, h4⟩
      rw [List.range_succ, List.foldlM_append, h1]
      simp only [Option.bind_eq_bind, Option.bind_some, List.foldlM_cons, List.foldlM_nil]
      rw [h3]; rfl
  obtain ⟨r, h1, h2⟩ := main k
  refine ⟨r, h1, fun block hb hbp s hs => ?_⟩
  have hlt : block * 2^b + s < 2^(b+p) := by
    rw [pow_add, mul_comm (2^b) (2^p)]
    calc block * 2^b + s < block * 2^b + 2^b := by omega
      _ = (block+1) * 2^b := by ring
      _ ≤ 2^p * 2^b := Nat.mul_le_mul_right _ hbp
  have hdiv : (block * 2^b + s) / 2^b = block := by
    apply Nat.div_eq_of_lt_le
    · omega
    · rw [Nat.add_mul]; omega
  have e2 : (2:ℕ)^(b+p+1) = 2^(b+p) + 2^(b+p) := by rw [pow_succ]; ring
  constructor
  · apply InvSched_read (by omega) h2 _ (by omega)
    rw [Nat.mod_eq_of_lt hlt, hdiv]; exact hb
  · apply InvSched_read (by omega) h2 _ (by omega)
    rw [Nat.add_mod_left, Nat.mod_eq_of_lt hlt, hdiv]; exact hb

/-- The hypothesis of C14 is met by every buffer: the decomposition exists. -/
example (z : ℕ → ℂ) : ∃ D, (List.range 2).foldlM
    (fun d lv => segmentedForward 64 (2^(2+3+1)) (2^lv) 1 0 d) z = some D :=
  ⟨_, levels_fold (n := 2+3+1) (l := 2) (by norm_num) (by norm_num) z⟩

end Zones.Props
