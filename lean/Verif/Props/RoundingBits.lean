import Verif.Proofs.RMulti

/-!
# Whatever the arithmetic rounds to: results that agree bit for bit (C67, C68)

Nothing is assumed of the arithmetic here (`[Arith]` is arbitrary), except in C68 that operations on zeros give zero.
-/

open Finset Zones.Spec Zones.Model Zones.Proofs Zones.Proofs.R

namespace Zones.Props

variable [Arith]

/-- Phases `0 .. k-1` of feeding a partition `x`, block by block, into a cleared buffer, calling
`ForwardDecompositionSchedule` after each block (the caller's part of TimeDistributedUPC.cpp:47-54). -/
noncomputable def feedForwardR (sz b p nd : ℕ) (x : ℕ → ℂ) (k : ℕ) : Option (ℕ → ℂ) :=
  (List.range k).foldlM (fun d ph =>
    forwardScheduleR sz nd (2^(b+p+1)) (2^p)
      (fun i => if ph * 2^b ≤ i ∧ i < (ph+1) * 2^b then x i else d i) ph) (fun _ => 0)

/-- The forward transforms of the `k` first pieces of `2^M` points (TimeDistributedUPC.cpp:68-79). -/
noncomputable def piecesForwardR (sz M k : ℕ) (d : ℕ → ℂ) : Option (ℕ → ℂ) :=
  (List.range k).foldlM (fun d s => forwardFFTUnorderedR sz (s * 2^M) (2^M) d) d

/-- The inverse transforms of the `k` first pieces of `2^M` points (TimeDistributedUPC.cpp:94-98). -/
noncomputable def piecesInverseR (sz M k : ℕ) (d : ℕ → ℂ) : Option (ℕ → ℂ) :=
  (List.range k).foldlM (fun d s => inverseFFTUnorderedR sz (s * 2^M) (2^M) d) d

theorem feedForwardR_inv {sz b p nd : ℕ} {x : ℕ → ℂ} (hx : ∀ i ≥ 2^(b+p), x i = 0)
    (hnd : nd ≤ p + 1) (hsz : 2^(b+p+1) ≤ sz) (k : ℕ) (hk : k < 2^p) :
    ∃ d, feedForwardR sz b p nd x (k+1) = some d ∧ R.FwdSched b p nd x k nd d := by
  induction k with
  | zero =>
    obtain ⟨d', h1, h2, _⟩ := R.FwdSched_phase (sz := sz) hx hnd (ph := 0) (by positivity) hsz
      (R.FwdSched_init (b := b) (p := p) (nd := nd) (x := x)
        (d := fun i => if 0 * 2^b ≤ i ∧ i < (0+1) * 2^b then x i else 0)
        (fun i _ => by simp [arrived]))
    refine ⟨d', ?_, h2⟩
    simp only [feedForwardR, zero_add, List.range_one, List.foldlM_cons, List.foldlM_nil]
    rw [zero_add] at h1
    rw [h1]; rfl
  | succ k ih =>
    obtain ⟨d, h1, h2⟩ := ih (by omega)
    obtain ⟨d', h3, h4, _⟩ := R.FwdSched_phase (sz := sz) hx hnd (ph := k+1) hk hsz
      (R.FwdSched_next (d' := fun i => if (k+1) * 2^b ≤ i ∧ i < (k+1+1) * 2^b then x i else d i) hk h2
        (fun i _ => rfl))
    refine ⟨d', ?_, h4⟩
    unfold feedForwardR at h1 ⊢
    rw [List.range_succ, List.foldlM_append, h1]
    simp only [Option.bind_eq_bind, Option.bind_some, List.foldlM_cons, List.foldlM_nil]
    rw [h3]; rfl

/-- transforming all pieces -/
theorem pieces_fold {sz M : ℕ} {T : (ℕ → ℂ) → ℕ → ℂ} {call : (ℕ → ℂ) → ℕ → Option (ℕ → ℂ)}
    (hcall : ∀ s d, s * 2^M + 2^M ≤ sz → call d s = some (onSet (InBlk M s) T d))
    (hT : ∀ s d d', (∀ j, InBlk M s j → d j = d' j) → ∀ j, InBlk M s j → T d j = T d' j) (k : ℕ) (hk : k * 2^M ≤ sz) (d : ℕ → ℂ) :
    ∃ d', (List.range k).foldlM call d = some d' ∧ (∀ i < k * 2^M, d' i = T d i) ∧ ∀ i, k * 2^M ≤ i → d' i = d i := by
  induction k with
  | zero => exact ⟨d, rfl, fun i hi => by omega, fun _ _ => rfl⟩
  | succ k ih =>
    have e : (k+1) * 2^M = k * 2^M + 2^M := by ring
    have hM : (0:ℕ) < 2^M := by positivity
    obtain ⟨d1, h1, h2, h3⟩ := ih (by omega)
    refine ⟨onSet (InBlk M k) T d1, ?_, ?_, ?_⟩
    · rw [List.range_succ, List.foldlM_append, h1]
      simp only [Option.bind_eq_bind, Option.bind_some, List.foldlM_cons, List.foldlM_nil]
      rw [hcall k d1 (by omega)]; rfl
    · intro i hi
      unfold onSet
      by_cases hb : InBlk M k i
      · rw [if_pos hb]
        exact hT k _ _ (fun j hj => h3 j (by have := hj.1; omega)) i hb
      · rw [if_neg hb]
        apply h2
        unfold InBlk at hb
        omega
    · intro i hi
      unfold onSet
      rw [if_neg (by unfold InBlk; omega), h3 i (by omega)]

/-- **C67 (forward).** Distributing a transform over time does not change a single bit: for every arithmetic of samples, running the
decomposition schedule phase by phase while the blocks arrive, and then transforming the `2^nd` pieces, leaves in the buffer
exactly what one call of `ForwardFFTUnordered` on the complete zero-padded partition computes. -/
theorem C67_distributed_forward_is_bit_exact (sz b p nd : ℕ) (hnd : 2^nd ≤ 2^p) (hsz : 2^(b+p+1) ≤ sz)
    (x : ℕ → ℂ) (hx : ∀ i ≥ 2^(b+p), x i = 0) :
    ∃ d r whole, feedForwardR sz b p nd x (2^p) = some d ∧
      piecesForwardR sz (b+p+1-nd) (2^nd) d = some r ∧
      forwardFFTUnorderedR sz 0 (2^(b+p+1)) x = some whole ∧
      ∀ i < 2^(b+p+1), r i = whole i := by
  have hnd' : nd ≤ p := (Nat.pow_le_pow_iff_right (by norm_num)).mp hnd
  have hp : 0 < 2^p := by positivity
  have hpc : 2^nd * 2^(b+p+1-nd) = 2^(b+p+1) := by rw [← pow_add]; congr 1; omega
  obtain ⟨d, h1, h2⟩ := feedForwardR_inv (sz := sz) (nd := nd) hx (by omega) hsz (2^p - 1) (by omega)
  rw [Nat.sub_add_cancel hp] at h1
  obtain ⟨r, h3, h4, _⟩ := pieces_fold (sz := sz) (M := b+p+1-nd) (T := R.down (b+p+1-nd))
    (call := fun d s => forwardFFTUnorderedR sz (s * 2^(b+p+1-nd)) (2^(b+p+1-nd)) d)
    (fun s d hs => R.forwardFFT_eq hs d)
    (fun s d d' h j hj => R.down_congrOn (S := InBlk (b+p+1-nd) s) (fun a ha => closed_InBlk ha) h j hj)
    (2^nd) (by rw [hpc]; exact hsz) d
  have h5 := R.forwardFFT_eq (M := b+p+1) (s := 0) (sz := sz) (by rw [zero_mul, zero_add]; exact hsz) x
  rw [zero_mul] at h5
  refine ⟨d, r, _, h1, h3, h5, fun i hi => ?_⟩
  rw [onSet, if_pos ⟨by omega, by omega⟩, h4 i (by rw [hpc]; exact hi), ← R.down_Fl (l := nd) (by omega) x]
  obtain ⟨s, hs⟩ : ∃ s, InBlk (b+p+1-nd) s i := by
    refine ⟨i / 2^(b+p+1-nd), ?_, ?_⟩
    · exact Nat.div_mul_le_self _ _
    · have := Nat.lt_div_mul_add (a := i) (b := 2^(b+p+1-nd)) (by positivity)
      exact this
  refine R.down_congrOn (S := fun j => InBlk (b+p+1-nd) s j) (fun a ha => closed_InBlk ha) (fun j hj => ?_) i hs
  refine R.FwdSched_final hx (by omega) h2 j ?_
  have e1 : s < 2^nd := by
    by_contra hc
    have := Nat.mul_le_mul_right (2^(b+p+1-nd)) (Nat.le_of_not_lt hc)
    have := hs.1
    omega
  have e2 := Nat.mul_le_mul_right (2^(b+p+1-nd)) (show s + 1 ≤ 2^nd from e1)
  rw [Nat.add_mul, one_mul] at e2
  have := hj.2
  omega

/-- **C67 (inverse).** The same for the way back: inverse transforms of the `2^nd` pieces followed by the phases of
`InverseDecompositionSchedule` deliver, in both halves of the buffer, each block in its phase, bit for bit what one call of
`InverseFFTUnordered` on the whole buffer computes. -/
theorem C67_distributed_inverse_is_bit_exact (sz b p nd : ℕ) (hnd : 2^nd ≤ 2^p) (hsz : 2^(b+p+1) ≤ sz) (y : ℕ → ℂ) (k : ℕ) :
    ∃ d r whole, piecesInverseR sz (b+p+1-nd) (2^nd) y = some d ∧
      (List.range k).foldlM (fun d ph => inverseScheduleR sz nd (2^(b+p+1)) (2^p) d ph) d = some r ∧
      inverseFFTUnorderedR sz 0 (2^(b+p+1)) y = some whole ∧
      ∀ block < k, block < 2^p → ∀ s < 2^b,
        r (block * 2^b + s) = whole (block * 2^b + s) ∧
        r (2^(b+p) + (block * 2^b + s)) = whole (2^(b+p) + (block * 2^b + s)) := by
  have hnd' : nd ≤ p := (Nat.pow_le_pow_iff_right (by norm_num)).mp hnd
  have hpc : 2^nd * 2^(b+p+1-nd) = 2^(b+p+1) := by rw [← pow_add]; congr 1; omega
  obtain ⟨d, h3, h4, _⟩ := pieces_fold (sz := sz) (M := b+p+1-nd) (T := R.up (b+p+1-nd))
    (call := fun d s => inverseFFTUnorderedR sz (s * 2^(b+p+1-nd)) (2^(b+p+1-nd)) d)
    (fun s d hs => R.inverseFFT_eq hs d)
    (fun s d d' h j hj => R.up_congrOn (S := InBlk (b+p+1-nd) s) (fun a ha => closed_InBlk ha) h j hj)
    (2^nd) (by rw [hpc]; exact hsz) y
  have h5 := R.inverseFFT_eq (M := b+p+1) (s := 0) (sz := sz) (by rw [zero_mul, zero_add]; exact hsz) y
  rw [zero_mul] at h5
  have hG : ∀ m < nd, (fun m => R.up (b+p+1-m) y) m = R.ilev (2^(b+p-m)) ((fun m => R.up (b+p+1-m) y) (m+1)) := by
    intro m hm
    have e : b + p + 1 - m = (b + p + 1 - (m+1)) + 1 := by omega
    simp only
    rw [e, R.up]
    congr 2
    omega
  have main : ∀ k, ∃ r, (List.range k).foldlM
        (fun d ph => inverseScheduleR sz nd (2^(b+p+1)) (2^p) d ph) d = some r ∧
      R.InvSched b p nd (fun m => R.up (b+p+1-m) y) k nd r := by
    intro k
    induction k with
    | zero =>
      refine ⟨d, rfl, R.InvSched_init fun i hi => ?_⟩
      exact h4 i (by rw [hpc]; exact hi)
    | succ k ih =>
      obtain ⟨r, h1, h2⟩ := ih
      obtain ⟨r', h3, h4, _⟩ := R.InvSched_phase (sz := sz) hG (by omega) hsz h2
      refine ⟨r', ?_, h4⟩
      rw [List.range_succ, List.foldlM_append, h1]
      simp only [Option.bind_eq_bind, Option.bind_some, List.foldlM_cons, List.foldlM_nil]
      rw [h3]; rfl
  obtain ⟨r, h1, h2⟩ := main k
  refine ⟨d, r, _, h3, h1, h5, fun block hb hbp s hs => ?_⟩
  have hlt : block * 2^b + s < 2^(b+p) := by
    rw [pow_add, mul_comm (2^b) (2^p)]
    calc block * 2^b + s < block * 2^b + 2^b := by omega
      _ = (block+1) * 2^b := by ring
      _ ≤ 2^p * 2^b := Nat.mul_le_mul_right _ hbp
  have hdiv : (block * 2^b + s) / 2^b = block := by
    apply Nat.div_eq_of_lt_le
    · omega
    · rw [Nat.add_mul]; omega
  have e2 : (2:ℕ)^(b+p+1) = 2^(b+p) + 2^(b+p) := by rw [pow_succ]; ring
  constructor
  · rw [onSet, if_pos ⟨by omega, by omega⟩]
    apply R.InvSched_read (by omega) h2 _ (by omega)
    rw [Nat.mod_eq_of_lt hlt, hdiv]; exact hb
  · rw [onSet, if_pos ⟨by omega, by omega⟩]
    apply R.InvSched_read (by omega) h2 _ (by omega)
    rw [Nat.add_mod_left, Nat.mod_eq_of_lt hlt, hdiv]; exact hb

/-- A case of C67 with binary32 rounding: blocks of 4 samples, 8 blocks to a partition, 4 pieces of 16 points,
the partition 1/3, 2/3, ..., 32/3. -/
example (twF twI : ℕ → ℕ → ℂ) :
    letI := Arith.rounded round24 twF twI
    ∃ d r whole, feedForwardR 64 2 3 2 (fun i => if i < 32 then ((i + 1) / 3 : ℂ) else 0) 8 = some d ∧
      piecesForwardR 64 4 4 d = some r ∧
      forwardFFTUnorderedR 64 0 64 (fun i => if i < 32 then ((i + 1) / 3 : ℂ) else 0) = some whole ∧
      ∀ i < 64, r i = whole i :=
  letI := Arith.rounded round24 twF twI
  C67_distributed_forward_is_bit_exact 64 2 3 2 (by norm_num) (by norm_num) _
    (fun i hi => by rw [if_neg (by norm_num at hi ⊢; omega)])

/-- The same case on the way back. -/
example (twF twI : ℕ → ℕ → ℂ) (y : ℕ → ℂ) :
    letI := Arith.rounded round24 twF twI
    ∃ d r whole, piecesInverseR 64 4 4 y = some d ∧
      (List.range 8).foldlM (fun d ph => inverseScheduleR 64 2 64 8 d ph) d = some r ∧
      inverseFFTUnorderedR 64 0 64 y = some whole ∧
      ∀ block < 8, block < 8 → ∀ s < 4,
        r (block * 4 + s) = whole (block * 4 + s) ∧ r (32 + (block * 4 + s)) = whole (32 + (block * 4 + s)) :=
  letI := Arith.rounded round24 twF twI
  C67_distributed_inverse_is_bit_exact 64 2 3 2 (by norm_num) (by norm_num) y 8

end Zones.Props
