import Verif.Proofs.FFTMore

/-!
# Properties C09, C10, C11, C12, C15: the unordered FFT and its decompositions

`sz` is the number of elements of the buffer behind the pointer, `d` its contents, and the result
`none` would be an access outside the buffer or a failed assertion.
-/

open Finset Zones.Spec Zones.Model Zones.Proofs

namespace Zones.Props

/-- **C09.** `ForwardFFTUnordered` on a power of two number of points leaves at position `k` the DFT
coefficient whose index is the bit reversal of `k`, and nothing else of the buffer changes. -/
theorem C09_forward_is_bitreversed_dft (n sz : ℕ) (hsz : 2^n ≤ sz) (d : ℕ → ℂ) :
    ∃ r, forwardFFTUnordered sz 0 (2^n) d = some r ∧
      (∀ k < 2^n, r k = dft (2^n) d (bitrev n k)) ∧ (∀ k ≥ 2^n, r k = d k) := by
  have h := forwardFFT_eq (M := n) (s := 0) (sz := sz) (by omega) d
  rw [Nat.zero_mul] at h
  refine ⟨_, h, fun k hk => ?_, fun k hk => ?_⟩
  · simp only [onSet, InBlk, Nat.zero_mul, zero_add, zero_le, true_and, hk, if_true]
    exact down_dft n d k hk
  · simp only [onSet, InBlk, Nat.zero_mul, zero_add, zero_le, true_and]
    rw [if_neg (by omega)]

/-- The specification function `bitrev` is what its name says. -/
theorem C09_bitrev_spec (l s b : ℕ) :
    (bitrev l s).testBit b = (decide (b < l) && s.testBit (l - 1 - b)) := bitrev_testBit l s b

/-- A concrete case: eight points in a buffer of ten; position 1 receives coefficient 4. -/
example : bitrev 3 1 = 4 ∧ bitrev 3 6 = 3 ∧ 2^3 ≤ 10 := by decide

/-- **C10.** `InverseFFTUnordered` undoes `ForwardFFTUnordered` exactly, on any aligned range of a
buffer, and both change nothing outside the range. -/
theorem C10_inverse_undoes_forward (n s sz : ℕ) (hsz : s * 2^n + 2^n ≤ sz) (d : ℕ → ℂ) :
    ∃ r, forwardFFTUnordered sz (s * 2^n) (2^n) d = some r ∧
      inverseFFTUnordered sz (s * 2^n) (2^n) r = some d ∧
      (∀ k, k < s * 2^n ∨ s * 2^n + 2^n ≤ k → r k = d k) := by
  refine ⟨_, forwardFFT_eq hsz d, ?_, fun k hk => ?_⟩
  · rw [inverseFFT_eq hsz]
    rw [onSet_onSet (fun d d' h => up_congrOn (S := InBlk n s) (fun a ha => closed_block ha) h)]
    refine congrArg some (funext fun x => ?_)
    unfold onSet; split
    · exact congrFun (up_down n d) x
    · rfl
  · unfold onSet; rw [if_neg]; unfold InBlk; omega

/-- **C10**, other direction. -/
theorem C10_forward_undoes_inverse (n s sz : ℕ) (hsz : s * 2^n + 2^n ≤ sz) (d : ℕ → ℂ) :
    ∃ r, inverseFFTUnordered sz (s * 2^n) (2^n) d = some r ∧
      forwardFFTUnordered sz (s * 2^n) (2^n) r = some d ∧
      (∀ k, k < s * 2^n ∨ s * 2^n + 2^n ≤ k → r k = d k) := by
  refine ⟨_, inverseFFT_eq hsz d, ?_, fun k hk => ?_⟩
  · rw [forwardFFT_eq hsz]
    rw [onSet_onSet (fun d d' h => down_congrOn (S := InBlk n s) (fun a ha => closed_block ha) h)]
    refine congrArg some (funext fun x => ?_)
    unfold onSet; split
    · exact congrFun (down_up n d) x
    · rfl
  · unfold onSet; rw [if_neg]; unfold InBlk; omega

/-- A concrete case: the third block of 4 points in a buffer of 16. -/
example : 2 * 2^2 + 2^2 ≤ 16 := by decide

/-- **C11** (forward). Running every step of a decomposition exactly once, in any order `σ` and for any
power-of-two number of steps that divides the half segment, equals the single-step call. -/
theorem C11_forward_steps_any_order (n l s sz : ℕ) (hl : l < n) (hs : s ≤ n - 1 - l)
    (hsz : 2^n ≤ sz) (σ : List ℕ) (hσ : σ.Perm (List.range (2^s))) (d : ℕ → ℂ) :
    σ.foldlM (fun d step => segmentedForward sz (2^n) (2^l) (2^s) step d) d
      = segmentedForward sz (2^n) (2^l) 1 0 d ∧
    (segmentedForward sz (2^n) (2^l) 1 0 d).isSome := by
  have hmem : ∀ c, c ∈ σ ↔ c < 2^s := fun c => by rw [hσ.mem_iff, List.mem_range]
  rw [segForward_steps hl hs hsz σ (hσ.nodup_iff.mpr List.nodup_range) (fun c hc => (hmem c).mp hc),
    segForward_one hl hsz]
  refine ⟨congrArg some (funext fun x => ?_), rfl⟩
  simp only [onSet, hmem, div_range_mem hs x, and_true]

/-- **C11** (inverse). -/
theorem C11_inverse_steps_any_order (n l s sz : ℕ) (hl : l < n) (hs : s ≤ n - 1 - l)
    (hsz : 2^n ≤ sz) (σ : List ℕ) (hσ : σ.Perm (List.range (2^s))) (d : ℕ → ℂ) :
    σ.foldlM (fun d step => segmentedInverse sz (2^n) (2^l) (2^s) step d) d
      = segmentedInverse sz (2^n) (2^l) 1 0 d ∧
    (segmentedInverse sz (2^n) (2^l) 1 0 d).isSome := by
  have hmem : ∀ c, c ∈ σ ↔ c < 2^s := fun c => by rw [hσ.mem_iff, List.mem_range]
  rw [segInverse_steps hl hs hsz σ (hσ.nodup_iff.mpr List.nodup_range) (fun c hc => (hmem c).mp hc),
    segInverse_one hl hsz]
  refine ⟨congrArg some (funext fun x => ?_), rfl⟩
  simp only [onSet, hmem, div_range_mem hs x, and_true]

/-- Boundary of **C11**: the code's assertions also admit more steps than the half segment has points
(`num_steps <= num_points`); then a step silently does nothing, so the hypothesis `s ≤ n-1-l` is needed. -/
theorem C11_too_many_steps_do_nothing (n l s sz c : ℕ) (hl : l < n) (hs : n - 1 - l < s)
    (hsn : s ≤ n) (hc : c < 2^s) (d : ℕ → ℂ) :
    segmentedForward sz (2^n) (2^l) (2^s) c d = some d ∧
    segmentedInverse sz (2^n) (2^l) (2^s) c d = some d := by
  have hz : 2^n / 2^l / 2 / 2^s = 0 := by
    rw [Nat.pow_div hl.le (by norm_num)]
    have : (2:ℕ)^(n-l) / 2 = 2^(n-1-l) := by
      rw [show n - l = (n-1-l) + 1 by omega, pow_succ, Nat.mul_div_cancel _ (by norm_num)]
    rw [this]
    exact Nat.div_eq_of_lt (Nat.pow_lt_pow_right (by norm_num) hs)
  have hl0 : segBflies (2^n) (2^l) (2^s) c = [] := by
    simp only [segBflies, hz, List.range_zero, List.map_nil]
    simp
  constructor <;>
  · simp only [segmentedForward, segmentedInverse, decompAsserts_pow hsn hc, hl0, runLoop]
    simp

/-- A concrete case: 16 points, level 1, four steps run in the order 2,0,3,1. -/
example : [2,0,3,1].Perm (List.range (2^2)) ∧ 1 < 4 ∧ 2 ≤ 4 - 1 - 1 := by decide

/-- **C12** (forward). `l` decomposition levels followed by `ForwardFFTUnordered` on each of the `2^l`
pieces equal `ForwardFFTUnordered` on the whole buffer. -/
theorem C12_decompose_then_transform (n l sz : ℕ) (hl : l ≤ n) (hsz : 2^n ≤ sz) (d : ℕ → ℂ) :
    ((List.range l).foldlM (fun d lv => segmentedForward sz (2^n) (2^lv) 1 0 d) d >>= fun d =>
      (List.range (2^l)).foldlM
        (fun d piece => forwardFFTUnordered sz (piece * 2^(n-l)) (2^(n-l)) d) d)
      = forwardFFTUnordered sz 0 (2^n) d ∧
    (forwardFFTUnordered sz 0 (2^n) d).isSome := by
  have h := forwardFFT_eq (M := n) (s := 0) (sz := sz) (by omega) d
  rw [Nat.zero_mul] at h
  rw [levels_fold hl hsz, h]
  refine ⟨?_, rfl⟩
  simp only [Option.bind_eq_bind, Option.bind_some]
  rw [pieces_fwd hl le_rfl hsz]
  refine congrArg some (funext fun x => ?_)
  have e : 2^l * 2^(n-l) = 2^n := by rw [← pow_add]; congr 1; omega
  simp only [onSet, InBlk, Nat.zero_mul, zero_le, zero_add, true_and, e]
  by_cases hx : x < 2^n
  · simp only [hx, if_true]
    rw [← down_Fl hl d]
    exact down_congrOn (S := fun x => x < 2^n) (fun a ha => closed_lt (by omega))
      (fun y hy => if_pos hy) x hx
  · simp [hx]

/-- **C12** (inverse). `InverseFFTUnordered` on each piece followed by the inverse decomposition levels,
deepest first, equals `InverseFFTUnordered` on the whole buffer. -/
theorem C12_transform_then_recompose (n l sz : ℕ) (hl : l ≤ n) (hsz : 2^n ≤ sz) (d : ℕ → ℂ) :
    ((List.range (2^l)).foldlM
        (fun d piece => inverseFFTUnordered sz (piece * 2^(n-l)) (2^(n-l)) d) d >>= fun d =>
      (List.range l).reverse.foldlM (fun d lv => segmentedInverse sz (2^n) (2^lv) 1 0 d) d)
      = inverseFFTUnordered sz 0 (2^n) d ∧
    (inverseFFTUnordered sz 0 (2^n) d).isSome := by
  have h := inverseFFT_eq (M := n) (s := 0) (sz := sz) (by omega) d
  rw [Nat.zero_mul] at h
  rw [pieces_inv hl le_rfl hsz, h]
  refine ⟨?_, rfl⟩
  simp only [Option.bind_eq_bind, Option.bind_some]
  rw [ilevels_fold hl hsz]
  refine congrArg some (funext fun x => ?_)
  have e : 2^l * 2^(n-l) = 2^n := by rw [← pow_add]; congr 1; omega
  simp only [onSet, InBlk, Nat.zero_mul, zero_le, zero_add, true_and, e]
  by_cases hx : x < 2^n
  · simp only [hx, if_true]
    rw [← Il_up hl d]
    exact Il_congrOn (S := fun x => x < 2^n) (fun a ha => closed_lt (by omega)) hl
      (fun y hy => by rw [onSet, if_pos (by rw [e]; exact hy)]) x hx
  · simp [hx]

/-- A concrete case: 32 points, 2 levels, 4 pieces of 8. -/
example : (2:ℕ) ≤ 5 ∧ 2^2 * 2^(5-2) = 2^5 := by decide

/-- **C15.** Transform, multiply point by point, transform back: the circular convolution. -/
theorem C15_product_is_circular_convolution (n sz : ℕ) (hsz : 2^n ≤ sz) (x h : ℕ → ℂ) :
    ∃ fx fh y, forwardFFTUnordered sz 0 (2^n) x = some fx ∧
      forwardFFTUnordered sz 0 (2^n) h = some fh ∧
      inverseFFTUnordered sz 0 (2^n) (fun k => fx k * fh k) = some y ∧
      ∀ k < 2^n, y k = circConv (2^n) x h k := by
  have hx := forwardFFT_eq (M := n) (s := 0) (sz := sz) (by omega) x
  have hh := forwardFFT_eq (M := n) (s := 0) (sz := sz) (by omega) h
  rw [Nat.zero_mul] at hx hh
  refine ⟨_, _, onSet (InBlk n 0) (up n)
    (fun k => onSet (InBlk n 0) (down n) x k * onSet (InBlk n 0) (down n) h k), hx, hh, ?_, ?_⟩
  · have := inverseFFT_eq (M := n) (s := 0) (sz := sz) (by omega)
      (fun k => onSet (InBlk n 0) (down n) x k * onSet (InBlk n 0) (down n) h k)
    rw [Nat.zero_mul] at this
    exact this
  · intro k hk
    have hin : InBlk n 0 k := ⟨by omega, by omega⟩
    rw [← congrFun (up_down n (circConv (2^n) x h)) k]
    rw [onSet, if_pos hin]
    refine up_congrOn (S := fun x => x < 2^n) (fun a ha => closed_lt ha) (fun j hj => ?_) k hk
    have hj' : InBlk n 0 j := ⟨by omega, by omega⟩
    rw [down_circConv n x h j hj, onSet, if_pos hj', onSet, if_pos hj', mul_comm]

/-- **C15**, linear form: with both operands zero beyond half the transform size, the result is their
linear convolution. -/
theorem C15_zero_padded_product_is_linear_convolution (m sz : ℕ) (hsz : 2^(m+1) ≤ sz)
    (x h : ℕ → ℂ) (hx : ∀ i ≥ 2^m, x i = 0) (hh : ∀ i ≥ 2^m, h i = 0) :
    ∃ fx fh y, forwardFFTUnordered sz 0 (2^(m+1)) x = some fx ∧
      forwardFFTUnordered sz 0 (2^(m+1)) h = some fh ∧
      inverseFFTUnordered sz 0 (2^(m+1)) (fun k => fx k * fh k) = some y ∧
      ∀ k < 2^(m+1), y k = ∑ j ∈ range (2^m), if j ≤ k then h j * x (k - j) else 0 := by
  obtain ⟨fx, fh, y, h1, h2, h3, h4⟩ := C15_product_is_circular_convolution (m+1) sz hsz x h
  refine ⟨fx, fh, y, h1, h2, h3, fun k hk => ?_⟩
  rw [h4 k hk]
  unfold circConv
  have e : (2:ℕ)^(m+1) = 2^m + 2^m := by rw [pow_succ]; ring
  rw [e, sum_range_add]
  have hz : ∑ j ∈ range (2^m), h (2^m + j) * x ((k + (2^m + 2^m) - (2^m + j)) % (2^m + 2^m)) = 0 := by
    apply sum_eq_zero; intro j _; rw [hh _ (by omega), zero_mul]
  rw [hz, add_zero]
  apply sum_congr rfl
  intro j hj
  rw [mem_range] at hj
  split
  · next hjk =>
    rw [show k + (2^m + 2^m) - j = k - j + (2^m + 2^m) by omega, Nat.add_mod_right,
      Nat.mod_eq_of_lt (by omega)]
  · next hjk =>
    rw [Nat.mod_eq_of_lt (by omega), hx _ (by omega), mul_zero]

/-- A concrete case: operands of 4 samples zero-padded to 8. -/
example : (∀ i ≥ 2^2, (fun i => if i < 4 then (1:ℂ) else 0) i = 0) ∧
    (fun i => if i < 4 then (1:ℂ) else 0) 1 ≠ 0 := by
  constructor
  · intro i hi
    have : ¬ i < 4 := by omega
    simp [this]
  · simp

end Zones.Props
