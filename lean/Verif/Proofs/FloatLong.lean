import Verif.Proofs.Float

/-! # Single precision length arithmetic beyond `2^24`: how far a partition count can be off -/

open Zones.Model

namespace Zones.Proofs

theorem roundEven_le {x : ℚ} {m : ℤ} (h : x ≤ m) : roundEven x ≤ m := by
  unfold roundEven
  have h1 := Int.floor_le x
  have h2 : ⌊x⌋ ≤ m := by
    have := Int.floor_mono h
    simpa using this
  rcases lt_or_eq_of_le h2 with h3 | h3
  · simp only
    split_ifs <;> omega
  · have hx : x = m := le_antisymm h (by rw [← h3]; exact h1)
    have := roundEven_int m
    unfold roundEven at this
    rw [hx]; exact this.le

theorem roundEven_nonneg {x : ℚ} (h : 0 ≤ x) : 0 ≤ roundEven x := by
  unfold roundEven
  have : 0 ≤ ⌊x⌋ := Int.floor_nonneg.mpr h
  simp only
  split_ifs <;> omega

theorem ulp_mul_zpow {x : ℚ} (hx : 0 < x) (j : ℤ) : ulp (x * (2:ℚ)^j) = ulp x * (2:ℚ)^j := by
  have hj : (0:ℚ) < (2:ℚ)^j := zpow_pos (by norm_num) _
  have hl : Int.log 2 (x * (2:ℚ)^j) = Int.log 2 x + j := by
    have hlo := Int.zpow_log_le_self (R := ℚ) (b := 2) (by norm_num) hx
    have hhi := Int.lt_zpow_succ_log_self (R := ℚ) (b := 2) (by norm_num) x
    apply le_antisymm
    · have : Int.log 2 (x * (2:ℚ)^j) < Int.log 2 x + 1 + j := by
        rw [← Int.lt_zpow_iff_log_lt (by norm_num) (by positivity)]
        push_cast at hhi ⊢
        rw [zpow_add₀ (by norm_num) _ j]
        exact mul_lt_mul_of_pos_right hhi hj
      omega
    · rw [← Int.zpow_le_iff_le_log (by norm_num) (by positivity)]
      push_cast at hlo ⊢
      rw [zpow_add₀ (by norm_num) _ j]
      exact mul_le_mul_of_nonneg_right hlo hj.le
  unfold ulp
  rw [abs_of_pos hx, abs_of_pos (by positivity), hl, show Int.log 2 x + j - 23 = (Int.log 2 x - 23) + j by ring,
    zpow_add₀ (by norm_num)]

/-- integers of at most 24 bits, scaled by a power of two, are floats -/
theorem f32_dyadic {m : ℤ} (h0 : 0 ≤ m) (h : m ≤ 2^24) (j : ℤ) : f32 ((m:ℚ) * (2:ℚ)^j) = (m:ℚ) * (2:ℚ)^j := by
  rcases eq_or_lt_of_le h0 with h1 | h1
  · rw [← h1]; simp [f32]
  · have hm : (0:ℚ) < m := by exact_mod_cast h1
    obtain ⟨k, hk⟩ := nat_mul_ulp (x := (m:ℚ)) (k := m) rfl hm (by exact_mod_cast h)
    refine f32_of_int_ulp (m := k) ?_
    rw [ulp_mul_zpow hm]
    rw [← mul_assoc, ← hk]

/-- a positive length below `2^31` as a float: a 24 bit integer times a power of two that divides `2^8` -/
theorem f32_len {S : ℕ} (h0 : 0 < S) (h : S < 2^31) : ∃ j : ℤ, j ≤ 7 ∧ ulp (S:ℚ) = (2:ℚ)^j ∧
    0 ≤ roundEven ((S:ℚ) / (2:ℚ)^j) ∧ roundEven ((S:ℚ) / (2:ℚ)^j) ≤ 2^24 ∧
    f32 (S:ℚ) = roundEven ((S:ℚ) / (2:ℚ)^j) * (2:ℚ)^j := by
  have hS : (0:ℚ) < S := by exact_mod_cast h0
  refine ⟨Int.log 2 (S:ℚ) - 23, ?_, ?_, ?_, ?_, ?_⟩
  · have : Int.log 2 (S:ℚ) < 31 := by
      rw [← Int.lt_zpow_iff_log_lt (by norm_num) hS]
      exact_mod_cast h
    omega
  · unfold ulp; rw [abs_of_pos hS]
  · exact roundEven_nonneg (div_nonneg hS.le (zpow_pos (by norm_num) _).le)
  · refine roundEven_le ?_
    rw [div_le_iff₀ (zpow_pos (by norm_num) _)]
    have hhi := Int.lt_zpow_succ_log_self (R := ℚ) (b := 2) (by norm_num) (S:ℚ)
    refine hhi.le.trans (le_of_eq ?_)
    push_cast
    rw [show Int.log 2 (S:ℚ) + 1 = 24 + (Int.log 2 (S:ℚ) - 23) by ring, zpow_add₀ (by norm_num)]
    norm_num
  · unfold f32
    rw [if_neg hS.ne', abs_of_pos hS]

theorem fdiv_pow {S k : ℕ} (hk : k ≤ 24) (h : S < 2^31) : fdiv S (2^k : ℕ) = f32 (S:ℚ) / (2:ℚ)^k := by
  have h2 : f32 ((2^k : ℕ) : ℚ) = (2:ℚ)^k := by
    rw [f32_nat (Nat.pow_le_pow_right (by norm_num) hk)]; push_cast; rfl
  unfold fdiv
  rw [show (((S:ℕ):ℤ):ℚ) = (S:ℚ) by simp, show ((((2^k:ℕ):ℕ):ℤ):ℚ) = ((2^k:ℕ):ℚ) by simp, h2]
  rcases Nat.eq_zero_or_pos S with h0 | h0
  · subst h0; simp [f32]
  · obtain ⟨j, _, _, hm0, hm, e⟩ := f32_len h0 h
    rw [e]
    have : (roundEven ((S:ℚ) / (2:ℚ)^j) : ℚ) * (2:ℚ)^j / (2:ℚ)^k =
        (roundEven ((S:ℚ) / (2:ℚ)^j) : ℚ) * (2:ℚ)^(j - k) := by
      rw [zpow_sub₀ (by norm_num), zpow_natCast]; ring
    rw [this, f32_dyadic hm0 hm]

/-- multiples of the partition size are counted exactly -/
theorem numPartitionsFor_mul {k K : ℕ} (hk : k ≤ 24) (hK : K ≤ 2^24) : numPartitionsFor (2^k) (K * 2^k) = K := by
  unfold numPartitionsFor fdiv
  have h2 : f32 ((2^k : ℕ) : ℚ) = (2:ℚ)^k := by
    rw [f32_nat (Nat.pow_le_pow_right (by norm_num) hk)]; push_cast; rfl
  have h3 : f32 ((K * 2^k : ℕ) : ℚ) = (K:ℚ) * (2:ℚ)^k := by
    have := f32_dyadic (m := (K:ℤ)) (by positivity) (by exact_mod_cast hK) k
    rw [zpow_natCast] at this
    push_cast at this ⊢
    exact this
  rw [show (((K * 2^k : ℕ):ℤ):ℚ) = ((K * 2^k : ℕ) : ℚ) by simp, show ((((2^k:ℕ):ℕ):ℤ):ℚ) = ((2^k:ℕ):ℚ) by simp, h2, h3,
    mul_div_cancel_right₀ _ (by positivity), f32_nat hK]
  simp

/-- a partition count is never too large; it may be one too small, and then at most the `2^24`th part of the length is
left over -/
theorem numPartitionsFor_long {k S : ℕ} (hk7 : 7 ≤ k) (hk : k ≤ 24) (h : S < 2^31) :
    numPartitionsFor (2^k) S ≤ (S + 2^k - 1) / 2^k ∧ (S - numPartitionsFor (2^k) S * 2^k) * 2^24 ≤ S := by
  rcases Nat.eq_zero_or_pos S with h0 | h0
  · subst h0
    have := numPartitionsFor_mul (k := k) (K := 0) hk (by norm_num)
    rw [zero_mul] at this
    rw [this]; simp
  · obtain ⟨j, hj, hu, hm0, hm, e⟩ := f32_len h0 h
    have hS : (0:ℚ) < S := by exact_mod_cast h0
    have hP : (0:ℕ) < 2^k := by positivity
    have hjp : (0:ℚ) < (2:ℚ)^j := zpow_pos (by norm_num) _
    have hPQ : (0:ℚ) < (2:ℚ)^k := by positivity
    have hnn : 0 ≤ f32 (S:ℚ) / (2:ℚ)^k := by
      rw [e]
      have : (0:ℚ) ≤ (roundEven ((S:ℚ) / (2:ℚ)^j) : ℚ) := by exact_mod_cast hm0
      positivity
    have hc0 : 0 ≤ ⌈f32 (S:ℚ) / (2:ℚ)^k⌉ := Int.ceil_nonneg hnn
    have hnp : ((numPartitionsFor (2^k) S : ℕ) : ℤ) = ⌈f32 (S:ℚ) / (2:ℚ)^k⌉ := by
      unfold numPartitionsFor
      rw [fdiv_pow hk h, Int.toNat_of_nonneg hc0]
    set N := numPartitionsFor (2^k) S with hN
    constructor
    · set c := (S + 2^k - 1) / 2^k with hc
      have hcS : S ≤ c * 2^k := by
        have h1 := Nat.div_add_mod (S + 2^k - 1) (2^k)
        have h2 := Nat.mod_lt (S + 2^k - 1) hP
        rw [← hc] at h1
        rw [mul_comm]
        omega
      have : ⌈f32 (S:ℚ) / (2:ℚ)^k⌉ ≤ (c:ℤ) := by
        rw [Int.ceil_le, div_le_iff₀ hPQ, e]
        obtain ⟨d, hd⟩ : ∃ d : ℕ, (k:ℤ) = d + j := ⟨(k - j).toNat, by omega⟩
        have hkd : (2:ℚ)^k = (2:ℚ)^d * (2:ℚ)^j := by
          rw [← zpow_natCast, hd, zpow_add₀ (by norm_num), zpow_natCast]
        have hle : roundEven ((S:ℚ) / (2:ℚ)^j) ≤ (c:ℤ) * 2^d := by
          refine roundEven_le ?_
          rw [div_le_iff₀ hjp]
          push_cast
          rw [mul_assoc, ← hkd]
          exact_mod_cast hcS
        rw [hkd, ← mul_assoc]
        refine mul_le_mul_of_nonneg_right ?_ hjp.le
        exact_mod_cast hle
      rw [← hnp] at this
      exact_mod_cast this
    · have h1 : f32 (S:ℚ) ≤ (N:ℚ) * (2:ℚ)^k := by
        have := Int.le_ceil (f32 (S:ℚ) / (2:ℚ)^k)
        rw [← hnp, div_le_iff₀ hPQ] at this
        exact_mod_cast this
      have h2 := (abs_le.mp (f32_err (S:ℚ))).1
      have h3 : ulp (S:ℚ) / 2 * 2^24 ≤ S := by
        have hlo := Int.zpow_log_le_self (R := ℚ) (b := 2) (by norm_num) hS
        refine le_trans (le_of_eq ?_) hlo
        unfold ulp
        rw [abs_of_pos hS, zpow_sub₀ (by norm_num)]
        norm_num
        ring
      rcases Nat.le_total S (N * 2^k) with h4 | h4
      · rw [Nat.sub_eq_zero_of_le h4, zero_mul]; exact Nat.zero_le _
      · have h5 : (((S - N * 2^k : ℕ) : ℚ)) * 2^24 ≤ S := by
          rw [Nat.cast_sub h4]
          push_cast
          linarith
        exact_mod_cast h5

end Zones.Proofs
