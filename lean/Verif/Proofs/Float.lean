import Verif.Model.Partitioning

/-! # Single precision length arithmetic is exact up to `2^24` -/

open Zones.Model

namespace Zones.Proofs

theorem roundEven_int (m : ℤ) : roundEven (m : ℚ) = m := by
  unfold roundEven
  simp

theorem roundEven_err (x : ℚ) : |(roundEven x : ℚ) - x| ≤ 1/2 := by
  unfold roundEven
  have h1 := Int.floor_le x
  have h2 := Int.lt_floor_add_one x
  simp only
  split_ifs with h3 h4 h5 <;> rw [abs_le] <;> constructor <;> push_cast <;> linarith

/-- the unit in the last place of `x` -/
noncomputable def ulp (x : ℚ) : ℚ := (2:ℚ) ^ (Int.log 2 |x| - 23)

theorem ulp_pos (x : ℚ) : 0 < ulp x := zpow_pos (by norm_num) _

theorem f32_of_int_ulp {x : ℚ} {m : ℤ} (h : x = m * ulp x) : f32 x = x := by
  unfold f32
  split
  · next h0 => rw [h0]
  · have : x / (2:ℚ) ^ (Int.log 2 |x| - 23) = m := by
      exact (div_eq_iff (ulp_pos x).ne').mpr h
    simp only
    rw [this, roundEven_int]
    exact h.symm

theorem f32_err (x : ℚ) : |f32 x - x| ≤ ulp x / 2 := by
  unfold f32
  split
  · next h0 => rw [h0, sub_zero, abs_zero]; linarith [ulp_pos 0]
  · have hu := ulp_pos x
    have := roundEven_err (x / ulp x)
    have e : (roundEven (x / ulp x) : ℚ) * ulp x - x = ((roundEven (x / ulp x) : ℚ) - x / ulp x) * ulp x := by
      rw [sub_mul, div_mul_cancel₀ _ hu.ne']
    show |(roundEven (x / ulp x) : ℚ) * ulp x - x| ≤ _
    rw [e, abs_mul, abs_of_pos hu]
    nlinarith

/-- natural numbers up to `2^24` are floats; more generally multiples of the ulp are -/
theorem nat_mul_ulp {x : ℚ} {k : ℤ} (hx : x = k) (h0 : 0 < x) (h24 : x ≤ 2^24) : ∃ m : ℤ, x = m * ulp x := by
  have hlog : Int.log 2 |x| ≤ 24 := by
    rw [abs_of_pos h0]
    have h1 : Int.log 2 x ≤ Int.log 2 ((2:ℚ)^(24:ℤ)) := Int.log_mono_right h0 (by exact_mod_cast h24)
    have h2 : Int.log 2 ((2:ℚ)^(24:ℤ)) = 24 := by
      have := Int.log_zpow (R := ℚ) (b := 2) (by norm_num) 24
      exact_mod_cast this
    rw [h2] at h1; exact h1
  rcases lt_or_eq_of_le hlog with hlt | heq
  · obtain ⟨d, hd⟩ : ∃ d : ℕ, (d:ℤ) = 23 - Int.log 2 |x| := ⟨(23 - Int.log 2 |x|).toNat, by omega⟩
    refine ⟨k * 2^d, ?_⟩
    have : ulp x = ((2:ℚ)^d)⁻¹ := by
      unfold ulp
      rw [show Int.log 2 |x| - 23 = -(d:ℤ) by omega, zpow_neg, zpow_natCast]
    rw [this]; push_cast
    rw [mul_assoc, mul_inv_cancel₀ (by positivity), mul_one, hx]
  · have hge : (2:ℚ)^(24:ℤ) ≤ x := by
      have := Int.zpow_log_le_self (b := 2) (by norm_num) h0
      rw [abs_of_pos h0] at heq
      rw [heq] at this; exact_mod_cast this
    have hx24 : x = 2^24 := le_antisymm h24 (by exact_mod_cast hge)
    refine ⟨2^23, ?_⟩
    unfold ulp
    rw [heq, hx24]; norm_num

theorem f32_nat {n : ℕ} (h : n ≤ 2^24) : f32 (n : ℚ) = n := by
  rcases Nat.eq_zero_or_pos n with h0 | h0
  · subst h0; simp [f32]
  · obtain ⟨m, hm⟩ := nat_mul_ulp (x := (n:ℚ)) (k := n) (by simp) (by exact_mod_cast h0) (by exact_mod_cast h)
    exact f32_of_int_ulp hm

/-- rounding a quotient never moves it to or past an integer -/
theorem f32_div_sep {a b : ℕ} (ha : 0 < a) (hb : 0 < b) (ha' : a ≤ 2^24) (k : ℤ) :
    (((a:ℚ)/b = k) → f32 ((a:ℚ)/b) = k) ∧ ((k:ℚ) < (a:ℚ)/b → (k:ℚ) < f32 ((a:ℚ)/b)) ∧
      ((a:ℚ)/b < k → f32 ((a:ℚ)/b) < k) := by
  have hbQ : (0:ℚ) < b := by exact_mod_cast hb
  have haQ : (0:ℚ) < a := by exact_mod_cast ha
  have hx0 : 0 < (a:ℚ)/b := by positivity
  have hx24 : (a:ℚ)/b ≤ 2^24 := by
    rw [div_le_iff₀ hbQ]
    have h1 : (a:ℚ) ≤ 2^24 := by exact_mod_cast ha'
    have h2 : (1:ℚ) ≤ b := by exact_mod_cast hb
    nlinarith
  by_cases hint : ∃ m : ℤ, (a:ℚ)/b = m * ulp ((a:ℚ)/b)
  · obtain ⟨m, hm⟩ := hint
    rw [f32_of_int_ulp hm]
    exact ⟨id, id, id⟩
  · have hlo : (2:ℚ) ^ Int.log 2 ((a:ℚ)/b) ≤ (a:ℚ)/b := by
      have := Int.zpow_log_le_self (b := 2) (by norm_num) hx0
      exact_mod_cast this
    have hne : (2:ℚ) ^ Int.log 2 ((a:ℚ)/b) ≠ (a:ℚ)/b := by
      intro heq
      apply hint
      refine ⟨2^23, ?_⟩
      unfold ulp
      rw [abs_of_pos hx0]
      rw [zpow_sub₀ (by norm_num), heq]
      push_cast
      norm_num
      field_simp
    have hlt := lt_of_le_of_ne hlo hne
    have hul : ulp ((a:ℚ)/b) / 2 < 1 / b := by
      have e : ulp ((a:ℚ)/b) / 2 = (2:ℚ) ^ Int.log 2 ((a:ℚ)/b) / 2^24 := by
        unfold ulp
        rw [abs_of_pos hx0, zpow_sub₀ (by norm_num)]
        norm_num
        ring
      rw [e, div_lt_iff₀ (by norm_num)]
      have h1 : (a:ℚ) ≤ 2^24 := by exact_mod_cast ha'
      calc (2:ℚ) ^ Int.log 2 ((a:ℚ)/b) < (a:ℚ)/b := hlt
        _ ≤ 2^24 / b := by gcongr
        _ = 1 / b * 2^24 := by ring
    have herr := (abs_le.mp (f32_err ((a:ℚ)/b)))
    refine ⟨fun he => ?_, fun hk => ?_, fun hk => ?_⟩
    · exact absurd (nat_mul_ulp he hx0 hx24) hint
    · have h3 : k * (b:ℤ) < a := by
        rw [lt_div_iff₀ hbQ] at hk; exact_mod_cast hk
      have h4 : ((k * b + 1 : ℤ) : ℚ) ≤ ((a:ℤ):ℚ) := by exact_mod_cast h3
      have h5 : (k:ℚ) + 1 / b ≤ (a:ℚ)/b := by
        rw [le_div_iff₀ hbQ, add_mul, one_div, inv_mul_cancel₀ hbQ.ne']
        push_cast at h4; exact h4
      linarith [herr.1]
    · have h3 : (a:ℤ) < k * (b:ℤ) := by
        rw [div_lt_iff₀ hbQ] at hk; exact_mod_cast hk
      have h4 : (((a:ℤ) + 1 : ℤ) : ℚ) ≤ ((k * b : ℤ):ℚ) := by exact_mod_cast h3
      have h5 : (a:ℚ)/b + 1 / b ≤ k := by
        rw [← add_div, div_le_iff₀ hbQ]
        push_cast at h4; exact h4
      linarith [herr.2]

theorem fdiv_eq {a b : ℕ} (ha : a ≤ 2^24) (hb : b ≤ 2^24) : fdiv a b = f32 ((a:ℚ)/b) := by
  unfold fdiv
  rw [show (((a:ℕ):ℤ):ℚ) = (a:ℚ) by simp, show (((b:ℕ):ℤ):ℚ) = (b:ℚ) by simp, f32_nat ha, f32_nat hb]

theorem ceil_fdiv {a b : ℕ} (hb : 0 < b) (ha : a ≤ 2^24) (hb' : b ≤ 2^24) :
    ⌈fdiv a b⌉ = ⌈(a:ℚ)/b⌉ := by
  rw [fdiv_eq ha hb']
  rcases Nat.eq_zero_or_pos a with h0 | h0
  · subst h0; simp [f32]
  · have hc := Int.ceil_eq_iff.mp (rfl : ⌈(a:ℚ)/b⌉ = _)
    rw [Int.ceil_eq_iff]
    constructor
    · have := (f32_div_sep h0 hb ha (⌈(a:ℚ)/b⌉ - 1)).2.1
      push_cast at this
      exact this hc.1
    · rcases lt_or_eq_of_le hc.2 with h | h
      · exact ((f32_div_sep h0 hb ha _).2.2 h).le
      · exact ((f32_div_sep h0 hb ha _).1 h).le

theorem floor_fdiv {a b : ℕ} (hb : 0 < b) (ha : a ≤ 2^24) (hb' : b ≤ 2^24) :
    ⌊fdiv a b⌋ = ⌊(a:ℚ)/b⌋ := by
  rw [fdiv_eq ha hb']
  rcases Nat.eq_zero_or_pos a with h0 | h0
  · subst h0; simp [f32]
  · have hc := Int.floor_eq_iff.mp (rfl : ⌊(a:ℚ)/b⌋ = _)
    rw [Int.floor_eq_iff]
    constructor
    · rcases lt_or_eq_of_le hc.1 with h | h
      · exact ((f32_div_sep h0 hb ha _).2.1 h).le
      · exact ((f32_div_sep h0 hb ha _).1 h.symm).ge
    · have := (f32_div_sep h0 hb ha (⌊(a:ℚ)/b⌋ + 1)).2.2
      push_cast at this
      exact this hc.2

theorem ceil_fdiv_toNat {a b : ℕ} (hb : 0 < b) (ha : a ≤ 2^24) (hb' : b ≤ 2^24) :
    ⌈fdiv a b⌉.toNat = (a + b - 1) / b := by
  rw [ceil_fdiv hb ha hb']
  have : ⌈(a:ℚ)/b⌉ = (((a + b - 1) / b : ℕ) : ℤ) := by
    rw [Int.ceil_eq_iff]
    have hbQ : (0:ℚ) < b := by exact_mod_cast hb
    have hd := Nat.div_add_mod (a + b - 1) b
    have hm := Nat.mod_lt (a + b - 1) hb
    set q := (a + b - 1) / b
    constructor
    · rw [lt_div_iff₀ hbQ]
      have : b * q < a + b := by omega
      have h2 : (b:ℚ) * q < a + b := by exact_mod_cast this
      push_cast
      linarith
    · rw [div_le_iff₀ hbQ]
      have : a ≤ b * q := by omega
      have h2 : (a:ℚ) ≤ b * q := by exact_mod_cast this
      push_cast
      linarith
  rw [this, Int.toNat_natCast]

theorem floor_fdiv_toNat {a b : ℕ} (hb : 0 < b) (ha : a ≤ 2^24) (hb' : b ≤ 2^24) :
    ⌊fdiv a b⌋.toNat = a / b := by
  rw [floor_fdiv hb ha hb']
  have : ⌊(a:ℚ)/b⌋ = ((a / b : ℕ) : ℤ) := by
    rw [Int.floor_eq_iff]
    have hbQ : (0:ℚ) < b := by exact_mod_cast hb
    have hd := Nat.div_add_mod a b
    have hm := Nat.mod_lt a hb
    set q := a / b
    constructor
    · rw [le_div_iff₀ hbQ]
      have : b * q ≤ a := by omega
      have h2 : (b:ℚ) * q ≤ a := by exact_mod_cast this
      push_cast
      linarith
    · rw [div_lt_iff₀ hbQ]
      have : a < b * q + b := by omega
      have h2 : (a:ℚ) < b * q + b := by exact_mod_cast this
      push_cast
      linarith
  rw [this, Int.toNat_natCast]

theorem numPartitionsFor_eq {b a : ℕ} (hb : 0 < b) (ha : a ≤ 2^24) (hb' : b ≤ 2^24) :
    numPartitionsFor b a = (a + b - 1) / b := ceil_fdiv_toNat hb ha hb'

/-- one past the limit: `2^24 + 1` rounds down -/
theorem f32_fail : f32 ((2^24 + 1 : ℕ) : ℚ) = 2^24 := by
  have hlog : Int.log 2 |((2^24 + 1 : ℕ) : ℚ)| = 24 := by
    rw [Nat.abs_cast, Int.log_natCast]
    have : Nat.log 2 (2^24+1) = 24 := by
      rw [Nat.log_eq_iff (Or.inr ⟨by norm_num, by norm_num⟩)]; norm_num
    rw [this]; rfl
  unfold f32
  rw [if_neg (by norm_num)]
  simp only [hlog]
  have h1 : ((2^24 + 1 : ℕ) : ℚ) / 2 ^ ((24:ℤ) - 23) = 2^23 + 1/2 := by norm_num
  rw [h1]
  have hf : ⌊(2^23 + 1/2 : ℚ)⌋ = 2^23 := by
    rw [Int.floor_eq_iff]; norm_num
  unfold roundEven
  simp only [hf]
  norm_num

end Zones.Proofs
