import Verif.Proofs.EngineHistory

/-! The fade lengths computed in single precision are the exact ones. -/

open Zones.Model Zones.Spec

namespace Zones.Proofs

/-- Rounding a number between `2^(e+23)` and `2^(e+24)`. -/
theorem f32_value {x : ℚ} (e : ℤ) (k : ℤ) (h1 : (2:ℚ) ^ (e + 23) ≤ x) (h2 : x < (2:ℚ) ^ (e + 24)) (h3 : |x / (2:ℚ) ^ e - k| < 1/2) :
    f32 x = k * (2:ℚ) ^ e := by
  have hx : 0 < x := lt_of_lt_of_le (by positivity) h1
  have hlog : Int.log 2 |x| = e + 23 := by
    rw [abs_of_pos hx]
    apply le_antisymm
    · have : Int.log 2 x < e + 24 := (Int.lt_zpow_iff_log_lt (b := 2) (by norm_num) hx).mp (by exact_mod_cast h2)
      omega
    · exact (Int.zpow_le_iff_le_log (b := 2) (by norm_num) hx).mp (by exact_mod_cast h1)
  have hu : ulp x = (2:ℚ) ^ e := by
    unfold ulp
    rw [hlog]
    congr 1
    omega
  have : f32 x = roundEven (x / ulp x) * ulp x := by
    unfold f32
    rw [if_neg hx.ne']
    rfl
  rw [this, hu, roundEven_near h3]

theorem kLower_eq : kLowerFadeTimeS = 13421773 / 2^27 := by
  unfold kLowerFadeTimeS
  rw [f32_value (-27) 13421773 (by norm_num) (by norm_num) (by norm_num [abs_lt])]
  norm_num

theorem kInOut_eq : kInOutFadeTimeS = 13421773 / 2^25 := by
  unfold kInOutFadeTimeS
  rw [f32_value (-25) 13421773 (by norm_num) (by norm_num) (by norm_num [abs_lt])]
  norm_num

theorem kRatio_eq : kFadeRatio = 9395241 / 2^26 := by
  unfold kFadeRatio
  rw [f32_value (-26) 9395241 (by norm_num) (by norm_num) (by norm_num [abs_lt])]
  norm_num

theorem kMax_eq : kMaxCrossFadeIrTimeS = 10 := by
  have := f32_nat (n := 10) (by norm_num)
  unfold kMaxCrossFadeIrTimeS
  exact_mod_cast this

/-- Exact integer multiples. -/
theorem ceilTimes_nat {k n : ℕ} (hn : n ≤ 2^24) (hkn : k * n ≤ 2^24) : ceilTimes (k : ℚ) n = (k * n : ℕ) := by
  unfold ceilTimes
  rw [f32_nat hn]
  have : ((k : ℚ) * (n : ℚ)) = ((k * n : ℕ) : ℚ) := by push_cast; rfl
  rw [this, f32_nat hkn]
  exact Int.ceil_natCast _

theorem upper_exact {r : ℕ} (hr : r ≤ 2^22) : ceilTimes kUpperFadeTimeS r = (4 * r : ℕ) := by
  have e : kUpperFadeTimeS = ((4 : ℕ) : ℚ) := by
    have : kUpperFadeTimeS = 4 := f32_four
    rw [this]; norm_num
  rw [e]
  exact ceilTimes_nat (by omega) (by omega)

theorem max_exact {r : ℕ} (hr : r ≤ 1600000) : ceilTimes kMaxCrossFadeIrTimeS r = (10 * r : ℕ) := by
  have e : kMaxCrossFadeIrTimeS = ((10 : ℕ) : ℚ) := by rw [kMax_eq]; norm_num
  rw [e]
  exact ceilTimes_nat (by omega) (by omega)

theorem lower_exact {r : ℕ} (h0 : 0 < r) (hr : r ≤ 2000000) : ceilTimes kLowerFadeTimeS r = ⌈(r : ℚ) / 10⌉ := by
  have hr' : (r : ℚ) ≤ 2000000 := by exact_mod_cast hr
  have h0' : (0:ℚ) < r := by exact_mod_cast h0
  have := ceilTimes_eq (k := kLowerFadeTimeS) (a := 1) (b := 10) (n := r) (by norm_num) (by norm_num) h0 (by omega)
    (by rw [kLower_eq]; norm_num) (by rw [kLower_eq]; norm_num) (by rw [kLower_eq]; norm_num; linarith) (by rw [kLower_eq]; norm_num; linarith)
  rw [this]
  norm_num

theorem inOut_exact {r : ℕ} (h0 : 0 < r) (hr : r ≤ 2000000) : ceilTimes kInOutFadeTimeS r = ⌈(2 * r : ℚ) / 5⌉ := by
  have hr' : (r : ℚ) ≤ 2000000 := by exact_mod_cast hr
  have h0' : (0:ℚ) < r := by exact_mod_cast h0
  have := ceilTimes_eq (k := kInOutFadeTimeS) (a := 2) (b := 5) (n := r) (by norm_num) (by norm_num) h0 (by omega)
    (by rw [kInOut_eq]; norm_num) (by rw [kInOut_eq]; norm_num) (by rw [kInOut_eq]; norm_num; linarith) (by rw [kInOut_eq]; norm_num; linarith)
  rw [this]
  norm_num

theorem ratio_exact {n : ℕ} (h0 : 0 < n) (hn : n ≤ 2000000) : ceilTimes kFadeRatio n = ⌈(7 * n : ℚ) / 50⌉ := by
  have hn' : (n : ℚ) ≤ 2000000 := by exact_mod_cast hn
  have h0' : (0:ℚ) < n := by exact_mod_cast h0
  have := ceilTimes_eq (k := kFadeRatio) (a := 7) (b := 50) (n := n) (by norm_num) (by norm_num) h0 (by omega)
    (by rw [kRatio_eq]; norm_num) (by rw [kRatio_eq]; norm_num) (by rw [kRatio_eq]; norm_num; linarith) (by rw [kRatio_eq]; norm_num; linarith)
  rw [this]
  norm_num

theorem ratio_zero : ceilTimes kFadeRatio 0 = 0 := by
  unfold ceilTimes f32
  simp

end Zones.Proofs
