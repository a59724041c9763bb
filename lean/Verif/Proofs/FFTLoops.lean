import Verif.Proofs.FFTLevel
import Mathlib.Tactic.Ring
import Mathlib.Tactic.Linarith

/-! # Closed forms of the decomposition steps and of single FFT depths -/

open Finset Zones.Spec Zones.Model

namespace Zones.Proofs

/-- `h`-half level applied only where `S` holds -/
def onSet (S : ℕ → Prop) [DecidablePred S] (f : (ℕ → ℂ) → ℕ → ℂ) (d : ℕ → ℂ) : ℕ → ℂ :=
  fun x => if S x then f d x else d x

theorem low_mod_eq {h : ℕ} (hh : 0 < h) (x : ℕ) : low h x % (2*h) = x % h := by
  have hl := low_mod hh x
  have e : low h x % (2*h) % h = low h x % h := Nat.mod_mod_of_dvd _ ⟨2, by ring⟩
  rw [Nat.mod_eq_of_lt hl] at e
  rw [e]
  unfold low
  split
  · rfl
  · have h1 := Nat.mod_le x (2*h)
    rename_i hx
    have : x = (x - h) + h := by omega
    conv_rhs => rw [this, Nat.add_mod_right]

theorem low_lt_iff {h : ℕ} (hh : 0 < h) (x m : ℕ) : low h x < m * (2*h) ↔ x < m * (2*h) := by
  constructor
  · intro hx
    have hl := low_mod hh x
    by_cases hc : x % (2*h) < h
    · rwa [low_of_lt hc] at hx
    · have hge := low_of_ge hc
      -- low = q*(2h) + r, r < h
      have hq : low h x / (2*h) < m := (Nat.div_lt_iff_lt_mul (by omega)).mpr hx
      have hdm := Nat.div_add_mod (low h x) (2*h)
      have : (low h x / (2*h) + 1) * (2*h) ≤ m * (2*h) := Nat.mul_le_mul_right _ hq
      have e : (low h x / (2*h) + 1) * (2*h) = 2*h*(low h x / (2*h)) + 2*h := by ring
      omega
  · intro hx
    have : low h x ≤ x := by unfold low; split <;> omega
    omega

/-- the lower indices visited by a segmented step -/
def segIdx (S h st cur : ℕ) : List ℕ :=
  (List.range S).flatMap fun s => (List.range st).map fun k => s * (2*h) + (cur * st + k)

theorem segIdx_mem {S h st cur : ℕ} (hst : cur * st + st ≤ h) (i : ℕ) :
    i ∈ segIdx S h st cur ↔ i < S * (2*h) ∧ cur * st ≤ i % (2*h) ∧ i % (2*h) < cur * st + st := by
  unfold segIdx
  simp only [List.mem_flatMap, List.mem_map, List.mem_range]
  constructor
  · rintro ⟨s, hs, k, hk, rfl⟩
    have hm : (s * (2*h) + (cur * st + k)) % (2*h) = cur*st + k := by
      rw [add_comm, Nat.add_mul_mod_self_right, Nat.mod_eq_of_lt (by omega)]
    rw [hm]
    refine ⟨?_, by omega, by omega⟩
    have : (s+1) * (2*h) ≤ S * (2*h) := Nat.mul_le_mul_right _ hs
    have e : (s+1) * (2*h) = s*(2*h) + 2*h := by ring
    omega
  · rintro ⟨h1, h2, h3⟩
    refine ⟨i / (2*h), (Nat.div_lt_iff_lt_mul (by omega)).mpr h1, i % (2*h) - cur*st, by omega, ?_⟩
    have := Nat.div_add_mod i (2*h)
    have e : i / (2*h) * (2*h) = 2*h*(i/(2*h)) := by ring
    omega

theorem segIdx_sorted {S h st cur : ℕ} (hst : cur * st + st ≤ h) :
    (segIdx S h st cur).Pairwise (· < ·) := by
  unfold segIdx
  rw [List.pairwise_flatMap]
  refine ⟨?_, ?_⟩
  · intro s _
    rw [List.pairwise_map]
    exact List.pairwise_lt_range.imp (fun hab => by omega)
  · refine List.pairwise_lt_range.imp ?_
    intro a b hab x hx y hy
    simp only [List.mem_map, List.mem_range] at hx hy
    obtain ⟨k, hk, rfl⟩ := hx
    obtain ⟨k', hk', rfl⟩ := hy
    have : (a+1) * (2*h) ≤ b * (2*h) := Nat.mul_le_mul_right _ hab
    have e : (a+1) * (2*h) = a*(2*h) + 2*h := by ring
    omega

theorem segIdx_nodup {S h st cur : ℕ} (hst : cur * st + st ≤ h) : (segIdx S h st cur).Nodup :=
  (segIdx_sorted hst).imp (fun hab => Nat.ne_of_lt hab)

theorem segBflies_eq {S h steps cur : ℕ} (hS : 0 < S) (hst : cur * (h/steps) + h/steps ≤ h) :
    segBflies (S * (2*h)) S steps cur = (segIdx S h (h/steps) cur).map (mkB h) := by
  unfold segBflies segIdx
  have e1 : S * (2*h) / S = 2*h := Nat.mul_div_cancel_left _ hS
  have e2 : 2*h/2 = h := Nat.mul_div_cancel_left _ (by norm_num)
  simp only [e1, e2, List.map_flatMap, List.map_map]
  congr 1
  funext s
  apply List.map_congr_left
  intro k hk
  rw [List.mem_range] at hk
  simp only [Function.comp, mkB]
  congr 1
  · ring
  · rw [add_comm (s * (2*h)), Nat.add_mul_mod_self_right, Nat.mod_eq_of_lt (by omega)]

theorem step_fits {h steps cur : ℕ} (hd : steps ∣ h) (hc : cur < steps) :
    cur * (h/steps) + h/steps ≤ h := by
  obtain ⟨c, rfl⟩ := hd
  rw [Nat.mul_div_cancel_left _ (by omega)]
  have : (cur+1) * c ≤ steps * c := Nat.mul_le_mul_right _ hc
  have e : (cur+1)*c = cur*c + c := by ring
  omega

theorem div_eq_iff_range {a st cur : ℕ} (hst : 0 < st) :
    a / st = cur ↔ cur * st ≤ a ∧ a < cur * st + st := by
  rw [Nat.div_eq_iff hst]
  constructor <;> rintro ⟨h1, h2⟩ <;> constructor <;> (try omega)

theorem low_mem_segIdx {S h steps cur : ℕ} (hh : 0 < h) (hd : steps ∣ h) (hc : cur < steps)
    (x : ℕ) : low h x ∈ segIdx S h (h/steps) cur ↔
      x < S * (2*h) ∧ (x % h) / (h/steps) = cur := by
  have hpos : 0 < h / steps := Nat.div_pos (Nat.le_of_dvd hh hd) (by omega)
  rw [segIdx_mem (step_fits hd hc), low_lt_iff hh, low_mod_eq hh, div_eq_iff_range hpos]

theorem isPow2_pow (n : ℕ) : isPow2 (2^n) = true := by
  simp [isPow2, Nat.log_pow]

theorem decompAsserts_pow {n l s cur : ℕ} (hs : s ≤ n) (hc : cur < 2^s) :
    decompAsserts (2^n) (2^l) (2^s) cur = true := by
  simp only [decompAsserts, isPow2_pow, Bool.and_true, Bool.and_eq_true, decide_eq_true_eq]
  refine ⟨⟨⟨by positivity, by positivity⟩, by positivity, Nat.pow_le_pow_right (by norm_num) hs⟩, hc⟩

theorem bound_of_mem_segIdx {S h steps cur sz : ℕ} (hd : steps ∣ h) (hc : cur < steps)
    (hsz : S * (2*h) ≤ sz) (i : ℕ) (hi : i ∈ segIdx S h (h/steps) cur) :
    (mkB h i).i < sz ∧ (mkB h i).j < sz := by
  have hf := step_fits hd hc
  obtain ⟨h1, h2, h3⟩ := (segIdx_mem hf i).mp hi
  have h0 : 0 < h := by omega
  have := (low_lt_iff h0 (i+h) S)
  have hl : low h (i+h) = i := low_add (by omega)
  rw [hl] at this
  have := this.mp h1
  simp only [mkB]; omega

theorem pow_split {n l : ℕ} (hl : l < n) : (2:ℕ)^n = 2^l * (2 * 2^(n-1-l)) := by
  rw [← pow_succ', ← pow_add]; congr 1; omega

/-- a forward decomposition step, in closed form -/
theorem segmentedForward_eq {n l s cur sz : ℕ} (hl : l < n) (hs : s ≤ n-1-l) (hc : cur < 2^s)
    (hsz : 2^n ≤ sz) (d : ℕ → ℂ) :
    segmentedForward sz (2^n) (2^l) (2^s) cur d =
      some (onSet (fun x => x < 2^n ∧ (x % 2^(n-1-l)) / 2^(n-1-l-s) = cur) (lev (2^(n-1-l))) d) := by
  have hh : 0 < 2^(n-1-l) := by positivity
  have hd : 2^s ∣ 2^(n-1-l) := pow_dvd_pow 2 hs
  have hdiv : 2^(n-1-l) / 2^s = 2^(n-1-l-s) := Nat.pow_div hs (by norm_num)
  unfold segmentedForward
  rw [if_pos (decompAsserts_pow (by omega) hc)]
  unfold runLoop
  have hN := pow_split hl
  have hq : 2^n / 2^l = 2 * 2^(n-1-l) := by
    rw [hN, Nat.mul_div_cancel_left _ (by positivity)]
  rw [hq, twiddleFwd_eq, hN, segBflies_eq (by positivity) (step_fits hd hc), if_pos]
  · congr 1
    funext x
    rw [foldl_fwd hh _ (segIdx_nodup (step_fits hd hc))]
    · unfold onSet
      rw [← hdiv]
      simp only [low_mem_segIdx hh hd hc]
    · intro i hi
      obtain ⟨_, _, h3⟩ := (segIdx_mem (step_fits hd hc) i).mp hi
      have := step_fits hd hc
      omega
  · intro b hb
    rw [List.mem_map] at hb
    obtain ⟨i, hi, rfl⟩ := hb
    exact bound_of_mem_segIdx hd hc (by rw [← hN]; exact hsz) i hi

/-- an inverse decomposition step, in closed form -/
theorem segmentedInverse_eq {n l s cur sz : ℕ} (hl : l < n) (hs : s ≤ n-1-l) (hc : cur < 2^s)
    (hsz : 2^n ≤ sz) (d : ℕ → ℂ) :
    segmentedInverse sz (2^n) (2^l) (2^s) cur d =
      some (onSet (fun x => x < 2^n ∧ (x % 2^(n-1-l)) / 2^(n-1-l-s) = cur) (ilev (2^(n-1-l))) d) := by
  have hh : 0 < 2^(n-1-l) := by positivity
  have hd : 2^s ∣ 2^(n-1-l) := pow_dvd_pow 2 hs
  have hdiv : 2^(n-1-l) / 2^s = 2^(n-1-l-s) := Nat.pow_div hs (by norm_num)
  unfold segmentedInverse
  rw [if_pos (decompAsserts_pow (by omega) hc)]
  unfold runLoop
  have hN := pow_split hl
  have hq : 2^n / 2^l = 2 * 2^(n-1-l) := by
    rw [hN, Nat.mul_div_cancel_left _ (by positivity)]
  rw [hq, twiddleInv_eq, hN, segBflies_eq (by positivity) (step_fits hd hc), if_pos]
  · congr 1
    funext x
    rw [foldl_inv hh _ (segIdx_nodup (step_fits hd hc))]
    · unfold onSet
      rw [← hdiv]
      simp only [low_mem_segIdx hh hd hc]
    · intro i hi
      obtain ⟨_, _, h3⟩ := (segIdx_mem (step_fits hd hc) i).mp hi
      have := step_fits hd hc
      omega
  · intro b hb
    rw [List.mem_map] at hb
    obtain ⟨i, hi, rfl⟩ := hb
    exact bound_of_mem_segIdx hd hc (by rw [← hN]; exact hsz) i hi

/-! ## One depth of the unordered FFT -/

/-- lower indices visited by one FFT depth -/
def fftIdx (base G h : ℕ) : List ℕ :=
  (List.range G).flatMap fun g => (List.range h).map fun k => base + g * (2*h) + k

theorem fftIdx_mem {m G h : ℕ} (i : ℕ) :
    i ∈ fftIdx (m * (2*h)) G h ↔
      m * (2*h) ≤ i ∧ i < m * (2*h) + G * (2*h) ∧ i % (2*h) < h := by
  unfold fftIdx
  simp only [List.mem_flatMap, List.mem_map, List.mem_range]
  constructor
  · rintro ⟨s, hs, k, hk, rfl⟩
    have e : m * (2*h) + s * (2*h) + k = k + (2*h) * (m + s) := by ring
    have hm : (m * (2*h) + s * (2*h) + k) % (2*h) = k := by
      rw [e, Nat.add_mul_mod_self_left, Nat.mod_eq_of_lt (by omega)]
    rw [hm]
    refine ⟨by omega, ?_, hk⟩
    have : (s+1) * (2*h) ≤ G * (2*h) := Nat.mul_le_mul_right _ hs
    have e : (s+1) * (2*h) = s*(2*h) + 2*h := by ring
    omega
  · rintro ⟨h1, h2, h3⟩
    have hd := Nat.div_add_mod i (2*h)
    have hge : m ≤ i / (2*h) := (Nat.le_div_iff_mul_le (by omega)).mpr h1
    have hlt : i / (2*h) < m + G := by
      rw [Nat.div_lt_iff_lt_mul (by omega)]
      rw [Nat.add_mul]; exact h2
    refine ⟨i / (2*h) - m, by omega, i % (2*h), h3, ?_⟩
    obtain ⟨c, hc⟩ := Nat.exists_eq_add_of_le hge
    rw [hc] at hd ⊢
    simp only [Nat.add_sub_cancel_left]
    rw [← Nat.add_mul]
    have : (m + c) * (2*h) = 2*h*(m+c) := by ring
    omega

theorem fftIdx_nodup {base G h : ℕ} : (fftIdx base G h).Nodup := by
  have : (fftIdx base G h).Pairwise (· < ·) := by
    unfold fftIdx
    rw [List.pairwise_flatMap]
    refine ⟨?_, ?_⟩
    · intro s _
      rw [List.pairwise_map]
      exact List.pairwise_lt_range.imp (fun hab => by omega)
    · refine List.pairwise_lt_range.imp ?_
      intro a b hab x hx y hy
      simp only [List.mem_map, List.mem_range] at hx hy
      obtain ⟨k, hk, rfl⟩ := hx
      obtain ⟨k', hk', rfl⟩ := hy
      have : (a+1) * (2*h) ≤ b * (2*h) := Nat.mul_le_mul_right _ hab
      have e : (a+1) * (2*h) = a*(2*h) + 2*h := by ring
      omega
  exact this.imp (fun hab => Nat.ne_of_lt hab)

theorem fftBflies_eq {m G a : ℕ} :
    fftBflies (m * (2*2^a)) (G * (2*2^a)) (a+1) = (fftIdx (m * (2*2^a)) G (2^a)).map (mkB (2^a)) := by
  unfold fftBflies fftIdx
  have e0 : (2:ℕ)^(a+1) = 2 * 2^a := by rw [pow_succ']
  have hp : 0 < (2:ℕ)^a := by positivity
  have e1 : G * (2*2^a) / (2*2^a) = G := Nat.mul_div_cancel _ (by positivity)
  have e2 : 2*2^a/2 = 2^a := Nat.mul_div_cancel_left _ (by norm_num)
  simp only [e0, e1, e2, List.map_flatMap, List.map_map]
  congr 1
  funext s
  apply List.map_congr_left
  intro k hk
  rw [List.mem_range] at hk
  simp only [Function.comp, mkB]
  congr 1
  · ring
  · have e : m * (2*2^a) + s * (2*2^a) + k = k + (2*2^a) * (m + s) := by ring
    rw [e, Nat.add_mul_mod_self_left, Nat.mod_eq_of_lt (by omega)]

theorem low_ge_iff {h : ℕ} (hh : 0 < h) (x m : ℕ) : m * (2*h) ≤ low h x ↔ m * (2*h) ≤ x := by
  have := low_lt_iff hh x m
  omega

theorem low_mem_fftIdx {m G h : ℕ} (hh : 0 < h) (x : ℕ) :
    low h x ∈ fftIdx (m * (2*h)) G h ↔ m * (2*h) ≤ x ∧ x < m * (2*h) + G * (2*h) := by
  rw [fftIdx_mem, low_ge_iff hh, ← Nat.add_mul, low_lt_iff hh]
  have := low_mod hh x
  tauto

theorem fft_bounds {m G h sz : ℕ} (hh : 0 < h) (hsz : m * (2*h) + G * (2*h) ≤ sz) (i : ℕ)
    (hi : i ∈ fftIdx (m * (2*h)) G h) : (mkB h i).i < sz ∧ (mkB h i).j < sz := by
  obtain ⟨h1, h2, h3⟩ := (fftIdx_mem i).mp hi
  rw [← Nat.add_mul] at h2 hsz
  have := (low_lt_iff hh (i+h) (m+G))
  rw [low_add h3] at this
  have := this.mp h2
  simp only [mkB]; omega

theorem fftDepth_fwd {m G a sz : ℕ} (hsz : m * (2*2^a) + G * (2*2^a) ≤ sz) (d : ℕ → ℂ) :
    runLoop (applyFwd (twiddleFwd (2^(a+1)))) sz (fftBflies (m * (2*2^a)) (G * (2*2^a)) (a+1)) d
      = some (onSet (fun x => m * (2*2^a) ≤ x ∧ x < m * (2*2^a) + G * (2*2^a)) (lev (2^a)) d) := by
  have hh : 0 < (2:ℕ)^a := by positivity
  unfold runLoop
  rw [fftBflies_eq, if_pos, twiddleFwd_eq, pow_succ']
  · congr 1
    funext x
    rw [foldl_fwd hh _ fftIdx_nodup (fun i hi => ((fftIdx_mem i).mp hi).2.2)]
    unfold onSet
    simp only [low_mem_fftIdx hh]
  · intro b hb
    rw [List.mem_map] at hb
    obtain ⟨i, hi, rfl⟩ := hb
    exact fft_bounds hh hsz i hi

theorem fftDepth_inv {m G a sz : ℕ} (hsz : m * (2*2^a) + G * (2*2^a) ≤ sz) (d : ℕ → ℂ) :
    runLoop (applyInv (twiddleInv (2^(a+1)))) sz (fftBflies (m * (2*2^a)) (G * (2*2^a)) (a+1)) d
      = some (onSet (fun x => m * (2*2^a) ≤ x ∧ x < m * (2*2^a) + G * (2*2^a)) (ilev (2^a)) d) := by
  have hh : 0 < (2:ℕ)^a := by positivity
  unfold runLoop
  rw [fftBflies_eq, if_pos, twiddleInv_eq, pow_succ']
  · congr 1
    funext x
    rw [foldl_inv hh _ fftIdx_nodup (fun i hi => ((fftIdx_mem i).mp hi).2.2)]
    unfold onSet
    simp only [low_mem_fftIdx hh]
  · intro b hb
    rw [List.mem_map] at hb
    obtain ⟨i, hi, rfl⟩ := hb
    exact fft_bounds hh hsz i hi

end Zones.Proofs
