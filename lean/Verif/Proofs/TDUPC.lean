import Verif.Proofs.TDUPCSteps

/-! # `TimeDistributedUPC` computes a convolution delayed by two partitions -/

open Finset Zones.Spec Zones.Model

namespace Zones.Proofs

/-! ## The forward schedule only depends on what has arrived -/

theorem Fl_congr_mod {n m : ℕ} (hm : m ≤ n) {x x' : ℕ → ℂ} (i : ℕ)
    (h : ∀ j, j % 2^(n-m) = i % 2^(n-m) → x j = x' j) : Fl n m x i = Fl n m x' i := by
  induction m generalizing i with
  | zero => exact h i rfl
  | succ m ih =>
    simp only [Fl]
    have hh : 0 < 2^(n-1-m) := by positivity
    refine lev_congrOn (S := fun j => j % 2^(n-1-m) = i % 2^(n-1-m)) ?_ ?_ i rfl
    · intro y hy
      have := low_mod_h hh y
      exact ⟨this.1.trans hy, this.2.trans hy⟩
    · intro y hy
      refine ih (by omega) y (fun j hj => h j ?_)
      have e : n - (m+1) = n - 1 - m := by omega
      rw [e, ← hy]
      have e2 : 2^(n-m) = 2^(n-1-m) * 2 := by rw [← pow_succ]; congr 1; omega
      rw [e2] at hj
      rw [← Nat.mod_mul_right_mod j _ 2, hj, Nat.mod_mul_right_mod]

theorem FwdSched_congr {b p nd ph : ℕ} {x x' d : ℕ → ℂ} (hnd : nd ≤ p + 1)
    (hx : ∀ i ≥ 2^(b+p), x i = 0) (hx' : ∀ i ≥ 2^(b+p), x' i = 0)
    (hxx : ∀ i < (ph+1) * 2^b, x i = x' i)
    (h : FwdSched b p nd x ph nd d) : FwdSched b p nd x' ph nd d := by
  intro i hi m hm hD
  rw [h i hi m hm hD]
  by_cases hm0 : m = 0
  · rw [if_pos hm0, if_pos hm0]
    unfold arrived
    split
    · next hlt => exact hxx i hlt
    · rfl
  · rw [if_neg hm0, if_neg hm0]
    have hdone := (hD (m-1) (by omega)).mpr (by omega)
    have hle : fwdT b p (m-1) i ≤ ph := by unfold FwdDone at hdone; omega
    unfold fwdT tau at hle
    have e1 : b + p - (m-1) = b + p + 1 - m := by omega
    have e2 : p - (m - 1) = p + 1 - m := by omega
    rw [e1, e2] at hle
    refine Fl_congr_mod (by omega) i (fun j hj => ?_)
    by_cases hj2 : 2^(b+p) ≤ j
    · rw [hx j hj2, hx' j hj2]
    · apply hxx
      have hD : 2^(b+p+1-m) = 2^(p+1-m) * 2^b := by rw [← pow_add]; congr 1; omega
      have hP : 2^(b+p) = 2^(m-1) * 2^(b+p+1-m) := by rw [← pow_add]; congr 1; omega
      have hP2 : 2^(b+p) = 2^p * 2^b := by rw [← pow_add]; congr 1; omega
      have hle2 : 2^(p+1-m) ≤ 2^p := Nat.pow_le_pow_right (by norm_num) (by omega)
      have hdiv : j / 2^(b+p+1-m) < 2^(m-1) := by
        rw [Nat.div_lt_iff_lt_mul (by positivity), ← hP]; omega
      have hj3 := Nat.div_add_mod j (2^(b+p+1-m))
      rw [hj] at hj3
      have h5 : 2^(b+p+1-m) * (j / 2^(b+p+1-m)) + 2^(b+p+1-m) ≤ 2^(b+p) := by
        calc _ = 2^(b+p+1-m) * (j / 2^(b+p+1-m) + 1) := by ring
          _ ≤ 2^(b+p+1-m) * 2^(m-1) := Nat.mul_le_mul_left _ hdiv
          _ = 2^(b+p) := by rw [hP]; ring
      have h6 : i % 2^(b+p+1-m) < (ph + 1 - (2^p - 2^(p+1-m))) * 2^b := by
        rw [← Nat.div_lt_iff_lt_mul (by positivity)]; omega
      have h7 : (ph + 1 - (2^p - 2^(p+1-m))) * 2^b = (ph+1) * 2^b - (2^p * 2^b - 2^(p+1-m) * 2^b) := by
        rw [Nat.sub_mul, Nat.sub_mul]
      rw [h7, ← hP2, ← hD] at h6
      omega

theorem FwdSched_zero {b p nd ph l : ℕ} {d : ℕ → ℂ} (h : ∀ i < 2^(b+p+1), d i = 0) :
    FwdSched b p nd (fun _ => 0) ph l d := by
  intro i hi m hm hD
  rw [h i hi, Fl_zero]
  unfold arrived
  split <;> simp

theorem InvSched_zero {b p nd ph l : ℕ} {d : ℕ → ℂ} (h : ∀ i < 2^(b+p+1), d i = 0) :
    InvSched b p nd (fun _ => 0) ph l d := by
  intro i hi m hm hD
  rw [h i hi, Fl_zero]

theorem InvSched_congr {b p nd ph l : ℕ} {z d d' : ℕ → ℂ} (h : ∀ i < 2^(b+p+1), d' i = d i)
    (hd : InvSched b p nd z ph l d) : InvSched b p nd z ph l d' := by
  intro i hi m hm hD
  rw [h i hi]; exact hd i hi m hm hD

/-! ## Windows and their convolutions -/

/-- window `W` of the stream, zero-padded -/
def xw (P : ℕ) (x : ℕ → ℝ) (W j : ℕ) : ℂ := if j < P then ((x (W * P + j) : ℝ) : ℂ) else 0

/-- partition `i` of the filter segment, zero-padded -/
def hw (P : ℕ) (h : ℕ → ℝ) (i j : ℕ) : ℂ := if j < P then ((h (i * P + j) : ℝ) : ℂ) else 0

/-- the circular convolutions accumulated for window `W` -/
noncomputable def zw (c : Par) (x : ℕ → ℝ) (W j : ℕ) : ℂ :=
  ∑ i ∈ range c.K, circConv (2^c.n) (xw c.P x (W - i)) (c.H i) j

theorem down_zw (c : Par) (x : ℕ → ℝ) (W k : ℕ) (hk : k < 2^c.n) :
    down c.n (zw c x W) k = ∑ i ∈ range c.K, down c.n (xw c.P x (W-i)) k * down c.n (c.H i) k := by
  have : down c.n (zw c x W) = fun k => ∑ i ∈ range c.K,
      down c.n (circConv (2^c.n) (xw c.P x (W - i)) (c.H i)) k := down_sum _ _ _
  rw [this]
  apply sum_congr rfl
  intro i _
  rw [down_circConv _ _ _ _ hk, mul_comm]

theorem circ_low {P : ℕ} {x h : ℕ → ℂ} (hx : ∀ i ≥ P, x i = 0) (hh : ∀ i ≥ P, h i = 0) {j : ℕ}
    (hj : j < 2 * P) :
    circConv (2*P) x h j = ∑ k ∈ range P, if k ≤ j then h k * x (j - k) else 0 := by
  unfold circConv
  rw [two_mul, sum_range_add]
  have hz : ∑ k ∈ range P, h (P + k) * x ((j + (P + P) - (P + k)) % (P + P)) = 0 := by
    apply sum_eq_zero; intro k _; rw [hh _ (by omega), zero_mul]
  rw [hz, add_zero]
  apply sum_congr rfl
  intro k hk
  rw [mem_range] at hk
  split
  · next hjk =>
    rw [show j + (P + P) - k = j - k + (P + P) by omega, Nat.add_mod_right,
      Nat.mod_eq_of_lt (by omega)]
  · next hjk =>
    rw [Nat.mod_eq_of_lt (by omega), hx _ (by omega), mul_zero]

theorem sum_range_mul {M : Type} [AddCommMonoid M] (f : ℕ → M) (K P : ℕ) :
    ∑ k ∈ range (K * P), f k = ∑ i ∈ range K, ∑ j ∈ range P, f (i * P + j) := by
  induction K with
  | zero => simp
  | succ K ih => rw [Nat.add_mul, one_mul, sum_range_add, ih, sum_range_succ]

/-- overlap-add -/
theorem overlap_add {c : Par} {x h : ℕ → ℝ} (hH : c.H = hw c.P h) {W j : ℕ} (hW : c.K ≤ W) (hj : j < c.P) :
    zw c x W j + zw c x (W-1) (j + c.P) =
      ((∑ k ∈ range (c.K * c.P), h k * x (W * c.P + j - k) : ℝ) : ℂ) := by
  have hN : 2^c.n = 2 * c.P := by simp only [Par.P, Par.n]; rw [pow_succ]; ring
  unfold zw
  rw [sum_range_mul, ← sum_add_distrib]
  push_cast
  apply sum_congr rfl
  intro i hi
  rw [mem_range] at hi
  rw [hN, hH]
  have hx : ∀ W, ∀ k ≥ c.P, xw c.P x W k = 0 := fun W k hk => by unfold xw; rw [if_neg (by omega)]
  have hh : ∀ k ≥ c.P, hw c.P h i k = 0 := fun k hk => by unfold hw; rw [if_neg (by omega)]
  rw [circ_low (hx _) hh (by omega), circ_low (hx _) hh (by omega), ← sum_add_distrib]
  apply sum_congr rfl
  intro k hk
  rw [mem_range] at hk
  rw [if_pos (show k ≤ j + c.P by omega)]
  have hWi : W * c.P = (W - i) * c.P + i * c.P := by
    rw [← Nat.add_mul]; congr 1; omega
  have hWi2 : (W - i) * c.P = (W - 1 - i) * c.P + c.P := by
    rw [show W - i = (W - 1 - i) + 1 by omega]; ring
  have hk' : hw c.P h i k = ((h (i * c.P + k) : ℝ) : ℂ) := by unfold hw; rw [if_pos hk]
  rw [hk']
  by_cases hkj : k ≤ j
  · rw [if_pos hkj, hx _ (j + c.P - k) (by omega), mul_zero, add_zero]
    unfold xw; rw [if_pos (by omega)]
    congr 3; omega
  · rw [if_neg hkj, zero_add]
    unfold xw; rw [if_pos (by omega)]
    congr 3; omega

/-! ## Progress of stage B -/

/-- stage B and the newest block of the delay line after `w` working phases -/
def BProg (c : Par) (x : ℕ → ℝ) (W w : ℕ) (B F0 : ℕ → ℂ) : Prop :=
  ∀ sb < 2^c.nd, ∀ k, InBlk c.M sb k →
    (w ≤ 2*sb → B k = Fl c.n c.nd (xw c.P x (W-1)) k) ∧
    (2*sb < w → F0 k = down c.n (xw c.P x (W-1)) k) ∧
    (w = 2*sb+1 → B k = if k < sb * 2^c.M + 2^(c.M-1) then down c.n (zw c x (W-1)) k else 0) ∧
    (2*sb+1 < w → B k = Fl c.n c.nd (zw c x (W-1)) k)

theorem InBlk_disj {M s s' k : ℕ} (h : InBlk M s k) (h' : InBlk M s' k) : s = s' := by
  unfold InBlk at *
  have h1 : k / 2^M = s := Nat.div_eq_of_lt_le (by omega) (by rw [Nat.add_mul]; omega)
  have h2 : k / 2^M = s' := Nat.div_eq_of_lt_le (by omega) (by rw [Nat.add_mul]; omega)
  omega

variable {c : Par} {ph : ℕ} {A B C : ℕ → ℂ} {F : ℕ → ℕ → ℂ} {T : ℕ → ℝ} {s : TDUPC} {x : ℕ → ℝ} {W : ℕ}

theorem Rep.transform (h : Rep c ph A B C F T s)
    (hB : BProg c x W (ph - c.off) B (F 0))
    (hF : ∀ i, 0 < i → i < c.K → ∀ k < 2^c.n, F i k = down c.n (xw c.P x (W-1-i)) k) :
    ∃ s' B' F', s.transform = some s' ∧ Rep c ph A B' C F' T s' ∧
      BProg c x W (ph + 1 - c.off) B' (F' 0) ∧
      (∀ i, 0 < i → i < c.K → ∀ k < 2^c.n, F' i k = down c.n (xw c.P x (W-1-i)) k) := by
  unfold TDUPC.transform
  have hM : c.n - c.nd = c.M := rfl
  have hnd := h.hnd
  have hsub : 2^c.n / 2^c.nd = 2^c.M := by
    rw [Nat.pow_div (by simp only [Par.n]; omega) (by norm_num)]
  have hMpos : 1 ≤ c.M := by simp only [Par.M]; omega
  have hhalf : 2^c.M = 2 * 2^(c.M-1) := by
    conv_lhs => rw [show c.M = (c.M - 1) + 1 by omega, pow_succ]
    ring
  have hhalf2 : 2^c.M / 2 = 2^(c.M-1) := by rw [hhalf]; omega
  have hpos : 0 < 2^(c.M-1) := by positivity
  have h2 : 2^(c.nd+1) = 2 * 2^c.nd := by rw [pow_succ]; ring
  simp only [h.phase, h.off, h.nd, h.fftPoints, hsub, hhalf2]
  by_cases hact : ph ≥ c.off ∧ ph < c.off + 2^c.nd * 2
  swap
  · rw [if_neg hact]
    refine ⟨s, B, F, rfl, h, ?_, hF⟩
    intro sb hs k hk
    have := hB sb hs k hk
    refine ⟨fun hw => this.1 (by omega), fun hw => this.2.1 (by omega), fun hw => ?_, fun hw => this.2.2.2 (by omega)⟩
    exfalso; omega
  rw [if_pos hact]
  have hw1 : ph + 1 - c.off = (ph - c.off) + 1 := by omega
  have hwlt : ph - c.off < 2^c.nd * 2 := by omega
  rw [hw1]
  generalize ph - c.off = w at hB hwlt ⊢
  rcases Nat.mod_two_eq_zero_or_one w with hpar | hpar
  · -- even
    obtain ⟨sb, rfl⟩ : ∃ sb, w = 2 * sb := ⟨w/2, by omega⟩
    have hs : sb < 2^c.nd := by omega
    have hoff : 2 * sb * 2^(c.M-1) = sb * 2^c.M := by rw [hhalf]; ring
    rw [hoff]
    have hle := h.piece_le hs
    obtain ⟨s1, e1, r1⟩ := h.subForward hs
    obtain ⟨s2, e2, r2⟩ := r1.accumulate (o := sb * 2^c.M) (hf := 2^(c.M-1)) (by omega)
    have hne : ¬ (2 * sb % 2 ≠ 0) := by omega
    simp only [hpar, if_true, Option.bind_eq_bind, e1, Option.bind_some, e2, ne_eq, not_true_eq_false, if_false]
    have hF0 : ∀ k, InBlk c.M sb k → down c.M B k = down c.n (xw c.P x (W-1)) k := by
      intro k hk
      rw [← down_Fl (n := c.n) (l := c.nd) (by simp only [Par.n]; omega)]
      exact down_congrOn (S := InBlk c.M sb) (fun a ha => closed_InBlk ha)
        (fun j hj => (hB sb hs j hj).1 le_rfl) k hk
    refine ⟨s2, _, _, rfl, r2, ?_, ?_⟩
    · intro sb' hs' k hk
      by_cases hsb : sb' = sb
      · subst hsb
        refine ⟨fun hc => by omega, fun _ => ?_, fun _ => ?_, fun hc => by omega⟩
        · simp only [true_and]
          rw [if_pos hk]; exact hF0 k hk
        · have hk2 : sb' * 2^c.M ≤ k := hk.1
          have hk3 : k < 2^c.n := lt_of_lt_of_le hk.2 hle
          simp only [hk, hk2, true_and, if_true, zero_add]
          split
          · rw [down_zw _ _ _ _ hk3]
            apply sum_congr rfl
            intro i hi
            rw [mem_range] at hi
            congr 1
            by_cases hi0 : i = 0
            · subst hi0; simp only [and_true, if_true, hk]; exact hF0 k hk
            · simp only [hi0, false_and, if_false]
              exact hF i (by omega) hi k hk3
          · rfl
      · have hk0 : ¬ InBlk c.M sb k := fun hc => hsb (InBlk_disj hk hc)
        have hk1 : ¬ (sb * 2^c.M ≤ k ∧ k < sb * 2^c.M + 2^(c.M-1)) := fun hc => hk0 ⟨hc.1, by omega⟩
        simp only [hk0, hk1, and_false, if_false]
        have := hB sb' hs' k hk
        exact ⟨fun hc => this.1 (by omega), fun hc => this.2.1 (by omega), fun hc => by omega,
          fun hc => this.2.2.2 (by omega)⟩
    · intro i hi hiK k hk
      rw [if_neg (by omega)]; exact hF i hi hiK k hk
  · -- odd
    obtain ⟨sb, rfl⟩ : ∃ sb, w = 2 * sb + 1 := ⟨w/2, by omega⟩
    have hs : sb < 2^c.nd := by omega
    have hoff : (2 * sb + 1) * 2^(c.M-1) = sb * 2^c.M + 2^(c.M-1) := by rw [hhalf]; ring
    rw [hoff]
    have hle := h.piece_le hs
    obtain ⟨s2, e2, r2⟩ := h.accumulate (o := sb * 2^c.M + 2^(c.M-1)) (hf := 2^(c.M-1)) (by omega)
    obtain ⟨s3, e3, r3⟩ := r2.subInverse hs (w := 2*sb+1) rfl
    simp only [hpar, one_ne_zero, if_false, Option.bind_eq_bind, Option.bind_some, e2, ne_eq, not_false_eq_true,
      if_true, e3]
    have hacc : ∀ k, InBlk c.M sb k →
        (if sb * 2^c.M + 2^(c.M-1) ≤ k ∧ k < sb * 2^c.M + 2^(c.M-1) + 2^(c.M-1) then
          B k + ∑ i ∈ range c.K, F i k * down c.n (c.H i) k else B k) = down c.n (zw c x (W-1)) k := by
      intro k hk
      have hk3 : k < 2^c.n := lt_of_lt_of_le hk.2 hle
      have hb := (hB sb hs k hk).2.2.1 rfl
      have hk1 := hk.1
      have hk2 := hk.2
      by_cases hkl : k < sb * 2^c.M + 2^(c.M-1)
      · rw [if_neg (by omega), hb, if_pos hkl]
      · rw [if_pos (by omega), hb, if_neg hkl, zero_add, down_zw _ _ _ _ hk3]
        apply sum_congr rfl
        intro i hi
        rw [mem_range] at hi
        congr 1
        by_cases hi0 : i = 0
        · subst hi0; exact (hB sb hs k hk).2.1 (by omega)
        · exact hF i (by omega) hi k hk3
    refine ⟨s3, _, _, rfl, r3, ?_, hF⟩
    intro sb' hs' k hk
    by_cases hsb : sb' = sb
    · subst hsb
      refine ⟨fun hc => by omega, fun _ => (hB sb' hs k hk).2.1 (by omega), fun hc => by omega, fun _ => ?_⟩
      simp only [hk, if_true]
      rw [← up_down_Fl (n := c.n) (l := c.nd) (by simp only [Par.n]; omega)]
      exact up_congrOn (S := InBlk c.M sb') (fun a ha => closed_InBlk ha) (fun j hj => hacc j hj) k hk
    · have hk0 : ¬ InBlk c.M sb k := fun hc => hsb (InBlk_disj hk hc)
      have hk1 : ¬ (sb * 2^c.M + 2^(c.M-1) ≤ k ∧ k < sb * 2^c.M + 2^(c.M-1) + 2^(c.M-1)) :=
        fun hc => hk0 ⟨by omega, by omega⟩
      simp only [hk0, hk1, if_false]
      have := hB sb' hs' k hk
      exact ⟨fun hc => this.1 (by omega), fun hc => this.2.1 (by omega), fun hc => by omega,
        fun hc => this.2.2.2 (by omega)⟩

/-! ## The invariant -/

/-- state after `q` blocks of window `W` of the stream `x` -/
structure Core (c : Par) (x : ℕ → ℝ) (W q : ℕ) (s : TDUPC) : Prop where
  ex : ∃ A B C F T, Rep c (q % 2^c.p) A B C F T s ∧
    (q = 0 → ∀ i < 2^c.n, A i = 0) ∧
    (0 < q → FwdSched c.b c.p c.nd (xw c.P x W) (q-1) c.nd A) ∧
    BProg c x W (q - c.off) B (F 0) ∧
    (∀ i, 0 < i → i < c.K → ∀ k < 2^c.n, F i k = down c.n (xw c.P x (W-1-i)) k) ∧
    InvSched c.b c.p c.nd (zw c x (W-2)) q c.nd C ∧
    ∀ j < c.P, T j = if j < q * 2^c.b then (zw c x (W-2) (j + c.P)).re else (zw c x (W-3) (j + c.P)).re

theorem xw_zero_pad (P : ℕ) (x : ℕ → ℝ) (W : ℕ) : ∀ i ≥ P, xw P x W i = 0 := by
  intro i hi; unfold xw; rw [if_neg (by omega)]

/-- the rest of `Process` after the window start -/
theorem Core.step {h : ℕ → ℝ} (hH : c.H = hw c.P h) {q : ℕ} (hs : Core c x W q s) (hq : q < 2^c.p)
    (hW : c.K + 3 ≤ W) (inp : ℕ → ℝ) (hin : ∀ i < 2^c.b, inp i = x (W * c.P + q * 2^c.b + i)) :
    ∃ s' out, (do let s ← s.fill (2^c.b) inp; let s ← s.forward; let s ← s.transform
                  let s ← s.inverse; s.output (2^c.b)) = some (s', out) ∧
      (∀ i < 2^c.b, out i = ∑ k ∈ range (c.K * c.P), h k * x (W * c.P + q * 2^c.b + i - 2 * c.P - k)) ∧
      Core c x W (q+1) s' := by
  obtain ⟨A, B, C, F, T, rep, hA0, hA, hB, hF, hC, hT⟩ := hs.ex
  rw [Nat.mod_eq_of_lt hq] at rep
  have e1 : (q + 1) * 2^c.b = q * 2^c.b + 2^c.b := by ring
  have e2 : (q + 1) * 2^c.b ≤ c.P := by
    simp only [Par.P]
    rw [pow_add, mul_comm]; exact Nat.mul_le_mul_left _ hq
  have e3 : (2:ℕ)^c.n = 2 * c.P := by simp only [Par.P, Par.n]; rw [pow_succ]; ring
  obtain ⟨s1, f1, r1⟩ := rep.fill hq inp
  have hwr : ∀ i, q * 2^c.b ≤ i ∧ i < (q+1) * 2^c.b →
      ((inp (i - q * 2^c.b) : ℝ) : ℂ) = xw c.P x W i := by
    intro i hi
    unfold xw
    rw [if_pos (by omega), hin _ (by omega)]
    congr 2; omega
  have hfwd : FwdSched c.b c.p c.nd (xw c.P x W) q 0
      (fun i => if q * 2^c.b ≤ i ∧ i < (q+1) * 2^c.b then ((inp (i - q * 2^c.b) : ℝ) : ℂ) else A i) := by
    rcases Nat.eq_zero_or_pos q with hq0 | hq0
    · subst hq0
      apply FwdSched_init
      intro i hi
      unfold arrived
      split
      · next hi2 => rw [if_pos hi2.2]; exact hwr i hi2
      · next hi2 => rw [if_neg (fun hc => hi2 ⟨by omega, hc⟩)]; exact hA0 rfl i hi
    · obtain ⟨q, rfl⟩ : ∃ q', q = q' + 1 := ⟨q-1, by omega⟩
      refine FwdSched_next hq (hA (by omega)) (fun i hi => ?_)
      by_cases hi2 : (q+1) * 2^c.b ≤ i ∧ i < (q+1+1) * 2^c.b
      · rw [if_pos hi2, if_pos hi2]; exact hwr i hi2
      · rw [if_neg hi2, if_neg hi2]
  obtain ⟨s2, A', f2, r2, hA'⟩ := r1.forward hq (xw_zero_pad c.P x W) hfwd
  obtain ⟨s3, B', F', f3, r3, hB', hF'⟩ := r2.transform hB hF
  obtain ⟨s4, C', f4, r4, hC'⟩ := r3.inverse hC
  obtain ⟨s5, f5, ho, r5⟩ := r4.output hq
  simp only [Option.bind_eq_bind, f1, f2, f3, f4, f5, Option.bind_some]
  have hnd := rep.hnd
  have hpb : 0 < 2^c.b := by positivity
  have hread : ∀ j, q * 2^c.b ≤ j → j < (q+1) * 2^c.b → C' j = zw c x (W-2) j ∧ C' (j + c.P) = zw c x (W-2) (j + c.P) := by
    intro j hj1 hj2
    have hd : j / 2^c.b < q + 1 := by rw [Nat.div_lt_iff_lt_mul hpb]; exact hj2
    refine ⟨InvSched_read (by omega) hC' j (by rw [show c.b + c.p + 1 = c.n from rfl]; omega) ?_,
      InvSched_read (by omega) hC' _ (by rw [show c.b + c.p + 1 = c.n from rfl]; omega) ?_⟩
    · rw [Nat.mod_eq_of_lt (by rw [show 2^(c.b+c.p) = c.P from rfl]; omega)]; exact hd
    · rw [show 2^(c.b+c.p) = c.P from rfl, Nat.add_mod_right, Nat.mod_eq_of_lt (by omega)]; exact hd
  refine ⟨s5, _, rfl, ?_, ⟨_, _, _, _, _, r5, ?_, ?_, hB', hF', hC', ?_⟩⟩
  · intro i hi
    rw [ho i hi, (hread (q * 2^c.b + i) (by omega) (by omega)).1, hT _ (by omega), if_neg (by omega),
      ← Complex.add_re, show W - 3 = W - 2 - 1 by omega, overlap_add hH (by omega) (by omega), Complex.ofReal_re]
    apply sum_congr rfl
    intro k hk
    congr 2
    have : (W - 2) * c.P = W * c.P - 2 * c.P := by rw [Nat.sub_mul]
    have h2 : 2 * c.P ≤ W * c.P := Nat.mul_le_mul_right _ (by omega)
    omega
  · omega
  · intro _; exact hA'
  · intro j hj
    by_cases hj1 : q * 2^c.b ≤ j ∧ j < (q+1) * 2^c.b
    · rw [if_pos hj1, if_pos hj1.2, (hread j hj1.1 hj1.2).2]
    · rw [if_neg hj1, hT j hj]
      by_cases hj2 : j < q * 2^c.b
      · rw [if_pos hj2, if_pos (by omega)]
      · rw [if_neg hj2, if_neg (by omega)]

/-- start of the next window -/
theorem Core.nextWindow (hs : Core c x W (2^c.p) s) : ∃ s', s.begin = some s' ∧ Core c x (W+1) 0 s' := by
  obtain ⟨A, B, C, F, T, rep, hA0, hA, hB, hF, hC, hT⟩ := hs.ex
  rw [Nat.mod_self] at rep
  obtain ⟨s', e, r⟩ := rep.begin_zero
  have hnd := rep.hnd
  have hoff := rep.hoff
  have hp : 0 < 2^c.p := by positivity
  have h2 : 2^(c.nd+1) = 2 * 2^c.nd := by rw [pow_succ]; ring
  have e3 : 2^c.p * 2^c.b = c.P := by rw [← pow_add, add_comm]
  have hblk : ∀ k < 2^c.n, ∃ sb < 2^c.nd, InBlk c.M sb k := by
    intro k hk
    have hMp : 0 < 2^c.M := by positivity
    refine ⟨k / 2^c.M, ?_, ?_⟩
    · rw [Nat.div_lt_iff_lt_mul hMp, ← pow_add]
      rw [show c.nd + c.M = c.n by simp only [Par.n, Par.M]; omega]; exact hk
    · have := Nat.div_add_mod k (2^c.M)
      have := Nat.mod_lt k hMp
      unfold InBlk
      rw [mul_comm]; omega
  have hBall : ∀ k < 2^c.n, B k = Fl c.n c.nd (zw c x (W-1)) k ∧ F 0 k = down c.n (xw c.P x (W-1)) k := by
    intro k hk
    obtain ⟨sb, hsb, hin⟩ := hblk k hk
    have := hB sb hsb k hin
    exact ⟨this.2.2.2 (by omega), this.2.1 (by omega)⟩
  refine ⟨s', e, ⟨_, _, _, _, _, by simpa using r, ?_, ?_, ?_, ?_, ?_, ?_⟩⟩
  · intro _ i _; rfl
  · intro hc; omega
  · intro sb hsb k hk
    have hk3 : k < 2^c.n := lt_of_lt_of_le hk.2 (rep.piece_le hsb)
    refine ⟨fun _ => ?_, fun hc => by omega, fun hc => by omega, fun hc => by omega⟩
    exact FwdSched_final (xw_zero_pad c.P x W) (by omega) (hA hp) k hk3
  · intro i hi hiK k hk
    rw [if_neg (by omega)]
    by_cases hi1 : i = 1
    · subst hi1; rw [(hBall k hk).2]; congr 2
    · rw [hF (i-1) (by omega) (by omega) k hk]
      congr 2; omega
  · apply InvSched_init
    intro i hi
    rw [(hBall i hi).1]; rfl
  · intro j hj
    rw [hT j hj, if_pos (by rw [e3]; exact hj), if_neg (by omega)]; rfl

/-- state after `t` blocks of the (virtual) stream `x` -/
def TInv (c : Par) (x : ℕ → ℝ) (t : ℕ) (s : TDUPC) : Prop :=
  ∃ W q, 0 < q ∧ q ≤ 2^c.p ∧ t = W * 2^c.p + q ∧ c.K + 3 ≤ W ∧ Core c x W q s

theorem TInv.step {h : ℕ → ℝ} (hH : c.H = hw c.P h) {t : ℕ} (hs : TInv c x t s) (inp : ℕ → ℝ)
    (hin : ∀ i < 2^c.b, inp i = x (t * 2^c.b + i)) :
    ∃ s' out, s.process (2^c.b) inp = some (s', out) ∧
      (∀ i < 2^c.b, out i = ∑ k ∈ range (c.K * c.P), h k * x (t * 2^c.b + i - 2 * c.P - k)) ∧
      TInv c x (t+1) s' := by
  obtain ⟨W, q, hq, hq2, ht, hW, hcore⟩ := hs
  have e3 : 2^c.p * 2^c.b = c.P := by rw [← pow_add, add_comm]
  unfold TDUPC.process
  rcases Nat.eq_or_lt_of_le hq2 with heq | hlt
  · rw [heq] at hcore
    obtain ⟨s1, e1, hcore1⟩ := hcore.nextWindow
    have htt : t * 2^c.b = (W+1) * c.P + 0 * 2^c.b := by
      rw [ht, heq, ← e3]; ring
    obtain ⟨s', out, e2, ho, hc'⟩ := hcore1.step hH (by positivity) (by omega) inp (by rw [← htt]; exact hin)
    simp only [e1, Option.bind_eq_bind, Option.bind_some] at e2 ⊢
    refine ⟨s', out, e2, by rw [htt]; exact ho, W+1, 0+1, by omega, ?_, ?_, by omega, hc'⟩
    · exact Nat.one_le_two_pow
    · rw [ht, heq]; ring
  · obtain ⟨A, B, C, F, T, rep, _⟩ := hcore.ex
    rw [Nat.mod_eq_of_lt hlt] at rep
    have htt : t * 2^c.b = W * c.P + q * 2^c.b := by
      rw [ht, ← e3]; ring
    obtain ⟨s', out, e2, ho, hc'⟩ := hcore.step hH hlt hW inp (by rw [← htt]; exact hin)
    simp only [rep.begin_pos (by omega), Option.bind_eq_bind, Option.bind_some] at e2 ⊢
    exact ⟨s', out, e2, by rw [htt]; exact ho, W, q+1, by omega, hlt, by rw [ht]; ring, hW, hc'⟩

/-- a state with all buffers zero is a state of any stream that is silent so far -/
theorem TInv.of_zero {t : ℕ} (h : Rep c (t % 2^c.p) (fun _ => 0) (fun _ => 0) (fun _ => 0) (fun _ _ => 0) (fun _ => 0) s)
    (ht : (c.K + 5) * 2^c.p ≤ t) (hx : ∀ i < t * 2^c.b, x i = 0) : TInv c x t s := by
  have hp : 0 < 2^c.p := by positivity
  have e3 : 2^c.p * 2^c.b = c.P := by rw [← pow_add, add_comm]
  obtain ⟨W, q, hq0, hq1, htq⟩ : ∃ W q, 0 < q ∧ q ≤ 2^c.p ∧ t = W * 2^c.p + q := by
    have hd := Nat.div_add_mod (t-1) (2^c.p)
    have hm := Nat.mod_lt (t-1) hp
    have : 2^c.p ≤ (c.K+5) * 2^c.p := Nat.le_mul_of_pos_left _ (by omega)
    refine ⟨(t-1)/2^c.p, (t-1)%2^c.p + 1, by omega, by omega, ?_⟩
    rw [mul_comm] at hd; omega
  have hW : c.K + 4 ≤ W := by
    by_contra hc
    have : (W + 1) * 2^c.p < (c.K+5) * 2^c.p := Nat.mul_lt_mul_of_pos_right (by omega) hp
    rw [Nat.add_mul] at this; omega
  have hmod : t % 2^c.p = q % 2^c.p := by rw [htq, add_comm, Nat.add_mul_mod_self_right]
  rw [hmod] at h
  have htb : t * 2^c.b = W * c.P + q * 2^c.b := by rw [htq, ← e3]; ring
  rw [htb] at hx
  have hxz : ∀ V < W, xw c.P x V = fun _ => 0 := by
    intro V hV
    funext j
    unfold xw
    split
    · next hj =>
      have := Nat.mul_le_mul_right c.P (show V + 1 ≤ W from hV)
      rw [Nat.add_mul] at this
      rw [hx _ (by omega)]; simp
    · rfl
  have hzz : ∀ V < W, zw c x V = fun _ => 0 := by
    intro V hV
    funext j
    unfold zw
    apply sum_eq_zero
    intro i _
    rw [hxz (V-i) (by omega)]
    unfold circConv; simp
  refine ⟨W, q, hq0, hq1, htq, by omega, ⟨_, _, _, _, _, h, fun _ _ _ => rfl, fun _ => ?_, ?_, ?_, ?_, ?_⟩⟩
  · have hnd := h.hnd
    refine FwdSched_congr (x := fun _ => 0) (by omega) (fun _ _ => rfl) (xw_zero_pad c.P x W) ?_
      (FwdSched_zero (fun _ _ => rfl))
    intro i hi
    rw [Nat.sub_add_cancel hq0] at hi
    unfold xw
    split
    · rw [hx _ (by omega)]; simp
    · rfl
  · intro sb _ k _
    rw [hxz (W-1) (by omega), hzz (W-1) (by omega), down_zero, Fl_zero]
    exact ⟨fun _ => rfl, fun _ => rfl, fun _ => by simp, fun _ => rfl⟩
  · intro i _ _ k _
    rw [hxz (W-1-i) (by omega), down_zero]
  · rw [hzz (W-2) (by omega)]
    exact InvSched_zero (fun _ _ => rfl)
  · intro j _
    rw [hzz (W-2) (by omega), hzz (W-3) (by omega)]
    simp

/-! ## Reset and construction -/

theorem Rep.reset (h : Rep c ph A B C F T s) :
    Rep c ph (fun _ => 0) (fun _ => 0) (fun _ => 0) (fun _ _ => 0) (fun _ => 0) s.reset := by
  have hst : ∀ j < 3, s.reset.stages.get j = (s.stages.get j).clear := by
    intro j hj
    have := stages_idx_lt h.sth hj
    simp only [TDUPC.reset, Stages.clear, Stages.get]
    rw [show Stages.idx { head := s.stages.head, stages := fun i => if i < 3 then (s.stages.stages i).clear
      else s.stages.stages i } j = s.stages.idx j from rfl, if_pos this]
  have hstz : ∀ j < 3, ∀ i < 2^c.n, (s.reset.stages.get j).get 0 i = 0 := by
    intro j hj i hi
    rw [hst j hj]
    apply get_clear
    · rw [(h.get_shape hj).1]; norm_num
    · rw [(h.get_shape hj).2]; exact hi
  refine { h with
    fdlK := h.fdlK, fdlh := h.fdlh, sth := h.sth, fdl := ?_, st := ?_, tch := h.tch,
    tn := h.tn, hA := hstz 0 (by omega), hB := hstz 1 (by omega), hC := hstz 2 (by omega), hF := ?_, hT := ?_ }
  · intro i hi
    simp only [TDUPC.reset, FDL.clear, h.fdlK, hi, if_true]
    exact h.fdl i hi
  · intro i hi
    simp only [TDUPC.reset, Stages.clear, hi, if_true]
    exact h.st i hi
  · intro i hi k hk
    have hidx : s.fdl.idx i < c.K := by unfold FDL.idx; rw [h.fdlK]; exact Nat.mod_lt _ h.hK
    have hline : s.reset.fdl.line (s.reset.fdl.idx i) = (s.fdl.line (s.fdl.idx i)).clear := by
      show (if s.fdl.idx i < s.fdl.numBlocks then _ else _) = _
      rw [if_pos (by rw [h.fdlK]; exact hidx)]; rfl
    rw [hline]
    apply get_clear
    · rw [(h.fdl _ hidx).1]; norm_num
    · rw [(h.fdl _ hidx).2]; exact hk
  · intro i hi
    simp only [TDUPC.reset, Buf.clear]
    rw [if_pos ⟨by rw [h.tch]; norm_num, by rw [h.tn]; exact hi⟩]

theorem Rep.create (c : Par) (hnd : c.nd + 1 ≤ c.p) (hoff : c.off + 2^(c.nd+1) ≤ 2^c.p) (hK : 0 < c.K)
    (filters : ℕ → CBuf) (fch : ℕ) (tail0 : ℕ → ℕ → ℝ)
    (hf : ∀ i < c.K, (filters i).np = 2^c.n ∧ fch < (filters i).ch ∧
      ∀ k < 2^c.n, (filters i).get fch k = down c.n (c.H i) k) :
    Rep c 0 (fun _ => 0) (fun _ => 0) (fun _ => 0) (fun _ _ => 0) (fun _ => 0)
      (TDUPC.create (2^c.b) (2^c.p) c.K filters fch c.off c.nd tail0) := by
  have e3 : 2^c.b * 2^c.p = c.P := by rw [← pow_add]
  have e4 : 2 * (2^c.b * 2^c.p) = 2^c.n := by rw [e3]; simp only [Par.P, Par.n]; rw [pow_succ]; ring
  unfold TDUPC.create
  refine Rep.reset (A := (CBuf.mk0 (2^c.n) 1).clear.get 0) (B := (CBuf.mk0 (2^c.n) 1).clear.get 0)
    (C := (CBuf.mk0 (2^c.n) 1).clear.get 0) (F := fun _ => (CBuf.mk0 (2^c.n) 1).clear.get 0)
    (T := tail0 0) (ph := 0) ?_
  simp only [e4]
  exact
    { partSize := e3, fftPoints := rfl, numPhases := rfl, phase := rfl, nd := rfl, hnd := hnd, hoff := hoff,
      off := rfl, K := rfl, Kf := rfl, hK := hK, filt := hf, fdlK := rfl, fdlh := hK,
      fdl := fun i _ => ⟨rfl, rfl⟩, sth := by show 0 < 3; omega, st := fun i _ => ⟨rfl, rfl⟩, tch := rfl, tn := e3,
      hA := fun i _ => rfl, hB := fun i _ => rfl, hC := fun i _ => rfl, hF := fun i _ k _ => rfl,
      hT := fun i _ => rfl }

theorem TInv.rep {t : ℕ} (h : TInv c x t s) : ∃ A B C F T, Rep c (t % 2^c.p) A B C F T s := by
  obtain ⟨W, q, _, _, ht, _, hc⟩ := h
  obtain ⟨A, B, C, F, T, rep, _⟩ := hc.ex
  refine ⟨A, B, C, F, T, ?_⟩
  rw [ht, add_comm, Nat.add_mul_mod_self_right]; exact rep

end Zones.Proofs
