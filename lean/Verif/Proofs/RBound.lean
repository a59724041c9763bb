import Verif.Proofs.RConvolver
import Verif.Proofs.Feed
import Verif.Spec.FloatRange

/-! # Rounding errors: bounds in terms of the impulse response, streams and histories -/

open Finset Zones.Spec Zones.Model

namespace Zones.Proofs.R

/-- sum of the magnitudes of the first `n` samples -/
noncomputable def r1 (n : ℕ) (h : ℕ → ℝ) : ℝ := ∑ k ∈ range n, |h k|

theorem r1_nonneg (n : ℕ) (h : ℕ → ℝ) : 0 ≤ r1 n h := sum_nonneg fun _ _ => abs_nonneg _

theorem r1_add (a b : ℕ) (h : ℕ → ℝ) : r1 (a + b) h = r1 a h + r1 b (fun k => h (a + k)) := by
  unfold r1; rw [sum_range_add]

theorem blockNorm_nonneg (h : ℕ → ℝ) (a P : ℕ) : 0 ≤ blockNorm h a P := Real.sqrt_nonneg _

theorem blockNorm_le (h : ℕ → ℝ) (a P : ℕ) : blockNorm h a P ≤ r1 P (fun j => h (a + j)) := by
  unfold blockNorm r1
  rw [Real.sqrt_le_left (sum_nonneg fun _ _ => abs_nonneg _)]
  have key : ∀ n, ∑ j ∈ range n, h (a + j) ^ 2 ≤ (∑ j ∈ range n, |h (a + j)|) ^ 2 := by
    intro n
    induction n with
    | zero => simp
    | succ n ih =>
      rw [sum_range_succ, sum_range_succ, add_sq, sq_abs]
      have h1 : 0 ≤ ∑ j ∈ range n, |h (a + j)| := sum_nonneg fun _ _ => abs_nonneg _
      have h2 := abs_nonneg (h (a + n))
      nlinarith
  exact key P

theorem r1_blocks (P : ℕ) (h : ℕ → ℝ) (off K : ℕ) :
    ∑ i ∈ range K, r1 P (fun j => h (off + i * P + j)) = r1 (K * P) (fun j => h (off + j)) := by
  induction K with
  | zero => simp [r1]
  | succ K ih =>
    rw [sum_range_succ, ih, Nat.add_mul, one_mul, r1_add]
    simp only [add_assoc]

theorem r1_zext (ir : Buf) (c n : ℕ) : r1 n (zext ir c) ≤ r1 ir.n (ir.data c) := by
  have h1 : r1 n (zext ir c) ≤ r1 (ir.n + n) (zext ir c) := by
    rw [add_comm, r1_add]
    linarith [r1_nonneg ir.n (fun k => zext ir c (n + k))]
  have h2 : r1 n (fun k => zext ir c (ir.n + k)) = 0 := by
    unfold r1
    refine sum_eq_zero fun k _ => ?_
    simp only [zext]; rw [if_neg (by omega), abs_zero]
  rw [r1_add, h2, add_zero] at h1
  refine h1.trans (le_of_eq ?_)
  unfold r1
  refine sum_congr rfl fun k hk => ?_
  unfold zext; rw [if_pos (mem_range.mp hk)]

theorem schemeNorm_nonneg (B : ℕ) (h : ℕ → ℝ) : ∀ (sch : List Layout) (off : ℕ), 0 ≤ schemeNorm B h off sch
  | [], _ => le_rfl
  | l :: rest, off => add_nonneg (mul_nonneg (by positivity) (sum_nonneg fun _ _ => blockNorm_nonneg _ _ _))
      (schemeNorm_nonneg B h rest _)

theorem schemeNorm_le {B L : ℕ} (h : ℕ → ℝ) : ∀ (sch : List Layout) (off : ℕ), (∀ l ∈ sch, 2 * (l.psb * B) ≤ 2^L) →
    ∃ m, schemeNorm B h off sch ≤ 2 * √(2^L) * r1 m (fun k => h (off + k))
  | [], off, _ => ⟨0, by simp [schemeNorm, r1]⟩
  | l :: rest, off, hL => by
    obtain ⟨m, hm⟩ := schemeNorm_le (L := L) h rest (off + l.np * (l.psb * B)) fun l' hl' => hL l' (List.mem_cons_of_mem _ hl')
    have hl := hL l (List.mem_cons_self ..)
    refine ⟨l.np * (l.psb * B) + m, ?_⟩
    unfold schemeNorm
    rw [r1_add, mul_add]
    refine add_le_add ?_ (hm.trans (le_of_eq (by simp only [add_assoc])))
    rw [← r1_blocks]
    refine mul_le_mul (mul_le_mul_of_nonneg_left (Real.sqrt_le_sqrt ?_) (by norm_num))
      (sum_le_sum fun i _ => blockNorm_le _ _ _) (sum_nonneg fun _ _ => blockNorm_nonneg _ _ _) (by positivity)
    exact_mod_cast hl

theorem schemeNorm_le_r1 {B L : ℕ} (ir : Buf) (c : ℕ) {sch : List Layout} (hL : ∀ l ∈ sch, 2 * (l.psb * B) ≤ 2^L) :
    schemeNorm B (zext ir c) 0 sch ≤ 2 * √(2^L) * r1 ir.n (ir.data c) := by
  obtain ⟨m, hm⟩ := schemeNorm_le (zext ir c) sch 0 hL
  refine hm.trans (mul_le_mul_of_nonneg_left ?_ (by positivity))
  simp only [zero_add]
  exact r1_zext ir c m

theorem segK_mul {P : ℕ} (hP : 0 < P) (seg : Buf) : segK P seg * P < seg.n + P := by
  unfold segK
  have h1 := Nat.div_add_mod (seg.n + P - 1) P
  rw [mul_comm] at h1
  omega

theorem segK_le {P np : ℕ} (hP : 0 < P) {seg : Buf} (h : seg.n ≤ np * P) : segK P seg ≤ np := by
  unfold segK
  have : (seg.n + P - 1) / P < np + 1 := by
    rw [Nat.div_lt_iff_lt_mul hP, Nat.add_mul, one_mul]; omega
  omega

theorem schemeNormF_zero (B : ℕ) (h : ℕ → ℝ) : ∀ (sch : List Layout) (off : ℕ), schemeNormF 0 B h off sch = schemeNorm B h off sch
  | [], _ => rfl
  | l :: rest, off => by
    unfold schemeNormF schemeNorm
    rw [schemeNormF_zero B h rest]
    simp only [mul_zero, max_eq_right (blockNorm_nonneg _ _ _)]

theorem outputWeightF_zero (B : ℕ) (ir : Buf) (sch : List Layout) (outRouting : List ℤ) (X : ℕ → ℝ) (o : ℕ) :
    outputWeightF 0 B ir sch outRouting X o = outputWeight B ir sch outRouting X o := by
  unfold outputWeightF outputWeight
  simp only [schemeNormF_zero]

theorem floorNorm_nonneg (θ : ℝ) (h : ℕ → ℝ) (a P : ℕ) : 0 ≤ max (√(P : ℕ) * θ) (blockNorm h a P) :=
  (blockNorm_nonneg _ _ _).trans (le_max_right _ _)

theorem schemeNormF_nonneg (θ : ℝ) (B : ℕ) (h : ℕ → ℝ) : ∀ (sch : List Layout) (off : ℕ), 0 ≤ schemeNormF θ B h off sch
  | [], _ => le_rfl
  | l :: rest, off => add_nonneg (mul_nonneg (by positivity) (sum_nonneg fun _ _ => floorNorm_nonneg _ _ _ _))
      (schemeNormF_nonneg θ B h rest _)

/-- the partitions of one stage -/
theorem stage_sum {θ : ℝ} {P np off : ℕ} (hP : 0 < P) {ir : Buf} {c : ℕ} (hc : c < ir.ch)
    {seg : Buf} (hseg : seg = ⟨ir.ch, min (np * P) (ir.n - off), fun c i => ir.data c (off + i)⟩) :
    ∑ i ∈ range (segK P seg), pnF θ P (zext seg (c % seg.ch)) i ≤
      ∑ i ∈ range np, max (√(P : ℕ) * θ) (blockNorm (zext ir c) (off + i * P) P) := by
  have hn : seg.n = min (np * P) (ir.n - off) := by rw [hseg]
  have hle : segK P seg ≤ np := segK_le hP (by rw [hn]; exact min_le_left _ _)
  have e : ∀ i < np, pnorm P (zext seg (c % seg.ch)) i = blockNorm (zext ir c) (off + i * P) P := by
    intro i hi
    unfold pnorm l2 blockNorm
    congr 1
    refine sum_congr rfl fun j hj => ?_
    rw [mem_range] at hj
    rw [Complex.norm_real, Real.norm_eq_abs, sq_abs]
    congr 1
    have h1 : i * P + P ≤ np * P := by
      calc i * P + P = (i+1) * P := by ring
        _ ≤ _ := Nat.mul_le_mul_right _ hi
    unfold zext
    rw [hn]
    have hch : seg.ch = ir.ch := by rw [hseg]
    have hd : ∀ i, seg.data c i = ir.data c (off + i) := by intro i; rw [hseg]
    rw [hch, Nat.mod_eq_of_lt hc, hd]
    by_cases hlt : off + i * P + j < ir.n
    · rw [if_pos (by omega), if_pos hlt, ← add_assoc]
    · rw [if_neg (by omega), if_neg hlt]
  have e2 : ∑ i ∈ range np, max (√(P : ℕ) * θ) (blockNorm (zext ir c) (off + i * P) P) =
      ∑ i ∈ range np, pnF θ P (zext seg (c % seg.ch)) i :=
    sum_congr rfl fun i hi => by unfold pnF; rw [e i (mem_range.mp hi)]
  rw [e2]
  exact sum_le_sum_of_subset_of_nonneg (range_mono hle) fun _ _ _ => pnF_nonneg _ _ _ _

/-- one stage -/
theorem stage_size {θ : ℝ} {N P np off : ℕ} (hP : 0 < P) (hN : N ≤ 2 * P) {ir : Buf} {c : ℕ} (hc : c < ir.ch) {X : ℝ} (hX : 0 ≤ X)
    {seg : Buf} (hseg : seg = ⟨ir.ch, min (np * P) (ir.n - off), fun c i => ir.data c (off + i)⟩) :
    msize θ N P (segK P seg) (zext seg (c % seg.ch)) X ≤
      X * (2 * √(2 * P : ℕ) * ∑ i ∈ range np, max (√(P : ℕ) * θ) (blockNorm (zext ir c) (off + i * P) P)) := by
  have h1 := stage_sum (θ := θ) hP hc hseg
  unfold msize
  rw [show 2 * √N * X * ∑ i ∈ range (segK P seg), pnF θ P (zext seg (c % seg.ch)) i =
    X * (2 * √N * ∑ i ∈ range (segK P seg), pnF θ P (zext seg (c % seg.ch)) i) by ring]
  refine mul_le_mul_of_nonneg_left (mul_le_mul (mul_le_mul_of_nonneg_left (Real.sqrt_le_sqrt ?_) (by norm_num)) h1
    (sum_nonneg fun _ _ => pnF_nonneg _ _ _ _) (by positivity)) hX
  exact_mod_cast hN

/-- the layouts after the first: the sizes of the results add up -/
theorem specs_size {θ : ℝ} {b : ℕ} {ir : Buf} {X : ℝ} (hX : 0 ≤ X) {c : ℕ} (hc : c < ir.ch) :
    ∀ (rest : List Layout) (off : ℕ), GoodRest (2^b) ir.n off rest →
    ((mkSpecs (2^b) ir off rest).map (SubSpec.M θ b X c)).sum ≤ X * schemeNormF θ (2^b) (zext ir c) off rest
  | [], off, _ => by simp [mkSpecs, schemeNormF]
  | l :: rest, off, h => by
    obtain ⟨⟨p, hp, hpsb⟩, hnp, hclr, h24, hoff, hmono, hrest⟩ := h
    have hlog : Nat.log 2 l.psb = p := by rw [hpsb]; exact Nat.log_pow (by norm_num) p
    have hP : l.psb * 2^b = 2^(b+p) := by rw [hpsb, ← pow_add, add_comm]
    have ih := specs_size (θ := θ) hX hc rest _ hrest
    have hsam : l.samples (2^b) = l.np * (l.psb * 2^b) := by unfold Layout.samples; ring
    simp only [mkSpecs, List.map_cons, List.sum_cons, schemeNormF]
    rw [← hsam, mul_add]
    refine add_le_add ?_ ih
    unfold SubSpec.M segM
    simp only [hlog]
    rw [hsam, hP]
    exact stage_size (by positivity) (by omega) hc hX rfl

theorem specs_sum {θ : ℝ} {b : ℕ} {ir : Buf} {c : ℕ} (hc : c < ir.ch) :
    ∀ (rest : List Layout) (off : ℕ), GoodRest (2^b) ir.n off rest → ∀ a ∈ mkSpecs (2^b) ir off rest,
    2 * (√(2 * 2^(b+a.p) : ℕ) * ∑ i ∈ range (segK (2^(b+a.p)) a.seg), pnF θ (2^(b+a.p)) (zext a.seg (c % a.seg.ch)) i) ≤
      schemeNormF θ (2^b) (zext ir c) off rest
  | [], off, _ => by simp [mkSpecs]
  | l :: rest, off, h => by
    obtain ⟨⟨p, hp, hpsb⟩, hnp, hclr, h24, hoff, hmono, hrest⟩ := h
    have hlog : Nat.log 2 l.psb = p := by rw [hpsb]; exact Nat.log_pow (by norm_num) p
    have hP : l.psb * 2^b = 2^(b+p) := by rw [hpsb, ← pow_add, add_comm]
    have ih := specs_sum (θ := θ) hc rest _ hrest
    have hsam : l.samples (2^b) = l.np * (l.psb * 2^b) := by unfold Layout.samples; ring
    have h0 := schemeNormF_nonneg θ (2^b) (zext ir c) rest (off + l.samples (2^b))
    intro a ha
    unfold mkSpecs at ha
    unfold schemeNormF
    rw [← hsam]
    rcases List.mem_cons.mp ha with rfl | ha
    · simp only [hlog]
      have h1 := stage_sum (θ := θ) (P := 2^(b+p)) (np := l.np) (off := off) (by positivity) hc rfl
      rw [hsam, hP] at *
      have h2 := mul_le_mul_of_nonneg_left h1 (show 0 ≤ 2 * √(2 * 2^(b+p) : ℕ) by positivity)
      rw [← mul_assoc]
      linarith
    · have h1 := ih a ha
      have h2 : 0 ≤ 2 * √(2 * (l.psb * 2^b) : ℕ) *
          ∑ i ∈ range l.np, max (√(l.psb * 2^b : ℕ) * θ) (blockNorm (zext ir c) (off + i * (l.psb * 2^b)) (l.psb * 2^b)) :=
        mul_nonneg (by positivity) (sum_nonneg fun _ _ => floorNorm_nonneg _ _ _ _)
      linarith

theorem fftN_le {b : ℕ} : 2^fftOrder (2^b) ≤ 2 * 2^b := by
  unfold fftOrder
  rw [mul_comm, ← pow_succ', Nat.clog_pow 2 _ (by norm_num)]

theorem first_sum {θ : ℝ} {b : ℕ} {ir : Buf} {n0 : ℕ} {rest : List Layout} {c : ℕ} (hc : c < ir.ch) :
    2 * (√(2 * 2^b : ℕ) * ∑ i ∈ range (segK (2^b) (nPar (2^b) ir.ch ir n0 rest).seg0),
      pnF θ (2^b) (zext (nPar (2^b) ir.ch ir n0 rest).seg0 (c % (nPar (2^b) ir.ch ir n0 rest).seg0.ch)) i) ≤
      schemeNormF θ (2^b) (zext ir c) 0 (⟨1, n0⟩ :: rest) := by
  have h1 := stage_sum (θ := θ) (P := 2^b) (np := n0) (off := 0) (by positivity) hc
    (seg := (nPar (2^b) ir.ch ir n0 rest).seg0) (by simp only [nPar, Nat.sub_zero])
  have h0 := schemeNormF_nonneg θ (2^b) (zext ir c) rest (0 + n0 * (1 * 2^b))
  unfold schemeNormF
  rw [one_mul] at h0 ⊢
  have h2 := mul_le_mul_of_nonneg_left h1 (show 0 ≤ 2 * √(2 * 2^b : ℕ) by positivity)
  rw [← mul_assoc]
  linarith

theorem rest_sum {θ : ℝ} {b : ℕ} {ir : Buf} {n0 : ℕ} {rest : List Layout} {c : ℕ} :
    schemeNormF θ (2^b) (zext ir c) (n0 * 2^b) rest ≤ schemeNormF θ (2^b) (zext ir c) 0 (⟨1, n0⟩ :: rest) := by
  have h2 : 0 ≤ 2 * √(2 * 2^b : ℕ) *
      ∑ i ∈ range n0, max (√(2^b : ℕ) * θ) (blockNorm (zext ir c) (0 + i * 2^b) (2^b)) :=
    mul_nonneg (by positivity) (sum_nonneg fun _ _ => floorNorm_nonneg _ _ _ _)
  rw [show schemeNormF θ (2^b) (zext ir c) 0 (⟨1, n0⟩ :: rest) = _ by rw [schemeNormF]]
  rw [one_mul, zero_add]
  linarith

/-- size of the results of the whole convolver -/
theorem nPar_size {θ : ℝ} {b : ℕ} {ir : Buf} {n0 : ℕ} {rest : List Layout} {X : ℝ} (hX : 0 ≤ X) {c : ℕ} (hc : c < ir.ch)
    (hgood : GoodRest (2^b) ir.n (n0 * 2^b) rest) :
    NPar.M θ (nPar (2^b) ir.ch ir n0 rest) X c ≤ X * schemeNormF θ (2^b) (zext ir c) 0 (⟨1, n0⟩ :: rest) := by
  have hB : 0 < 2^b := by positivity
  unfold NPar.M schemeNormF
  rw [mul_add]
  refine add_le_add ?_ ?_
  · unfold NPar.M0
    have := stage_size (θ := θ) (N := (uPar (2^b) ir.ch (nPar (2^b) ir.ch ir n0 rest).seg0).N) (off := 0) (np := n0) hB fftN_le hc hX
      (seg := (nPar (2^b) ir.ch ir n0 rest).seg0) (by simp only [nPar, Nat.sub_zero])
    rw [one_mul]
    exact this
  · have e : Nat.log 2 (nPar (2^b) ir.ch ir n0 rest).B = b := Nat.log_pow (by norm_num) b
    rw [e, one_mul, zero_add]
    exact specs_size (b := b) hX hc rest (n0 * 2^b) hgood

/-! ## The window -/

/-- how far back the rounding errors reach -/
def memory (ir : Buf) (B L : ℕ) : ℕ := ir.n + 2^L + B

theorem first_win {b : ℕ} {ir : Buf} {n0 : ℕ} {rest : List Layout} {L : ℕ} (hL : 2 * 2^b ≤ 2^L) :
    (uPar (2^b) ir.ch (nPar (2^b) ir.ch ir n0 rest).seg0).N + segK (2^b) (nPar (2^b) ir.ch ir n0 rest).seg0 * 2^b ≤
      memory ir (2^b) L := by
  have h1 : (uPar (2^b) ir.ch (nPar (2^b) ir.ch ir n0 rest).seg0).N ≤ 2 * 2^b := fftN_le
  have h2 := segK_mul (P := 2^b) (by positivity) (nPar (2^b) ir.ch ir n0 rest).seg0
  have h3 : (nPar (2^b) ir.ch ir n0 rest).seg0.n ≤ ir.n := min_le_right _ _
  unfold memory
  omega

theorem specs_win {b : ℕ} {ir : Buf} {L : ℕ} :
    ∀ (rest : List Layout) (off : ℕ), GoodRest (2^b) ir.n off rest → (∀ l ∈ rest, 2 * (l.psb * 2^b) ≤ 2^L) →
    ∀ a ∈ mkSpecs (2^b) ir off rest, a.e + (segK (2^(b+a.p)) a.seg + 3) * 2^(b+a.p) ≤ memory ir (2^b) L
  | [], _, _, _ => by simp [mkSpecs]
  | l :: rest, off, h, hL => by
    obtain ⟨⟨p, hp, hpsb⟩, hnp, hclr, h24, hoff, hmono, hrest⟩ := h
    have hlog : Nat.log 2 l.psb = p := by rw [hpsb]; exact Nat.log_pow (by norm_num) p
    have hP : l.psb * 2^b = 2^(b+p) := by rw [hpsb, ← pow_add, add_comm]
    have ih := specs_win rest _ hrest fun l' hl' => hL l' (List.mem_cons_of_mem _ hl')
    have hl1 := hL l (List.mem_cons_self ..)
    intro a ha
    unfold mkSpecs at ha
    rcases List.mem_cons.mp ha with rfl | ha
    · simp only [hlog]
      have h2 := segK_mul (P := 2^(b+p)) (by positivity) ⟨ir.ch, min (l.samples (2^b)) (ir.n - off), fun c i => ir.data c (off + i)⟩
      have h3 : min (l.samples (2^b)) (ir.n - off) ≤ ir.n - off := min_le_right _ _
      simp only at h2
      rw [hP] at hl1 hclr h24 ⊢
      unfold memory
      generalize 2^(b+p) = P at h2 hl1 hclr ⊢
      rw [Nat.add_mul]
      generalize segK P _ * P = q at h2 ⊢
      clear h24 hpsb hlog
      generalize 2^b = B at *
      omega
    · exact ih a ha

/-! ## Error factors -/

/-- error factor of a convolver whose transforms have at most `2^L` points and whose stages have at most `K` partitions -/
noncomputable def worst (u τ ε : ℝ) (L K : ℕ) : ℝ := (1 + ε) ^ 3 * ((1 + u) ^ 3 * (1 + τ)) ^ (3 * L) * (1 + u) ^ (K + 2)

theorem one_le_lvl {u τ : ℝ} (hu : 0 ≤ u) (hτ : 0 ≤ τ) : 1 ≤ (1 + u) ^ 3 * (1 + τ) := by
  have : 1 ≤ (1 + u) ^ 3 := one_le_pow₀ (by linarith)
  nlinarith

theorem one_le_worst {u τ ε : ℝ} (hu : 0 ≤ u) (hτ : 0 ≤ τ) (hε : 0 ≤ ε) (L K : ℕ) : 1 ≤ worst u τ ε L K := by
  unfold worst
  have h1 : 1 ≤ (1 + ε) ^ 3 := one_le_pow₀ (by linarith)
  have h2 : 1 ≤ ((1 + u) ^ 3 * (1 + τ)) ^ (3 * L) := one_le_pow₀ (one_le_lvl hu hτ)
  have h3 : 1 ≤ (1 + u) ^ (K + 2) := one_le_pow₀ (by linarith)
  exact one_le_mul_of_one_le_of_one_le (one_le_mul_of_one_le_of_one_le h1 h2) h3

theorem upK_le_worst {u τ ε : ℝ} (hu : 0 ≤ u) (hτ : 0 ≤ τ) (hε : 0 ≤ ε) {L K k : ℕ} (hk : k ≤ K) :
    upK u ε k ≤ worst u τ ε L K := by
  unfold worst upK
  have h1 : 1 ≤ (1 + ε) ^ 3 := one_le_pow₀ (by linarith)
  have h2 : 1 ≤ ((1 + u) ^ 3 * (1 + τ)) ^ (3 * L) := one_le_pow₀ (one_le_lvl hu hτ)
  have h3 : (1 + u) ^ (k + 1) ≤ (1 + u) ^ (K + 2) := pow_le_pow_right₀ (by linarith) (by omega)
  refine mul_le_mul ?_ h3 (by positivity) (by positivity)
  nlinarith

theorem tdK_le_worst {u τ ε : ℝ} (hu : 0 ≤ u) (hτ : 0 ≤ τ) (hε : 0 ≤ ε) {L K k n : ℕ} (hk : k ≤ K) (hn : n ≤ L) :
    tdK u τ n k ≤ worst u τ ε L K := by
  unfold worst tdK lvl
  have h1 : 1 ≤ (1 + ε) ^ 3 := one_le_pow₀ (by linarith)
  have h2 : ((1 + u) ^ 3 * (1 + τ)) ^ (3 * n) ≤ ((1 + u) ^ 3 * (1 + τ)) ^ (3 * L) :=
    pow_le_pow_right₀ (one_le_lvl hu hτ) (by omega)
  have h3 : (1 + u) ^ (k + 2) ≤ (1 + u) ^ (K + 2) := pow_le_pow_right₀ (by linarith) (by omega)
  have h4 : 0 ≤ ((1 + u) ^ 3 * (1 + τ)) ^ (3 * n) := by positivity
  refine mul_le_mul ?_ h3 (by positivity) (by positivity)
  nlinarith

theorem specs_kappa {u τ ε : ℝ} (hu : 0 ≤ u) (hτ : 0 ≤ τ) (hε : 0 ≤ ε) {b : ℕ} {ir : Buf} {L K : ℕ} :
    ∀ (rest : List Layout) (off : ℕ), GoodRest (2^b) ir.n off rest →
    (∀ l ∈ rest, 2 * (l.psb * 2^b) ≤ 2^L ∧ l.np ≤ K) →
    ∀ a ∈ mkSpecs (2^b) ir off rest, b + a.p + 1 ≤ L ∧ tdK u τ (b + a.p + 1) (segK (2^(b+a.p)) a.seg) ≤ worst u τ ε L K
  | [], _, _, _ => by simp [mkSpecs]
  | l :: rest, off, h, hL => by
    obtain ⟨⟨p, hp, hpsb⟩, hnp, hclr, h24, hoff, hmono, hrest⟩ := h
    have hlog : Nat.log 2 l.psb = p := by rw [hpsb]; exact Nat.log_pow (by norm_num) p
    have hP : l.psb * 2^b = 2^(b+p) := by rw [hpsb, ← pow_add, add_comm]
    have ih := specs_kappa hu hτ hε rest _ hrest fun l' hl' => hL l' (List.mem_cons_of_mem _ hl')
    obtain ⟨hl1, hl2⟩ := hL l (List.mem_cons_self ..)
    intro a ha
    unfold mkSpecs at ha
    rcases List.mem_cons.mp ha with rfl | ha
    · simp only [hlog]
      have h1 : b + p + 1 ≤ L := by
        rw [hP, ← pow_succ'] at hl1
        exact (Nat.pow_le_pow_iff_right (by norm_num)).mp hl1
      refine ⟨h1, tdK_le_worst hu hτ hε ((segK_le (by positivity) ?_).trans hl2) h1⟩
      show min (l.samples (2^b)) (ir.n - off) ≤ _
      unfold Layout.samples
      rw [← hP]
      refine (min_le_left _ _).trans (le_of_eq ?_)
      ring
    · exact ih a ha

/-! ## Streams -/

/-- a process that writes values related to `y` when its input continues `x` does so over any sequence of blocks -/
theorem feed_rel_ok {σ : Type} {process : σ → Buf → Option (σ × Buf)} {Inv : ℕ → σ → Prop} {N : ℕ} {ok : Buf → Prop}
    {x : ℕ → ℕ → ℝ} {R : ℕ → ℕ → ℝ → Prop}
    (step : ∀ t s blk, Inv t s → blk.ch = N → ok blk → (∀ ch < N, ∀ i < blk.n, blk.data ch i = x ch (t + i)) →
      ∃ s' blk', process s blk = some (s', blk') ∧ blk'.n = blk.n ∧ blk'.ch = N ∧
        (∀ o < N, ∀ i < blk.n, R o (t + i) (blk'.data o i)) ∧ Inv (t + blk.n) s') :
    ∀ (blocks : List Buf) (t : ℕ) (s : σ), Inv t s → (∀ b ∈ blocks, b.ch = N ∧ ok b) →
      (∀ ch < N, ∀ i < totalLen blocks, stream blocks ch i = x ch (t + i)) →
      ∃ s' outs, feed process s blocks = some (s', outs) ∧ SameShape blocks outs ∧
        (∀ o < N, ∀ i < totalLen blocks, R o (t + i) (stream outs o i)) ∧ Inv (t + totalLen blocks) s'
  | [], t, s, h, _, _ => ⟨s, [], rfl, List.Forall₂.nil, fun o _ i hi => absurd hi (by simp [totalLen]), h⟩
  | b :: bs, t, s, h, hok, hx => by
    obtain ⟨s1, b1, e1, n1, c1, d1, h1⟩ := step t s b h (hok b (List.mem_cons_self ..)).1 (hok b (List.mem_cons_self ..)).2 (by
        intro ch hc i hi
        have := hx ch hc i (by simp only [totalLen]; omega)
        simp only [stream, hi, if_true] at this
        exact this)
    obtain ⟨s2, outs, e2, sh2, d2, h2⟩ := feed_rel_ok step bs (t + b.n) s1 h1
      (fun b' hb' => hok b' (List.mem_cons_of_mem _ hb')) (by
        intro ch hc i hi
        have := hx ch hc (b.n + i) (by simp only [totalLen]; omega)
        simp only [stream] at this
        rw [if_neg (by omega), show b.n + i - b.n = i by omega] at this
        rw [this, add_assoc])
    refine ⟨s2, b1 :: outs, ?_, ?_, ?_, ?_⟩
    · unfold feed
      rw [e1]
      simp only [Option.bind_some]
      rw [e2]; rfl
    · exact List.Forall₂.cons ⟨by rw [c1, (hok b (List.mem_cons_self ..)).1], n1.symm⟩ sh2
    · intro o ho i hi
      simp only [totalLen] at hi
      simp only [stream, n1]
      by_cases hlt : i < b.n
      · rw [if_pos hlt]; exact d1 o ho i hlt
      · rw [if_neg hlt]
        have := d2 o ho (i - b.n) (by omega)
        rw [show t + b.n + (i - b.n) = t + i by omega] at this
        exact this
    · simp only [totalLen]; rw [← add_assoc]; exact h2

/-- any history of admissible operations is defined and ends in a state of the invariant -/
theorem history_rel_ok {σ : Type} {process : σ → Buf → Option (σ × Buf)} {reset : σ → σ}
    {Inv : (ℕ → ℕ → ℝ) → ℕ → σ → Prop} {N : ℕ} {ok : Buf → Prop}
    (step : ∀ x t s blk, Inv x t s → blk.ch = N → ok blk →
      (∀ ch < N, ∀ i < blk.n, blk.data ch i = x ch (t + i)) →
      ∃ s' blk', process s blk = some (s', blk') ∧ Inv x (t + blk.n) s')
    (hreset : ∀ x t s x', Inv x t s → Inv x' 0 (reset s)) :
    ∀ (ops : List Op) (x : ℕ → ℕ → ℝ) (t : ℕ) (s : σ), Inv x t s →
      (∀ b, Op.process b ∈ ops → b.ch = N ∧ ok b) →
      (∀ ch i, i < totalLen (lead ops) → stream (lead ops) ch i = x ch (t + i)) →
      ∃ s', history process reset s ops = some s' ∧ ∃ x t, Inv x t s'
  | [], x, t, s, h, _, _ => ⟨s, rfl, x, t, h⟩
  | .process b :: ops, x, t, s, h, hok, hx => by
    obtain ⟨s1, b1, e1, h1⟩ := step x t s b h (hok b (List.mem_cons_self ..)).1 (hok b (List.mem_cons_self ..)).2 (by
      intro ch hc i hi
      have := hx ch i (by simp only [lead, totalLen]; omega)
      simp only [lead, stream, hi, if_true] at this
      exact this)
    obtain ⟨s2, e2, h2⟩ := history_rel_ok step hreset ops x (t + b.n) s1 h1
      (fun b' hb' => hok b' (List.mem_cons_of_mem _ hb')) (by
        intro ch i hi
        have := hx ch (b.n + i) (by simp only [lead, totalLen]; omega)
        simp only [lead, stream] at this
        rw [if_neg (by omega), show b.n + i - b.n = i by omega] at this
        rw [this, add_assoc])
    refine ⟨s2, ?_, h2⟩
    unfold history; rw [e1]; exact e2
  | .reset :: ops, x, t, s, h, hok, hx =>
    history_rel_ok step hreset ops (stream (lead ops)) 0 (reset s) (hreset x t s _ h)
      (fun b' hb' => hok b' (List.mem_cons_of_mem _ hb')) (fun ch i _ => by rw [zero_add])

theorem feed_rel {σ : Type} {process : σ → Buf → Option (σ × Buf)} {Inv : ℕ → σ → Prop} {N : ℕ}
    {x : ℕ → ℕ → ℝ} {R : ℕ → ℕ → ℝ → Prop}
    (step : ∀ t s blk, Inv t s → blk.ch = N → (∀ ch < N, ∀ i < blk.n, blk.data ch i = x ch (t + i)) →
      ∃ s' blk', process s blk = some (s', blk') ∧ blk'.n = blk.n ∧ blk'.ch = N ∧
        (∀ o < N, ∀ i < blk.n, R o (t + i) (blk'.data o i)) ∧ Inv (t + blk.n) s')
    (blocks : List Buf) (t : ℕ) (s : σ) (h : Inv t s) (hok : ∀ b ∈ blocks, b.ch = N)
    (hx : ∀ ch < N, ∀ i < totalLen blocks, stream blocks ch i = x ch (t + i)) :
      ∃ s' outs, feed process s blocks = some (s', outs) ∧ SameShape blocks outs ∧
        (∀ o < N, ∀ i < totalLen blocks, R o (t + i) (stream outs o i)) ∧ Inv (t + totalLen blocks) s' :=
  feed_rel_ok (ok := fun _ => True) (fun t s blk h hn _ hx => step t s blk h hn hx) blocks t s h (fun b hb => ⟨hok b hb, trivial⟩) hx

theorem history_rel {σ : Type} {process : σ → Buf → Option (σ × Buf)} {reset : σ → σ}
    {Inv : (ℕ → ℕ → ℝ) → ℕ → σ → Prop} {N : ℕ}
    (step : ∀ x t s blk, Inv x t s → blk.ch = N →
      (∀ ch < N, ∀ i < blk.n, blk.data ch i = x ch (t + i)) →
      ∃ s' blk', process s blk = some (s', blk') ∧ Inv x (t + blk.n) s')
    (hreset : ∀ x t s x', Inv x t s → Inv x' 0 (reset s))
    (ops : List Op) (x : ℕ → ℕ → ℝ) (t : ℕ) (s : σ) (h : Inv x t s)
    (hok : ∀ b, Op.process b ∈ ops → b.ch = N)
    (hx : ∀ ch i, i < totalLen (lead ops) → stream (lead ops) ch i = x ch (t + i)) :
      ∃ s', history process reset s ops = some s' ∧ ∃ x t, Inv x t s' :=
  history_rel_ok (ok := fun _ => True) (fun x t s blk h hn _ hx => step x t s blk h hn hx) hreset ops x t s h
    (fun b hb => ⟨hok b hb, trivial⟩) hx

end Zones.Proofs.R
