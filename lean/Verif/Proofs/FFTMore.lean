import Verif.Proofs.FFTFull

/-! # Splitting a level into steps, and a transform into pieces -/

open Finset Zones.Spec Zones.Model

namespace Zones.Proofs

/-- running the steps of a list of pairwise different step numbers -/
theorem steps_fold {N : ℕ} {τ : ℕ → ℕ} {h : ℕ} {g : (ℕ → ℂ) → ℕ → ℂ}
    (hg : ∀ d d' x, d (low h x) = d' (low h x) → d (low h x + h) = d' (low h x + h) → g d x = g d' x)
    (hN : ∀ x, x < N → low h x < N ∧ low h x + h < N)
    (hτ : ∀ x, τ (low h x) = τ x ∧ τ (low h x + h) = τ x)
    {f : (ℕ → ℂ) → ℕ → Option (ℕ → ℂ)}
    (l : List ℕ) (hl : l.Nodup)
    (hf : ∀ c ∈ l, ∀ d, f d c = some (onSet (fun x => x < N ∧ τ x = c) g d)) (d : ℕ → ℂ) :
    l.foldlM f d = some (onSet (fun x => x < N ∧ τ x ∈ l) g d) := by
  induction l generalizing d with
  | nil =>
    simp only [List.foldlM_nil]
    refine congrArg some (funext fun x => ?_)
    unfold onSet; simp
  | cons c l ih =>
    rw [List.nodup_cons] at hl
    rw [List.foldlM_cons, hf c (by simp)]
    simp only [Option.bind_eq_bind, Option.bind_some]
    rw [ih hl.2 (fun c' hc' => hf c' (by simp [hc']))]
    refine congrArg some (funext fun x => ?_)
    unfold onSet
    by_cases hx : x < N
    · by_cases hc : τ x = c
      · have : τ x ∉ l := by rw [hc]; exact hl.1
        simp [hx, hc, hl.1]
      · simp only [hx, hc, true_and, List.mem_cons, false_or, if_false]
        split
        · next hm =>
          apply hg
          · simp [(hτ x).1, hc]
          · simp [(hτ x).2, hc]
        · rfl
    · simp [hx]

theorem low_mod_h {h : ℕ} (hh : 0 < h) (x : ℕ) : low h x % h = x % h ∧ (low h x + h) % h = x % h := by
  rw [Nat.add_mod_right]
  have : low h x % h = x % h := by
    unfold low
    split
    · rfl
    · next hx =>
      have : h ≤ x := by
        have := Nat.mod_le x (2*h); omega
      conv_rhs => rw [← Nat.sub_add_cancel this]
      rw [Nat.add_mod_right]
  exact ⟨this, this⟩

/-- `SegmentedForwardDecompositionRadix2`: all steps in any order -/
theorem segForward_steps {n l s sz : ℕ} (hl : l < n) (hs : s ≤ n-1-l) (hsz : 2^n ≤ sz)
    (σ : List ℕ) (hσ : σ.Nodup) (hb : ∀ c ∈ σ, c < 2^s) (d : ℕ → ℂ) :
    σ.foldlM (fun d c => segmentedForward sz (2^n) (2^l) (2^s) c d) d =
      some (onSet (fun x => x < 2^n ∧ (x % 2^(n-1-l)) / 2^(n-1-l-s) ∈ σ) (lev (2^(n-1-l))) d) := by
  refine steps_fold (h := 2^(n-1-l)) (fun d d' x => lev_congr d d' x) ?_ ?_ σ hσ ?_ d
  · intro x hx; exact closed_lt (by omega) x hx
  · intro x
    have := low_mod_h (h := 2^(n-1-l)) (by positivity) x
    rw [this.1, this.2]; exact ⟨rfl, rfl⟩
  · intro c hc d; exact segmentedForward_eq hl hs (hb c hc) hsz d

theorem segInverse_steps {n l s sz : ℕ} (hl : l < n) (hs : s ≤ n-1-l) (hsz : 2^n ≤ sz)
    (σ : List ℕ) (hσ : σ.Nodup) (hb : ∀ c ∈ σ, c < 2^s) (d : ℕ → ℂ) :
    σ.foldlM (fun d c => segmentedInverse sz (2^n) (2^l) (2^s) c d) d =
      some (onSet (fun x => x < 2^n ∧ (x % 2^(n-1-l)) / 2^(n-1-l-s) ∈ σ) (ilev (2^(n-1-l))) d) := by
  refine steps_fold (h := 2^(n-1-l)) (fun d d' x => ilev_congr d d' x) ?_ ?_ σ hσ ?_ d
  · intro x hx; exact closed_lt (by omega) x hx
  · intro x
    have := low_mod_h (h := 2^(n-1-l)) (by positivity) x
    rw [this.1, this.2]; exact ⟨rfl, rfl⟩
  · intro c hc d; exact segmentedInverse_eq hl hs (hb c hc) hsz d

/-- a complete level in one step -/
theorem segForward_one {n l sz : ℕ} (hl : l < n) (hsz : 2^n ≤ sz) (d : ℕ → ℂ) :
    segmentedForward sz (2^n) (2^l) 1 0 d = some (onSet (fun x => x < 2^n) (lev (2^(n-1-l))) d) := by
  have := segmentedForward_eq (s := 0) hl (by omega) (cur := 0) (by norm_num) hsz d
  rw [pow_zero] at this
  rw [this]
  refine congrArg some (funext fun x => ?_)
  unfold onSet
  have : (x % 2^(n-1-l)) / 2^(n-1-l-0) = 0 := Nat.div_eq_of_lt (Nat.mod_lt _ (by positivity))
  simp only [this, and_true]

theorem segInverse_one {n l sz : ℕ} (hl : l < n) (hsz : 2^n ≤ sz) (d : ℕ → ℂ) :
    segmentedInverse sz (2^n) (2^l) 1 0 d = some (onSet (fun x => x < 2^n) (ilev (2^(n-1-l))) d) := by
  have := segmentedInverse_eq (s := 0) hl (by omega) (cur := 0) (by norm_num) hsz d
  rw [pow_zero] at this
  rw [this]
  refine congrArg some (funext fun x => ?_)
  unfold onSet
  have : (x % 2^(n-1-l)) / 2^(n-1-l-0) = 0 := Nat.div_eq_of_lt (Nat.mod_lt _ (by positivity))
  simp only [this, and_true]

theorem div_range_mem {n l s : ℕ} (hs : s ≤ n-1-l) (x : ℕ) :
    (x % 2^(n-1-l)) / 2^(n-1-l-s) < 2^s := by
  rw [Nat.div_lt_iff_lt_mul (by positivity), ← pow_add]
  calc x % 2^(n-1-l) < 2^(n-1-l) := Nat.mod_lt _ (by positivity)
    _ = _ := by congr 1; omega

/-- the first `l` levels as calls -/
theorem levels_fold {n l sz : ℕ} (hl : l ≤ n) (hsz : 2^n ≤ sz) (d : ℕ → ℂ) :
    (List.range l).foldlM (fun d lv => segmentedForward sz (2^n) (2^lv) 1 0 d) d
      = some (onSet (fun x => x < 2^n) (Fl n l) d) := by
  induction l with
  | zero =>
    simp only [List.range_zero, List.foldlM_nil]
    refine congrArg some (funext fun x => ?_)
    unfold onSet; split <;> rfl
  | succ l ih =>
    rw [List.range_succ, List.foldlM_append, ih (by omega)]
    simp only [Option.bind_eq_bind, Option.bind_some, List.foldlM_cons, List.foldlM_nil]
    rw [segForward_one (by omega) hsz]
    simp only [Option.bind_some, Option.pure_def]
    congr 1
    exact onSet_onSet (f := Fl n l) (g := lev (2^(n-1-l)))
      (fun d d' h => lev_congrOn (S := fun x => x < 2^n) (closed_lt (by omega)) h) d

/-- the pieces as calls -/
theorem pieces_fwd {n l k sz : ℕ} (hl : l ≤ n) (hk : k ≤ 2^l) (hsz : 2^n ≤ sz) (d : ℕ → ℂ) :
    (List.range k).foldlM (fun d s => forwardFFTUnordered sz (s * 2^(n-l)) (2^(n-l)) d) d
      = some (onSet (fun x => x < k * 2^(n-l)) (down (n-l)) d) := by
  induction k with
  | zero =>
    simp only [List.range_zero, List.foldlM_nil]
    refine congrArg some (funext fun x => ?_)
    unfold onSet; simp
  | succ k ih =>
    have e : (2:ℕ)^n = 2^l * 2^(n-l) := by rw [← pow_add]; congr 1; omega
    have h2 : (k+1) * 2^(n-l) ≤ 2^l * 2^(n-l) := Nat.mul_le_mul_right _ hk
    have h2' : (k+1) * 2^(n-l) = k * 2^(n-l) + 2^(n-l) := by ring
    have hp : 0 < 2^(n-l) := by positivity
    rw [List.range_succ, List.foldlM_append, ih (by omega)]
    simp only [Option.bind_eq_bind, Option.bind_some, List.foldlM_cons, List.foldlM_nil]
    rw [forwardFFT_eq (by omega)]
    simp only [Option.bind_some, Option.pure_def]
    refine congrArg some (funext fun x => ?_)
    have hcl := fun a (ha : a < n - l) => closed_block (s := k) ha
    unfold onSet
    by_cases hin : InBlk (n-l) k x
    · have hlt : x < (k+1) * 2^(n-l) := by rw [h2']; exact hin.2
      rw [if_pos hin, if_pos hlt]
      apply down_congrOn (S := InBlk (n-l) k) hcl _ x hin
      intro y hy
      rw [if_neg (by have := hy.1; omega)]
    · rw [if_neg hin]
      unfold InBlk at hin
      by_cases hx : x < k * 2^(n-l)
      · rw [if_pos hx, if_pos (by omega)]
      · rw [if_neg hx, if_neg (by omega)]

theorem pieces_inv {n l k sz : ℕ} (hl : l ≤ n) (hk : k ≤ 2^l) (hsz : 2^n ≤ sz) (d : ℕ → ℂ) :
    (List.range k).foldlM (fun d s => inverseFFTUnordered sz (s * 2^(n-l)) (2^(n-l)) d) d
      = some (onSet (fun x => x < k * 2^(n-l)) (up (n-l)) d) := by
  induction k with
  | zero =>
    simp only [List.range_zero, List.foldlM_nil]
    refine congrArg some (funext fun x => ?_)
    unfold onSet; simp
  | succ k ih =>
    have e : (2:ℕ)^n = 2^l * 2^(n-l) := by rw [← pow_add]; congr 1; omega
    have h2 : (k+1) * 2^(n-l) ≤ 2^l * 2^(n-l) := Nat.mul_le_mul_right _ hk
    have h2' : (k+1) * 2^(n-l) = k * 2^(n-l) + 2^(n-l) := by ring
    have hp : 0 < 2^(n-l) := by positivity
    rw [List.range_succ, List.foldlM_append, ih (by omega)]
    simp only [Option.bind_eq_bind, Option.bind_some, List.foldlM_cons, List.foldlM_nil]
    rw [inverseFFT_eq (by omega)]
    simp only [Option.bind_some, Option.pure_def]
    refine congrArg some (funext fun x => ?_)
    have hcl := fun a (ha : a < n - l) => closed_block (s := k) ha
    unfold onSet
    by_cases hin : InBlk (n-l) k x
    · have hlt : x < (k+1) * 2^(n-l) := by rw [h2']; exact hin.2
      rw [if_pos hin, if_pos hlt]
      apply up_congrOn (S := InBlk (n-l) k) hcl _ x hin
      intro y hy
      rw [if_neg (by have := hy.1; omega)]
    · rw [if_neg hin]
      unfold InBlk at hin
      by_cases hx : x < k * 2^(n-l)
      · rw [if_pos hx, if_pos (by omega)]
      · rw [if_neg hx, if_neg (by omega)]

/-- the inverse levels `l-1, ..., 0` as calls -/
noncomputable def Il (n : ℕ) : ℕ → (ℕ → ℂ) → ℕ → ℂ
  | 0, d => d
  | l + 1, d => Il n l (ilev (2^(n-1-l)) d)

theorem Il_up {n l : ℕ} (hl : l ≤ n) (d : ℕ → ℂ) : Il n l (up (n-l) d) = up n d := by
  induction l generalizing d with
  | zero => rfl
  | succ l ih =>
    simp only [Il]
    rw [← ih (by omega)]
    congr 1
    rw [show n - l = (n - (l+1)) + 1 by omega, up]
    congr 2; omega

theorem Il_congrOn {n l : ℕ} {S : ℕ → Prop} (hS : ∀ a < n, Closed (2^a) S) (hl : l ≤ n)
    {d d' : ℕ → ℂ} (hd : ∀ x, S x → d x = d' x) : ∀ x, S x → Il n l d x = Il n l d' x := by
  induction l generalizing d d' with
  | zero => exact hd
  | succ l ih =>
    simp only [Il]
    exact ih (by omega) (ilev_congrOn (hS _ (by omega)) hd)

theorem ilevels_fold {n l sz : ℕ} (hl : l ≤ n) (hsz : 2^n ≤ sz) (d : ℕ → ℂ) :
    (List.range l).reverse.foldlM (fun d lv => segmentedInverse sz (2^n) (2^lv) 1 0 d) d
      = some (onSet (fun x => x < 2^n) (Il n l) d) := by
  induction l generalizing d with
  | zero =>
    simp only [List.range_zero, List.reverse_nil, List.foldlM_nil]
    refine congrArg some (funext fun x => ?_)
    unfold onSet; split <;> rfl
  | succ l ih =>
    rw [List.range_succ, List.reverse_append, List.reverse_singleton, List.singleton_append,
      List.foldlM_cons, segInverse_one (by omega) hsz]
    simp only [Option.bind_eq_bind, Option.bind_some]
    rw [ih (by omega)]
    congr 1
    exact onSet_onSet (S := fun x => x < 2^n) (f := ilev (2^(n-1-l))) (g := Il n l)
      (fun d d' h => Il_congrOn (S := fun x => x < 2^n) (fun a ha => closed_lt ha) (by omega) h) d

theorem bitrev_testBit (l s b : ℕ) : (bitrev l s).testBit b = (decide (b < l) && s.testBit (l-1-b)) := by
  induction l generalizing s with
  | zero => simp [bitrev]
  | succ l ih =>
    simp only [bitrev]
    rw [add_comm, Nat.testBit_two_pow_mul_add _ (bitrev_lt l (s/2))]
    by_cases hb : b < l
    · rw [if_pos hb, ih]
      have : l + 1 - 1 - b = (l - 1 - b) + 1 := by omega
      rw [this, Nat.testBit_succ]
      simp [hb, Nat.lt_succ_of_lt hb]
    · rw [if_neg hb]
      by_cases hb2 : b = l
      · subst hb2
        simp
      · have : ¬ b < l + 1 := by omega
        simp only [this, decide_false, Bool.false_and]
        apply Nat.testBit_lt_two_pow
        have : s % 2 < 2 := Nat.mod_lt _ (by norm_num)
        calc s % 2 < 2^1 := by omega
          _ ≤ 2^(b-l) := Nat.pow_le_pow_right (by norm_num) (by omega)

end Zones.Proofs
