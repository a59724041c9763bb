import Verif.Proofs.FFTLoops

/-! # The full unordered transforms: closed form, inverse, DFT, convolution theorem -/

open Finset Zones.Spec Zones.Model

namespace Zones.Proofs

/-- forward levels of half-size `2^(m-1), ..., 1`, largest first -/
noncomputable def down : ℕ → (ℕ → ℂ) → ℕ → ℂ
  | 0, d => d
  | m + 1, d => down m (lev (2^m) d)

/-- inverse levels of half-size `1, ..., 2^(m-1)`, smallest first -/
noncomputable def up : ℕ → (ℕ → ℂ) → ℕ → ℂ
  | 0, d => d
  | m + 1, d => ilev (2^m) (up m d)

/-- the first `l` forward levels of a transform of `2^n` points -/
noncomputable def Fl (n : ℕ) : ℕ → (ℕ → ℂ) → ℕ → ℂ
  | 0, d => d
  | l + 1, d => lev (2^(n-1-l)) (Fl n l d)

theorem up_down (m : ℕ) (d : ℕ → ℂ) : up m (down m d) = d := by
  induction m generalizing d with
  | zero => rfl
  | succ m ih => simp only [down, up, ih]; exact ilev_lev (by positivity) d

theorem down_up (m : ℕ) (d : ℕ → ℂ) : down m (up m d) = d := by
  induction m generalizing d with
  | zero => rfl
  | succ m ih => simp only [down, up, lev_ilev (h := 2^m) (by positivity), ih]

theorem down_Fl {n l : ℕ} (hl : l ≤ n) (d : ℕ → ℂ) : down (n-l) (Fl n l d) = down n d := by
  induction l with
  | zero => rfl
  | succ l ih =>
    rw [← ih (by omega)]
    have : n - l = (n - (l+1)) + 1 := by omega
    rw [this]
    simp only [down, Fl]
    congr 3
    omega

theorem Fl_self (n : ℕ) (d : ℕ → ℂ) : Fl n n d = down n d := by
  have := down_Fl (le_refl n) d
  simpa [down] using this

theorem up_down_Fl {n l : ℕ} (hl : l ≤ n) (d : ℕ → ℂ) : up (n-l) (down n d) = Fl n l d := by
  rw [← down_Fl hl, up_down]

theorem ilev_Fl_succ {n l : ℕ} (d : ℕ → ℂ) : ilev (2^(n-1-l)) (Fl n (l+1) d) = Fl n l d := by
  simp only [Fl]; exact ilev_lev (by positivity) _

/-! ## Locality -/

/-- `S` is a union of aligned butterfly pairs of half-size `h` -/
def Closed (h : ℕ) (S : ℕ → Prop) : Prop := ∀ x, S x → S (low h x) ∧ S (low h x + h)

theorem closed_range {h b e : ℕ} (hh : 0 < h) :
    Closed h (fun x => b * (2*h) ≤ x ∧ x < e * (2*h)) := by
  intro x ⟨h1, h2⟩
  have g1 := low_ge_iff hh x b
  have g2 := low_lt_iff hh x e
  have g3 := low_lt_iff hh (low h x + h) e
  rw [low_low_add hh] at g3
  refine ⟨⟨g1.mpr h1, g2.mpr h2⟩, ?_, g3.mp (g2.mpr h2)⟩
  have := g1.mpr h1
  omega

theorem closed_block {a m s : ℕ} (ha : a < m) :
    Closed (2^a) (fun x => s * 2^m ≤ x ∧ x < s * 2^m + 2^m) := by
  have hN := pow_split ha
  have e1 : s * 2^m = (s * 2^(m-1-a)) * (2 * 2^a) := by
    have : (2:ℕ)^m = 2^(m-1-a) * (2*2^a) := by
      rw [← pow_succ', ← pow_add]; congr 1; omega
    rw [this]; ring
  have e2 : s * 2^m + 2^m = (s * 2^(m-1-a) + 2^(m-1-a)) * (2 * 2^a) := by
    have : (2:ℕ)^m = 2^(m-1-a) * (2*2^a) := by
      rw [← pow_succ', ← pow_add]; congr 1; omega
    rw [this]; ring
  rw [e1] at *
  rw [e2]
  exact closed_range (by positivity)

theorem lev_congrOn {h : ℕ} {S : ℕ → Prop} (hS : Closed h S) {d d' : ℕ → ℂ}
    (hd : ∀ x, S x → d x = d' x) : ∀ x, S x → lev h d x = lev h d' x := by
  intro x hx
  obtain ⟨h1, h2⟩ := hS x hx
  exact lev_congr d d' x (hd _ h1) (hd _ h2)

theorem ilev_congrOn {h : ℕ} {S : ℕ → Prop} (hS : Closed h S) {d d' : ℕ → ℂ}
    (hd : ∀ x, S x → d x = d' x) : ∀ x, S x → ilev h d x = ilev h d' x := by
  intro x hx
  obtain ⟨h1, h2⟩ := hS x hx
  exact ilev_congr d d' x (hd _ h1) (hd _ h2)

theorem down_congrOn {m : ℕ} {S : ℕ → Prop} (hS : ∀ a < m, Closed (2^a) S) {d d' : ℕ → ℂ}
    (hd : ∀ x, S x → d x = d' x) : ∀ x, S x → down m d x = down m d' x := by
  induction m generalizing d d' with
  | zero => exact hd
  | succ m ih =>
    exact ih (fun a ha => hS a (by omega)) (lev_congrOn (hS m (by omega)) hd)

theorem up_congrOn {m : ℕ} {S : ℕ → Prop} (hS : ∀ a < m, Closed (2^a) S) {d d' : ℕ → ℂ}
    (hd : ∀ x, S x → d x = d' x) : ∀ x, S x → up m d x = up m d' x := by
  induction m with
  | zero => exact hd
  | succ m ih =>
    exact ilev_congrOn (hS m (by omega)) (ih (fun a ha => hS a (by omega)))

theorem Fl_congrOn {n l : ℕ} {S : ℕ → Prop} (hS : ∀ a < n, Closed (2^a) S) (hl : l ≤ n)
    {d d' : ℕ → ℂ} (hd : ∀ x, S x → d x = d' x) : ∀ x, S x → Fl n l d x = Fl n l d' x := by
  induction l with
  | zero => exact hd
  | succ l ih =>
    exact lev_congrOn (hS (n-1-l) (by omega)) (ih (by omega))

theorem closed_lt {a n : ℕ} (ha : a < n) : Closed (2^a) (fun x => x < 2^n) := by
  have := closed_block (s := 0) ha
  simpa using this

/-! ## The FFT functions -/

theorem reverse_range_succ (k : ℕ) : ((List.range (k+1)).map (· + 1)).reverse
    = (k+1) :: ((List.range k).map (· + 1)).reverse := by
  rw [List.range_succ]; simp

theorem base_split {a M s : ℕ} (ha : a < M) :
    s * 2^M = (s * 2^(M-1-a)) * (2 * 2^a) ∧ (2:ℕ)^M = 2^(M-1-a) * (2*2^a) := by
  have : (2:ℕ)^M = 2^(M-1-a) * (2*2^a) := by
    rw [← pow_succ', ← pow_add]; congr 1; omega
  refine ⟨?_, this⟩
  rw [this]; ring

/-- the element range addressed by an FFT call -/
def InBlk (M s x : ℕ) : Prop := s * 2^M ≤ x ∧ x < s * 2^M + 2^M

instance (M s : ℕ) : DecidablePred (InBlk M s) := fun _ => inferInstanceAs (Decidable (_ ∧ _))

theorem onSet_onSet {S : ℕ → Prop} [DecidablePred S] {f g : (ℕ → ℂ) → ℕ → ℂ}
    (hg : ∀ d d', (∀ x, S x → d x = d' x) → ∀ x, S x → g d x = g d' x) (d : ℕ → ℂ) :
    onSet S g (onSet S f d) = onSet S (fun d => g (f d)) d := by
  funext x
  unfold onSet
  by_cases hx : S x
  · simp only [hx, if_true]
    apply hg _ _ _ x hx
    intro y hy; simp [hy]
  · simp [hx]

theorem fwd_fold {M s sz k : ℕ} (hk : k ≤ M) (hsz : s * 2^M + 2^M ≤ sz) (d : ℕ → ℂ) :
    ((List.range k).map (· + 1)).reverse.foldlM
      (fun d depth => runLoop (applyFwd (twiddleFwd (2 ^ depth))) sz
        (fftBflies (s * 2^M) (2^M) depth) d) d
      = some (onSet (InBlk M s) (down k) d) := by
  induction k generalizing d with
  | zero =>
    simp only [List.range_zero, List.map_nil, List.reverse_nil, List.foldlM_nil]
    refine congrArg some (funext fun x => ?_)
    unfold onSet; split <;> rfl
  | succ k ih =>
    rw [reverse_range_succ, List.foldlM_cons]
    obtain ⟨e1, e2⟩ := base_split (s := s) (a := k) (M := M) (by omega)
    have step := fftDepth_fwd (m := s * 2^(M-1-k)) (G := 2^(M-1-k)) (a := k) (sz := sz)
      (by rw [← e1, ← e2]; exact hsz) d
    rw [← e1, ← e2] at step
    rw [step]
    simp only [Option.bind_eq_bind, Option.bind_some]
    rw [ih (by omega)]
    congr 1
    exact onSet_onSet (S := InBlk M s) (f := lev (2^k)) (g := down k)
      (fun d d' h => down_congrOn (S := InBlk M s) (fun a ha => closed_block (by omega)) h) d

theorem inv_fold {M s sz k : ℕ} (hk : k ≤ M) (hsz : s * 2^M + 2^M ≤ sz) (d : ℕ → ℂ) :
    ((List.range k).map (· + 1)).foldlM
      (fun d depth => runLoop (applyInv (twiddleInv (2 ^ depth))) sz
        (fftBflies (s * 2^M) (2^M) depth) d) d
      = some (onSet (InBlk M s) (up k) d) := by
  induction k with
  | zero =>
    simp only [List.range_zero, List.map_nil, List.foldlM_nil]
    refine congrArg some (funext fun x => ?_)
    unfold onSet; split <;> rfl
  | succ k ih =>
    rw [List.range_succ, List.map_append, List.foldlM_append, ih (by omega)]
    obtain ⟨e1, e2⟩ := base_split (s := s) (a := k) (M := M) (by omega)
    have step := fftDepth_inv (m := s * 2^(M-1-k)) (G := 2^(M-1-k)) (a := k) (sz := sz)
      (by rw [← e1, ← e2]; exact hsz) (onSet (InBlk M s) (up k) d)
    rw [← e1, ← e2] at step
    simp only [Option.bind_eq_bind, Option.bind_some, List.map_cons, List.map_nil,
      List.foldlM_cons, List.foldlM_nil]
    rw [step]
    simp only [Option.bind_some, Option.pure_def]
    congr 1
    exact onSet_onSet (S := InBlk M s) (f := up k) (g := ilev (2^k))
      (fun d d' h => ilev_congrOn (S := InBlk M s) (closed_block (by omega)) h) d

theorem forwardFFT_eq {M s sz : ℕ} (hsz : s * 2^M + 2^M ≤ sz) (d : ℕ → ℂ) :
    forwardFFTUnordered sz (s * 2^M) (2^M) d = some (onSet (InBlk M s) (down M) d) := by
  unfold forwardFFTUnordered
  rw [if_neg (by positivity), Nat.log_pow (by norm_num)]
  exact fwd_fold le_rfl hsz d

theorem inverseFFT_eq {M s sz : ℕ} (hsz : s * 2^M + 2^M ≤ sz) (d : ℕ → ℂ) :
    inverseFFTUnordered sz (s * 2^M) (2^M) d = some (onSet (InBlk M s) (up M) d) := by
  unfold inverseFFTUnordered
  rw [if_neg (by positivity), Nat.log_pow (by norm_num)]
  exact inv_fold le_rfl hsz d

/-! ## Closed form of the levels -/

theorem bitrev_lt (l s : ℕ) : bitrev l s < 2^l := by
  induction l generalizing s with
  | zero => simp [bitrev]
  | succ l ih =>
    have := ih (s/2)
    have h2 : s % 2 < 2 := Nat.mod_lt _ (by norm_num)
    simp only [bitrev]
    have : 2^l * (s%2) ≤ 2^l * 1 := Nat.mul_le_mul_left _ (by omega)
    rw [pow_succ]; omega

theorem sum_range_two_mul {f : ℕ → ℂ} (K : ℕ) :
    ∑ m ∈ range (2*K), f m = ∑ m ∈ range K, f (2*m) + ∑ m ∈ range K, f (2*m+1) := by
  induction K with
  | zero => simp
  | succ K ih =>
    rw [show 2*(K+1) = 2*K+1+1 by ring, sum_range_succ, sum_range_succ, ih, sum_range_succ,
      sum_range_succ]
    ring

theorem Fl_closed {n l : ℕ} (hl : l ≤ n) (d : ℕ → ℂ) (s r : ℕ) (hs : s < 2^l)
    (hr : r < 2^(n-l)) :
    Fl n l d (s * 2^(n-l) + r) =
      ∑ m ∈ range (2^l), d (r + m * 2^(n-l)) * omega (2^n) ^ ((r + m * 2^(n-l)) * bitrev l s) := by
  induction l generalizing s r with
  | zero =>
    simp only [pow_zero, Nat.lt_one_iff] at hs
    subst hs
    simp [Fl, bitrev]
  | succ l ih =>
    set h := 2^(n-1-l) with hh
    have hpos : 0 < h := by positivity
    have hM : 2^(n-l) = 2*h := by rw [hh, ← pow_succ']; congr 1; omega
    have hM' : 2^(n-(l+1)) = h := by rw [hh]; congr 1; omega
    have hN : 2^n = 2^l * (2*h) := by rw [← hM, ← pow_add]; congr 1; omega
    rw [hM'] at hr ⊢
    have hs2 : s / 2 < 2^l := by rw [pow_succ] at hs; omega
    have hsd : s = 2*(s/2) + s%2 := (Nat.div_add_mod s 2).symm
    have hb : s % 2 < 2 := Nat.mod_lt _ (by norm_num)
    set q := s/2 with hq
    -- index facts
    have key1 := ih (by omega) q r hs2 (by rw [hM]; omega)
    have key2 := ih (by omega) q (r+h) hs2 (by rw [hM]; omega)
    rw [hM] at key1 key2
    have hlowmod : (q * (2*h) + r) % (2*h) = r := by
      rw [add_comm, Nat.add_mul_mod_self_right, Nat.mod_eq_of_lt (by omega)]
    have hω2 : omega (2^n) ^ (2^l) = omega (2*h) := by rw [hN, omega_mul _ _ (by positivity)]
    have hcomb : ∀ (f : ℕ → ℂ), ∑ m ∈ range (2^(l+1)), f (r + m*h)
        = ∑ m ∈ range (2^l), f (r + m*(2*h)) + ∑ m ∈ range (2^l), f (r + h + m*(2*h)) := by
      intro f
      rw [pow_succ', sum_range_two_mul]
      congr 1
      · apply sum_congr rfl; intro m _; congr 1; ring
      · apply sum_congr rfl; intro m _; congr 1; ring
    rw [hcomb (fun y => d y * omega (2^n) ^ (y * bitrev (l+1) s))]
    simp only [Fl]
    rw [← hh]
    rcases Nat.lt_or_ge (s % 2) 1 with h0 | h1
    · have h0 : s % 2 = 0 := by omega
      have hidx : s * h + r = q * (2*h) + r := by
        rw [hsd, h0]; ring
      have hrev : bitrev (l+1) s = bitrev l q := by simp [bitrev, h0, hq]
      rw [hidx, hrev]
      unfold lev
      rw [if_pos (by rw [hlowmod]; exact hr), low_of_lt (by rw [hlowmod]; exact hr)]
      have : q * (2*h) + r + h = q*(2*h) + (r+h) := by ring
      rw [this, key1, key2]
    · have h1 : s % 2 = 1 := by omega
      have hidx : s * h + r = q * (2*h) + r + h := by
        rw [hsd, h1]; ring
      have hrev : bitrev (l+1) s = bitrev l q + 2^l := by simp [bitrev, h1, hq]
      rw [hidx, hrev]
      have hmod2 := add_half_mod (h := h) (x := q*(2*h)+r) (by rw [hlowmod]; exact hr)
      unfold lev
      rw [if_neg (by rw [hmod2]; omega), low_add (by rw [hlowmod]; exact hr), hlowmod]
      have e : q * (2*h) + r + h = q*(2*h) + (r+h) := by ring
      rw [e, key1, key2, sub_mul, sum_mul, sum_mul, sub_eq_add_neg, ← sum_neg_distrib]
      congr 1
      · apply sum_congr rfl
        intro m _
        rw [Nat.mul_add, pow_add, mul_assoc]
        congr 2
        rw [mul_comm (r + m * (2*h)), pow_mul, hω2, pow_add, mul_comm m, pow_mul,
          omega_pow_self _ (by omega), one_pow, mul_one]
      · apply sum_congr rfl
        intro m _
        rw [Nat.mul_add, pow_add, mul_assoc, ← mul_neg]
        congr 1
        rw [← mul_neg]
        congr 1
        rw [mul_comm (r + h + m * (2*h)), pow_mul, hω2, pow_add, pow_add, mul_comm m (2*h),
          pow_mul (omega (2*h)) (2*h) m, omega_pow_self _ (by omega), one_pow, mul_one,
          omega_half _ hpos]
        ring

/-- `ForwardFFTUnordered`'s levels compute the DFT in bit-reversed order -/
theorem down_dft (n : ℕ) (d : ℕ → ℂ) (k : ℕ) (hk : k < 2^n) :
    down n d k = dft (2^n) d (bitrev n k) := by
  rw [← Fl_self]
  have := Fl_closed (le_refl n) d k 0 (by simpa using hk) (by simp)
  simp only [Nat.sub_self, pow_zero, mul_one, add_zero, zero_add] at this
  rw [this]; rfl

/-! ## Convolution theorem -/

theorem omega_pow_mod (N k : ℕ) (hN : 0 < N) : omega N ^ (k % N) = omega N ^ k := by
  conv_rhs => rw [← Nat.div_add_mod k N, pow_add, pow_mul, omega_pow_self N hN, one_pow, one_mul]

theorem sum_shift {N : ℕ} (hN : 0 < N) (f : ℕ → ℂ) (k : ℕ) (hk : k ≤ N) :
    ∑ j ∈ range N, f ((j + N - k) % N) = ∑ j ∈ range N, f j := by
  apply sum_bij' (fun j _ => (j + N - k) % N) (fun j _ => (j + k) % N)
  · intro j _; exact mem_range.mpr (Nat.mod_lt _ hN)
  · intro j _; exact mem_range.mpr (Nat.mod_lt _ hN)
  · intro j hj
    rw [mem_range] at hj
    rw [Nat.mod_add_mod, show j + N - k + k = j + N by omega, Nat.add_mod_right,
      Nat.mod_eq_of_lt hj]
  · intro j hj
    rw [mem_range] at hj
    rw [show (j + k) % N + N - k = (j+k) % N + (N - k) by omega, Nat.mod_add_mod,
      show j + k + (N - k) = j + N by omega, Nat.add_mod_right, Nat.mod_eq_of_lt hj]
  · intro j _; rfl

theorem dft_circConv {N : ℕ} (hN : 0 < N) (x h : ℕ → ℂ) (k : ℕ) :
    dft N (circConv N x h) k = dft N h k * dft N x k := by
  unfold dft circConv
  simp only [sum_mul]
  rw [sum_comm]
  apply sum_congr rfl
  intro j hj
  rw [mem_range] at hj
  rw [mul_sum, ← sum_shift hN (fun i => h j * omega N ^ (j*k) * (x i * omega N ^ (i*k))) j hj.le]
  apply sum_congr rfl
  intro i _
  have : omega N ^ (((i + N - j) % N) * k) * omega N ^ (j*k) = omega N ^ (i*k) := by
    rw [← pow_add, ← Nat.add_mul, pow_mul, pow_mul]
    congr 1
    rw [← omega_pow_mod N _ hN, Nat.mod_add_mod, show i + N - j + j = i + N by omega,
      Nat.add_mod_right, omega_pow_mod N _ hN]
  rw [← this]; ring

theorem down_circConv (n : ℕ) (x h : ℕ → ℂ) (k : ℕ) (hk : k < 2^n) :
    down n (circConv (2^n) x h) k = down n h k * down n x k := by
  rw [down_dft _ _ _ hk, down_dft _ _ _ hk, down_dft _ _ _ hk, dft_circConv (by positivity)]

theorem lev_add {h : ℕ} (x y : ℕ → ℂ) : lev h (fun i => x i + y i) = fun i => lev h x i + lev h y i := by
  funext i; unfold lev; split <;> ring

theorem lev_zero {h : ℕ} : lev h (fun _ => 0) = fun _ => 0 := by
  funext i; unfold lev; split <;> ring

theorem down_add (n : ℕ) (x y : ℕ → ℂ) : down n (fun i => x i + y i) = fun i => down n x i + down n y i := by
  induction n generalizing x y with
  | zero => rfl
  | succ n ih => simp only [down, lev_add, ih]

theorem down_zero (n : ℕ) : down n (fun _ => 0) = fun _ => 0 := by
  induction n with
  | zero => rfl
  | succ n ih => simp only [down, lev_zero, ih]

theorem down_sum (n : ℕ) {ι : Type} (t : Finset ι) (f : ι → ℕ → ℂ) :
    down n (fun i => ∑ j ∈ t, f j i) = fun i => ∑ j ∈ t, down n (f j) i := by
  classical
  induction t using Finset.induction_on with
  | empty => simpa using down_zero n
  | insert a t ha ih =>
    simp only [sum_insert ha]
    rw [down_add, ih]

theorem Fl_zero (n l : ℕ) : Fl n l (fun _ => 0) = fun _ => 0 := by
  induction l with
  | zero => rfl
  | succ l ih => simp only [Fl, ih, lev_zero]

end Zones.Proofs
