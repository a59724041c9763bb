import Verif.Proofs.Schedule
import Verif.Model.Arith

/-! # The transforms and the schedules in an arbitrary arithmetic: bit exact closed forms

The lemmas are those of `Verif.Proofs.FFTLevel` .. `Verif.Proofs.Schedule` with the operations of an `Arith`. -/

open Finset Zones.Spec Zones.Model

namespace Zones.Proofs.R

variable [Arith]

/-- forward butterfly level of half-size `h`, on all aligned groups at once -/
noncomputable def lev (h : ℕ) (d : ℕ → ℂ) (x : ℕ) : ℂ :=
  if x % (2 * h) < h then Arith.add (d (low h x)) (d (low h x + h))
  else Arith.mul (Arith.sub (d (low h x)) (d (low h x + h))) (Arith.twF (2 * h) (low h x % (2 * h)))

/-- inverse butterfly level -/
noncomputable def ilev (h : ℕ) (d : ℕ → ℂ) (x : ℕ) : ℂ :=
  if x % (2 * h) < h then
    Arith.half (Arith.add (d (low h x)) (Arith.mul (d (low h x + h)) (Arith.twI (2 * h) (low h x % (2 * h)))))
  else Arith.half (Arith.sub (d (low h x)) (Arith.mul (d (low h x + h)) (Arith.twI (2 * h) (low h x % (2 * h)))))


theorem applyFwd_mkB {h : ℕ} (hh : 0 < h) (d : ℕ → ℂ) {i : ℕ} (hi : i % (2*h) < h) (x : ℕ) :
    applyFwdR (2*h) d (mkB h i) x = if low h x = i then lev h d x else d x := by
  have hne : i + h ≠ i := by omega
  unfold applyFwdR mkB
  by_cases hx : low h x = i
  · rw [if_pos hx]
    unfold lev
    rw [hx]
    split
    · rename_i hc
      have : x = i := by rw [low_of_lt hc] at hx; exact hx
      subst this
      simp [Function.update_of_ne hne.symm]
    · rename_i hc
      have : x = i + h := by have := low_of_ge hc; rw [hx] at this; exact this.symm
      subst this
      simp [Function.update_of_ne hne]
  · rw [if_neg hx]
    have h1 : x ≠ i := fun e => hx (by rw [e]; exact low_of_lt hi)
    have h2 : x ≠ i + h := fun e => hx (by rw [e]; exact low_add hi)
    simp [Function.update_of_ne h1, Function.update_of_ne h2]

theorem applyInv_mkB {h : ℕ} (hh : 0 < h) (d : ℕ → ℂ) {i : ℕ} (hi : i % (2*h) < h) (x : ℕ) :
    applyInvR (2*h) d (mkB h i) x = if low h x = i then ilev h d x else d x := by
  have hne : i + h ≠ i := by omega
  unfold applyInvR mkB
  by_cases hx : low h x = i
  · rw [if_pos hx]
    unfold ilev
    rw [hx]
    split
    · rename_i hc
      have : x = i := by rw [low_of_lt hc] at hx; exact hx
      subst this
      simp [Function.update_of_ne hne.symm]
    · rename_i hc
      have : x = i + h := by have := low_of_ge hc; rw [hx] at this; exact this.symm
      subst this
      simp [Function.update_of_ne hne]
  · rw [if_neg hx]
    have h1 : x ≠ i := fun e => hx (by rw [e]; exact low_of_lt hi)
    have h2 : x ≠ i + h := fun e => hx (by rw [e]; exact low_add hi)
    simp [Function.update_of_ne h1, Function.update_of_ne h2]

theorem lev_congr {h : ℕ} (d d' : ℕ → ℂ) (x : ℕ) (h1 : d (low h x) = d' (low h x))
    (h2 : d (low h x + h) = d' (low h x + h)) : lev h d x = lev h d' x := by
  unfold lev; rw [h1, h2]

theorem ilev_congr {h : ℕ} (d d' : ℕ → ℂ) (x : ℕ) (h1 : d (low h x) = d' (low h x))
    (h2 : d (low h x + h) = d' (low h x + h)) : ilev h d x = ilev h d' x := by
  unfold ilev; rw [h1, h2]

theorem foldl_fwd {h : ℕ} (hh : 0 < h) (l : List ℕ) (hnd : l.Nodup)
    (hl : ∀ i ∈ l, i % (2*h) < h) (d : ℕ → ℂ) (x : ℕ) :
    ((l.map (mkB h)).foldl (applyFwdR (2*h)) d) x
      = if low h x ∈ l then lev h d x else d x :=
  foldl_local hh _ _ (fun d d' x => lev_congr d d' x)
    (fun d _ x hi => applyFwd_mkB hh d hi x) l hnd hl d x

theorem foldl_inv {h : ℕ} (hh : 0 < h) (l : List ℕ) (hnd : l.Nodup)
    (hl : ∀ i ∈ l, i % (2*h) < h) (d : ℕ → ℂ) (x : ℕ) :
    ((l.map (mkB h)).foldl (applyInvR (2*h)) d) x
      = if low h x ∈ l then ilev h d x else d x :=
  foldl_local hh _ _ (fun d d' x => ilev_congr d d' x)
    (fun d _ x hi => applyInv_mkB hh d hi x) l hnd hl d x

/-- a forward decomposition step, in closed form -/
theorem segmentedForward_eq {n l s cur sz : ℕ} (hl : l < n) (hs : s ≤ n-1-l) (hc : cur < 2^s)
    (hsz : 2^n ≤ sz) (d : ℕ → ℂ) :
    segmentedForwardR sz (2^n) (2^l) (2^s) cur d =
      some (onSet (fun x => x < 2^n ∧ (x % 2^(n-1-l)) / 2^(n-1-l-s) = cur) (lev (2^(n-1-l))) d) := by
  have hh : 0 < 2^(n-1-l) := by positivity
  have hd : 2^s ∣ 2^(n-1-l) := pow_dvd_pow 2 hs
  have hdiv : 2^(n-1-l) / 2^s = 2^(n-1-l-s) := Nat.pow_div hs (by norm_num)
  unfold segmentedForwardR
  rw [if_pos (decompAsserts_pow (by omega) hc)]
  unfold runLoop
  have hN := pow_split hl
  have hq : 2^n / 2^l = 2 * 2^(n-1-l) := by
    rw [hN, Nat.mul_div_cancel_left _ (by positivity)]
  rw [hq, hN, segBflies_eq (by positivity) (step_fits hd hc), if_pos]
  · congr 1
    funext x
    rw [foldl_fwd hh _ (segIdx_nodup (step_fits hd hc))]
    · unfold onSet
      rw [← hdiv]
      simp only [low_mem_segIdx hh hd hc]
    · intro i hi
      obtain ⟨_, _, h3⟩ := (segIdx_mem (step_fits hd hc) i).mp hi
      have := step_fits hd hc
      omega
  · intro b hb
    rw [List.mem_map] at hb
    obtain ⟨i, hi, rfl⟩ := hb
    exact bound_of_mem_segIdx hd hc (by rw [← hN]; exact hsz) i hi

/-- an inverse decomposition step, in closed form -/
theorem segmentedInverse_eq {n l s cur sz : ℕ} (hl : l < n) (hs : s ≤ n-1-l) (hc : cur < 2^s)
    (hsz : 2^n ≤ sz) (d : ℕ → ℂ) :
    segmentedInverseR sz (2^n) (2^l) (2^s) cur d =
      some (onSet (fun x => x < 2^n ∧ (x % 2^(n-1-l)) / 2^(n-1-l-s) = cur) (ilev (2^(n-1-l))) d) := by
  have hh : 0 < 2^(n-1-l) := by positivity
  have hd : 2^s ∣ 2^(n-1-l) := pow_dvd_pow 2 hs
  have hdiv : 2^(n-1-l) / 2^s = 2^(n-1-l-s) := Nat.pow_div hs (by norm_num)
  unfold segmentedInverseR
  rw [if_pos (decompAsserts_pow (by omega) hc)]
  unfold runLoop
  have hN := pow_split hl
  have hq : 2^n / 2^l = 2 * 2^(n-1-l) := by
    rw [hN, Nat.mul_div_cancel_left _ (by positivity)]
  rw [hq, hN, segBflies_eq (by positivity) (step_fits hd hc), if_pos]
  · congr 1
    funext x
    rw [foldl_inv hh _ (segIdx_nodup (step_fits hd hc))]
    · unfold onSet
      rw [← hdiv]
      simp only [low_mem_segIdx hh hd hc]
    · intro i hi
      obtain ⟨_, _, h3⟩ := (segIdx_mem (step_fits hd hc) i).mp hi
      have := step_fits hd hc
      omega
  · intro b hb
    rw [List.mem_map] at hb
    obtain ⟨i, hi, rfl⟩ := hb
    exact bound_of_mem_segIdx hd hc (by rw [← hN]; exact hsz) i hi

theorem fftDepth_fwd {m G a sz : ℕ} (hsz : m * (2*2^a) + G * (2*2^a) ≤ sz) (d : ℕ → ℂ) :
    runLoop (applyFwdR (2^(a+1))) sz (fftBflies (m * (2*2^a)) (G * (2*2^a)) (a+1)) d
      = some (onSet (fun x => m * (2*2^a) ≤ x ∧ x < m * (2*2^a) + G * (2*2^a)) (lev (2^a)) d) := by
  have hh : 0 < (2:ℕ)^a := by positivity
  unfold runLoop
  rw [fftBflies_eq, if_pos, pow_succ']
  · congr 1
    funext x
    rw [foldl_fwd hh _ fftIdx_nodup (fun i hi => ((fftIdx_mem i).mp hi).2.2)]
    unfold onSet
    simp only [low_mem_fftIdx hh]
  · intro b hb
    rw [List.mem_map] at hb
    obtain ⟨i, hi, rfl⟩ := hb
    exact fft_bounds hh hsz i hi

theorem fftDepth_inv {m G a sz : ℕ} (hsz : m * (2*2^a) + G * (2*2^a) ≤ sz) (d : ℕ → ℂ) :
    runLoop (applyInvR (2^(a+1))) sz (fftBflies (m * (2*2^a)) (G * (2*2^a)) (a+1)) d
      = some (onSet (fun x => m * (2*2^a) ≤ x ∧ x < m * (2*2^a) + G * (2*2^a)) (ilev (2^a)) d) := by
  have hh : 0 < (2:ℕ)^a := by positivity
  unfold runLoop
  rw [fftBflies_eq, if_pos, pow_succ']
  · congr 1
    funext x
    rw [foldl_inv hh _ fftIdx_nodup (fun i hi => ((fftIdx_mem i).mp hi).2.2)]
    unfold onSet
    simp only [low_mem_fftIdx hh]
  · intro b hb
    rw [List.mem_map] at hb
    obtain ⟨i, hi, rfl⟩ := hb
    exact fft_bounds hh hsz i hi

/-- forward levels of half-size `2^(m-1), ..., 1`, largest first -/
noncomputable def down : ℕ → (ℕ → ℂ) → ℕ → ℂ
  | 0, d => d
  | m + 1, d => down m (lev (2^m) d)

/-- inverse levels of half-size `1, ..., 2^(m-1)`, smallest first -/
noncomputable def up : ℕ → (ℕ → ℂ) → ℕ → ℂ
  | 0, d => d
  | m + 1, d => ilev (2^m) (up m d)

/-- the first `l` forward levels of a transform of `2^n` points -/
noncomputable def Fl (n : ℕ) : ℕ → (ℕ → ℂ) → ℕ → ℂ
  | 0, d => d
  | l + 1, d => lev (2^(n-1-l)) (Fl n l d)

theorem down_Fl {n l : ℕ} (hl : l ≤ n) (d : ℕ → ℂ) : down (n-l) (Fl n l d) = down n d := by
  induction l with
  | zero => rfl
  | succ l ih =>
    rw [← ih (by omega)]
    have : n - l = (n - (l+1)) + 1 := by omega
    rw [this]
    simp only [down, Fl]
    congr 3
    omega

theorem Fl_self (n : ℕ) (d : ℕ → ℂ) : Fl n n d = down n d := by
  have := down_Fl (le_refl n) d
  simpa [down] using this

theorem lev_congrOn {h : ℕ} {S : ℕ → Prop} (hS : Closed h S) {d d' : ℕ → ℂ}
    (hd : ∀ x, S x → d x = d' x) : ∀ x, S x → lev h d x = lev h d' x := by
  intro x hx
  obtain ⟨h1, h2⟩ := hS x hx
  exact lev_congr d d' x (hd _ h1) (hd _ h2)

theorem ilev_congrOn {h : ℕ} {S : ℕ → Prop} (hS : Closed h S) {d d' : ℕ → ℂ}
    (hd : ∀ x, S x → d x = d' x) : ∀ x, S x → ilev h d x = ilev h d' x := by
  intro x hx
  obtain ⟨h1, h2⟩ := hS x hx
  exact ilev_congr d d' x (hd _ h1) (hd _ h2)

theorem down_congrOn {m : ℕ} {S : ℕ → Prop} (hS : ∀ a < m, Closed (2^a) S) {d d' : ℕ → ℂ}
    (hd : ∀ x, S x → d x = d' x) : ∀ x, S x → down m d x = down m d' x := by
  induction m generalizing d d' with
  | zero => exact hd
  | succ m ih =>
    exact ih (fun a ha => hS a (by omega)) (lev_congrOn (hS m (by omega)) hd)

theorem up_congrOn {m : ℕ} {S : ℕ → Prop} (hS : ∀ a < m, Closed (2^a) S) {d d' : ℕ → ℂ}
    (hd : ∀ x, S x → d x = d' x) : ∀ x, S x → up m d x = up m d' x := by
  induction m with
  | zero => exact hd
  | succ m ih =>
    exact ilev_congrOn (hS m (by omega)) (ih (fun a ha => hS a (by omega)))

theorem Fl_congrOn {n l : ℕ} {S : ℕ → Prop} (hS : ∀ a < n, Closed (2^a) S) (hl : l ≤ n)
    {d d' : ℕ → ℂ} (hd : ∀ x, S x → d x = d' x) : ∀ x, S x → Fl n l d x = Fl n l d' x := by
  induction l with
  | zero => exact hd
  | succ l ih =>
    exact lev_congrOn (hS (n-1-l) (by omega)) (ih (by omega))

theorem fwd_fold {M s sz k : ℕ} (hk : k ≤ M) (hsz : s * 2^M + 2^M ≤ sz) (d : ℕ → ℂ) :
    ((List.range k).map (· + 1)).reverse.foldlM
      (fun d depth => runLoop (applyFwdR (2 ^ depth)) sz
        (fftBflies (s * 2^M) (2^M) depth) d) d
      = some (onSet (InBlk M s) (down k) d) := by
  induction k generalizing d with
  | zero =>
    simp only [List.range_zero, List.map_nil, List.reverse_nil, List.foldlM_nil]
    refine congrArg some (funext fun x => ?_)
    unfold onSet; split <;> rfl
  | succ k ih =>
    rw [reverse_range_succ, List.foldlM_cons]
    obtain ⟨e1, e2⟩ := base_split (s := s) (a := k) (M := M) (by omega)
    have step := fftDepth_fwd (m := s * 2^(M-1-k)) (G := 2^(M-1-k)) (a := k) (sz := sz)
      (by rw [← e1, ← e2]; exact hsz) d
    rw [← e1, ← e2] at step
    rw [step]
    simp only [Option.bind_eq_bind, Option.bind_some]
    rw [ih (by omega)]
    congr 1
    exact onSet_onSet (S := InBlk M s) (f := lev (2^k)) (g := down k)
      (fun d d' h => down_congrOn (S := InBlk M s) (fun a ha => closed_block (by omega)) h) d

theorem inv_fold {M s sz k : ℕ} (hk : k ≤ M) (hsz : s * 2^M + 2^M ≤ sz) (d : ℕ → ℂ) :
    ((List.range k).map (· + 1)).foldlM
      (fun d depth => runLoop (applyInvR (2 ^ depth)) sz
        (fftBflies (s * 2^M) (2^M) depth) d) d
      = some (onSet (InBlk M s) (up k) d) := by
  induction k with
  | zero =>
    simp only [List.range_zero, List.map_nil, List.foldlM_nil]
    refine congrArg some (funext fun x => ?_)
    unfold onSet; split <;> rfl
  | succ k ih =>
    rw [List.range_succ, List.map_append, List.foldlM_append, ih (by omega)]
    obtain ⟨e1, e2⟩ := base_split (s := s) (a := k) (M := M) (by omega)
    have step := fftDepth_inv (m := s * 2^(M-1-k)) (G := 2^(M-1-k)) (a := k) (sz := sz)
      (by rw [← e1, ← e2]; exact hsz) (onSet (InBlk M s) (up k) d)
    rw [← e1, ← e2] at step
    simp only [Option.bind_eq_bind, Option.bind_some, List.map_cons, List.map_nil,
      List.foldlM_cons, List.foldlM_nil]
    rw [step]
    simp only [Option.bind_some, Option.pure_def]
    congr 1
    exact onSet_onSet (S := InBlk M s) (f := up k) (g := ilev (2^k))
      (fun d d' h => ilev_congrOn (S := InBlk M s) (closed_block (by omega)) h) d

theorem forwardFFT_eq {M s sz : ℕ} (hsz : s * 2^M + 2^M ≤ sz) (d : ℕ → ℂ) :
    forwardFFTUnorderedR sz (s * 2^M) (2^M) d = some (onSet (InBlk M s) (down M) d) := by
  unfold forwardFFTUnorderedR
  rw [if_neg (by positivity), Nat.log_pow (by norm_num)]
  exact fwd_fold le_rfl hsz d

theorem inverseFFT_eq {M s sz : ℕ} (hsz : s * 2^M + 2^M ≤ sz) (d : ℕ → ℂ) :
    inverseFFTUnorderedR sz (s * 2^M) (2^M) d = some (onSet (InBlk M s) (up M) d) := by
  unfold inverseFFTUnorderedR
  rw [if_neg (by positivity), Nat.log_pow (by norm_num)]
  exact inv_fold le_rfl hsz d

/-- one level of one phase of the inverse schedule -/
theorem invLevel_eq {b p l ph sz : ℕ} (hl : l ≤ p) (hsz : 2^(b+p+1) ≤ sz) (d : ℕ → ℂ) :
    (let numSegments := 2 ^ l
     let numSteps := 2^p / numSegments
     if ph < numSteps then segmentedInverseR sz (2^(b+p+1)) numSegments numSteps ph d else some d)
      = some (onSet (fun x => x < 2^(b+p+1) ∧ tau b p l x = ph) (ilev (2^(b+p-l))) d) := by
  simp only [Nat.pow_div hl (by norm_num : 0 < 2)]
  split
  · next h =>
    rw [segmentedInverse_eq (by omega) (by omega) h hsz]
    have e : b + p + 1 - 1 - l = b + p - l := by omega
    have e2 : b + p - l - (p - l) = b := by omega
    refine congrArg some (funext fun x => ?_)
    simp only [onSet, e, e2, tau]
    split_ifs with hh <;> simp [hh]
  · next h =>
    refine congrArg some (funext fun x => ?_)
    have := tau_lt (b := b) (i := x) hl
    rw [onSet, if_neg (by omega)]

/-- state of the inverse schedule started from `G nd`; `G m` has the levels `m, .., nd - 1` undone -/
def InvSched (b p nd : ℕ) (G : ℕ → ℕ → ℂ) (ph l : ℕ) (d : ℕ → ℂ) : Prop :=
  ∀ i < 2^(b+p+1), ∀ m ≤ nd, (∀ l' < nd, InvDone b p ph l l' i ↔ m ≤ l') → d i = G m i

theorem InvSched_level {b p nd ph l : ℕ} {G : ℕ → ℕ → ℂ} {d : ℕ → ℂ} (hG : ∀ m < nd, G m = ilev (2^(b+p-m)) (G (m+1))) (hnd : nd ≤ p + 1) (hl : l < nd)
    (h : InvSched b p nd G ph (l+1) d) :
    InvSched b p nd G ph l
      (onSet (fun x => x < 2^(b+p+1) ∧ tau b p l x = ph) (ilev (2^(b+p-l))) d) := by
  intro i hi m hm hD
  unfold onSet
  by_cases ht : tau b p l i = ph
  · rw [if_pos ⟨hi, ht⟩]
    have hml : m = l := by
      have h1 := (hD l hl).mp (Or.inr ⟨ht, le_rfl⟩)
      rcases Nat.lt_or_ge m l with hlt | hge
      · have := (hD m (by omega)).mpr le_rfl
        have h3 := tau_anti (b := b) (p := p) hlt.le (by omega) i
        rcases this with h4 | h4 <;> omega
      · omega
    subst hml
    have key : ∀ y, y < 2^(b+p+1) → tau b p m y = ph → d y = G (m+1) y := by
      intro y hy hty
      apply h y hy (m+1) (by omega)
      intro l' hl'
      constructor
      · intro hd
        by_contra hc
        have h3 := tau_anti (b := b) (p := p) (show l' ≤ m by omega) (by omega) y
        rcases hd with h4 | h4 <;> omega
      · intro hc
        have h3 := tau_anti (b := b) (p := p) (show m ≤ l' by omega) (by omega) y
        rcases Nat.lt_or_ge (tau b p l' y) ph with h4 | h4
        · exact Or.inl h4
        · exact Or.inr ⟨by omega, hc⟩
    have hc := closed_lt' (b := b) (p := p) (l := m) i hi
    have ht2 := tau_low (b := b) (p := p) (l := m) i
    rw [ilev_congr d (G (m+1)) i (key _ hc.1 (by rw [ht2.1, ht]))
      (key _ hc.2 (by rw [ht2.2, ht]))]
    rw [hG m hl]
  · rw [if_neg (by tauto)]
    apply h i hi m hm
    intro l' hl'
    rw [← hD l' hl']
    unfold InvDone
    constructor
    · rintro (h4 | ⟨h4, h5⟩)
      · exact Or.inl h4
      · exact Or.inr ⟨h4, by omega⟩
    · rintro (h4 | ⟨h4, h5⟩)
      · exact Or.inl h4
      · refine Or.inr ⟨h4, ?_⟩
        rcases Nat.lt_or_ge l l' with h6 | h6
        · omega
        · exfalso; have : l' = l := by omega
          subst this; exact ht h4

theorem InvSched_phase {b p nd ph : ℕ} {G : ℕ → ℕ → ℂ} {d : ℕ → ℂ} {sz : ℕ} (hG : ∀ m < nd, G m = ilev (2^(b+p-m)) (G (m+1))) (hnd : nd ≤ p + 1)
    (hsz : 2^(b+p+1) ≤ sz) (h : InvSched b p nd G ph nd d) :
    ∃ d', inverseScheduleR sz nd (2^(b+p+1)) (2^p) d ph = some d' ∧
      InvSched b p nd G (ph+1) nd d' ∧ (∀ i ≥ 2^(b+p+1), d' i = d i) := by
  unfold inverseScheduleR
  have main : ∀ l ≤ nd, ∀ d, InvSched b p nd G ph l d → ∃ d',
      (List.range l).reverse.foldlM (fun d level =>
        let numSegments := 2 ^ level
        let numSteps := 2^p / numSegments
        if ph < numSteps then segmentedInverseR sz (2^(b+p+1)) numSegments numSteps ph d
        else some d) d = some d' ∧ InvSched b p nd G ph 0 d' ∧ (∀ i ≥ 2^(b+p+1), d' i = d i) := by
    intro l hl
    induction l with
    | zero => intro d hd; exact ⟨d, rfl, hd, fun _ _ => rfl⟩
    | succ l ih =>
      intro d hd
      rw [List.range_succ, List.reverse_append, List.reverse_singleton, List.singleton_append,
        List.foldlM_cons, invLevel_eq (by omega) hsz]
      obtain ⟨d', h1, h2, h3⟩ := ih (by omega) _ (InvSched_level hG hnd (by omega) hd)
      refine ⟨d', h1, h2, fun i hi => ?_⟩
      rw [h3 i hi, onSet, if_neg (by omega)]
  obtain ⟨d', h1, h2, h3⟩ := main nd le_rfl d h
  refine ⟨d', h1, ?_, h3⟩
  intro i hi m hm hD
  apply h2 i hi m hm
  intro l' hl'
  rw [← hD l' hl']
  unfold InvDone
  omega

theorem InvSched_init {b p nd : ℕ} {G : ℕ → ℕ → ℂ} {d : ℕ → ℂ}
    (h : ∀ i < 2^(b+p+1), d i = G nd i) : InvSched b p nd G 0 nd d := by
  intro i hi m hm hD
  have : m = nd := by
    rcases Nat.lt_or_ge m nd with h1 | h1
    · have := (hD m h1).mpr le_rfl
      unfold InvDone at this; omega
    · omega
  rw [this]; exact h i hi

theorem InvSched_read {b p nd ph : ℕ} {G : ℕ → ℕ → ℂ} {d : ℕ → ℂ} (hnd : nd ≤ p + 1)
    (h : InvSched b p nd G ph nd d) (i : ℕ) (hi : i < 2^(b+p+1)) (ht : (i % 2^(b+p)) / 2^b < ph) :
    d i = G 0 i := by
  have := h i hi 0 (by omega) ?_
  · exact this
  · intro l' hl'
    simp only [zero_le, iff_true]
    have h3 := tau_anti (b := b) (p := p) (Nat.zero_le l') (by omega) i
    left
    have : tau b p 0 i = (i % 2^(b+p)) / 2^b := by simp [tau]
    omega

theorem fwdLevel_eq {b p l ph sz : ℕ} (hl : l ≤ p) (hph : ph < 2^p) (hsz : 2^(b+p+1) ≤ sz)
    (d : ℕ → ℂ) :
    (let numSegments := 2 ^ l
     let numSteps := 2^p / numSegments
     if ph ≥ 2^p - numSteps then
       if numSteps = 0 then none
       else segmentedForwardR sz (2^(b+p+1)) numSegments numSteps (ph % numSteps) d
     else some d)
      = some (onSet (fun x => x < 2^(b+p+1) ∧ fwdT b p l x = ph) (lev (2^(b+p-l))) d) := by
  simp only [Nat.pow_div hl (by norm_num : 0 < 2)]
  have e1 : (2:ℕ)^(p-l) ≤ 2^p := Nat.pow_le_pow_right (by norm_num) (by omega)
  have hpos : 0 < (2:ℕ)^(p-l) := by positivity
  split
  · next h =>
    rw [if_neg (by omega), segmentedForward_eq (by omega) (by omega) (Nat.mod_lt _ hpos) hsz]
    have e : b + p + 1 - 1 - l = b + p - l := by omega
    have e2 : b + p - l - (p - l) = b := by omega
    have em : ph % 2^(p-l) = ph - (2^p - 2^(p-l)) := by
      have ed : (2:ℕ)^p - 2^(p-l) = 2^(p-l) * (2^l - 1) := by
        rw [Nat.mul_sub, ← pow_add, mul_one]; congr 2; omega
      conv_lhs => rw [← Nat.sub_add_cancel h]
      rw [ed, Nat.add_mul_mod_self_left, Nat.mod_eq_of_lt]
      rw [← ed]; omega
    refine congrArg some (funext fun x => ?_)
    have ht := tau_lt (b := b) (i := x) hl
    unfold onSet
    simp only [e, e2, em]
    have : (x % 2^(b+p-l) / 2^b = ph - (2^p - 2^(p-l))) ↔ fwdT b p l x = ph := by
      change tau b p l x = _ ↔ _
      unfold fwdT; omega
    simp only [this]
  · next h =>
    refine congrArg some (funext fun x => ?_)
    rw [onSet, if_neg]
    unfold fwdT; omega

/-- state of the forward schedule during phase `ph` when `l` levels of this phase have run -/
def FwdSched (b p nd : ℕ) (x : ℕ → ℂ) (ph l : ℕ) (d : ℕ → ℂ) : Prop :=
  ∀ i < 2^(b+p+1), ∀ m ≤ nd, (∀ l' < nd, FwdDone b p ph l l' i ↔ l' < m) →
    d i = if m = 0 then arrived b ph x i else Fl (b+p+1) m x i

theorem FwdSched_level {b p nd ph l : ℕ} {x d : ℕ → ℂ} (hx : ∀ i ≥ 2^(b+p), x i = 0)
    (hnd : nd ≤ p + 1) (hl : l < nd)
    (h : FwdSched b p nd x ph l d) :
    FwdSched b p nd x ph (l+1)
      (onSet (fun x => x < 2^(b+p+1) ∧ fwdT b p l x = ph) (lev (2^(b+p-l))) d) := by
  intro i hi m hm hD
  unfold onSet
  by_cases ht : fwdT b p l i = ph
  · rw [if_pos ⟨hi, ht⟩]
    have hml : m = l + 1 := by
      have h1 := (hD l hl).mp (Or.inr ⟨ht, by omega⟩)
      rcases Nat.lt_or_ge (l+1) m with hlt | hge
      · have := (hD (l+1) (by omega)).mpr hlt
        have h3 := fwdT_mono (b := b) (p := p) (show l ≤ l+1 by omega) (by omega) i
        rcases this with h4 | h4 <;> omega
      · omega
    subst hml
    rw [if_neg (by omega)]
    have key : ∀ y, y < 2^(b+p+1) → fwdT b p l y = ph →
        d y = if l = 0 then arrived b ph x y else Fl (b+p+1) l x y := by
      intro y hy hty
      apply h y hy l (by omega)
      intro l' hl'
      constructor
      · intro hd
        by_contra hc
        have h3 := fwdT_mono (b := b) (p := p) (show l ≤ l' by omega) (by omega) y
        rcases hd with h4 | h4 <;> omega
      · intro hc
        have h3 := fwdT_mono (b := b) (p := p) (show l' ≤ l by omega) (by omega) y
        rcases Nat.lt_or_ge (fwdT b p l' y) ph with h4 | h4
        · exact Or.inl h4
        · exact Or.inr ⟨by omega, hc⟩
    have key2 : ∀ y, y < 2^(b+p+1) → fwdT b p l y = ph → d y = Fl (b+p+1) l x y := by
      intro y hy hty
      rw [key y hy hty]
      by_cases h0 : l = 0
      · subst h0
        simp only [if_true, Fl, arrived]
        split
        · rfl
        · next hn =>
          rw [fwdT_zero] at hty
          rcases Nat.lt_or_ge y (2^(b+p)) with h5 | h5
          · exfalso
            rw [Nat.mod_eq_of_lt h5] at hty
            apply hn
            rw [← hty]
            have := Nat.lt_div_mul_add (a := y) (b := 2^b) (by positivity)
            rw [Nat.add_mul]; omega
          · rw [hx _ h5]
      · rw [if_neg h0]
    have hc := closed_lt' (b := b) (p := p) (l := l) i hi
    have ht2 := fwdT_low (b := b) (p := p) (l := l) i
    rw [lev_congr d (Fl (b+p+1) l x) i (key2 _ hc.1 (by rw [ht2.1, ht]))
      (key2 _ hc.2 (by rw [ht2.2, ht]))]
    rw [Fl, show b + p + 1 - 1 - l = b + p - l by omega]
  · rw [if_neg (by tauto)]
    apply h i hi m hm
    intro l' hl'
    rw [← hD l' hl']
    unfold FwdDone
    constructor
    · rintro (h4 | ⟨h4, h5⟩)
      · exact Or.inl h4
      · exact Or.inr ⟨h4, by omega⟩
    · rintro (h4 | ⟨h4, h5⟩)
      · exact Or.inl h4
      · refine Or.inr ⟨h4, ?_⟩
        rcases Nat.lt_or_ge l' l with h6 | h6
        · omega
        · exfalso; have : l' = l := by omega
          subst this; exact ht h4

theorem FwdSched_phase {b p nd ph : ℕ} {x d : ℕ → ℂ} {sz : ℕ} (hx : ∀ i ≥ 2^(b+p), x i = 0)
    (hnd : nd ≤ p + 1) (hph : ph < 2^p)
    (hsz : 2^(b+p+1) ≤ sz) (h : FwdSched b p nd x ph 0 d) :
    ∃ d', forwardScheduleR sz nd (2^(b+p+1)) (2^p) d ph = some d' ∧
      FwdSched b p nd x ph nd d' ∧ (∀ i ≥ 2^(b+p+1), d' i = d i) := by
  unfold forwardScheduleR
  have main : ∀ l ≤ nd, ∃ d',
      (List.range l).foldlM (fun d level =>
        let numSegments := 2 ^ level
        let numSteps := 2^p / numSegments
        if ph ≥ 2^p - numSteps then
          if numSteps = 0 then none
          else segmentedForwardR sz (2^(b+p+1)) numSegments numSteps (ph % numSteps) d
        else some d) d = some d' ∧ FwdSched b p nd x ph l d' ∧ (∀ i ≥ 2^(b+p+1), d' i = d i) := by
    intro l hl
    induction l with
    | zero => exact ⟨d, rfl, h, fun _ _ => rfl⟩
    | succ l ih =>
      obtain ⟨d', h1, h2, h3⟩ := ih (by omega)
      rw [List.range_succ, List.foldlM_append, h1]
      simp only [Option.bind_eq_bind, Option.bind_some, List.foldlM_cons, List.foldlM_nil]
      refine ⟨_, ?_, FwdSched_level hx hnd (by omega) h2, fun i hi => ?_⟩
      · have := fwdLevel_eq (b := b) (l := l) (p := p) (by omega) hph hsz d'
        simp only at this
        rw [this]
        rfl
      · rw [onSet, if_neg (by omega), h3 i hi]
  exact main nd le_rfl

/-- the buffer at the start of phase 0, after the first block has been written into a cleared buffer -/
theorem FwdSched_init {b p nd : ℕ} {x d : ℕ → ℂ}
    (h : ∀ i < 2^(b+p+1), d i = arrived b 0 x i) : FwdSched b p nd x 0 0 d := by
  intro i hi m hm hD
  have : m = 0 := by
    by_contra hc
    have := (hD 0 (by omega)).mpr (by omega)
    unfold FwdDone at this; omega
  rw [if_pos this]; exact h i hi

/-- writing the next block -/
theorem FwdSched_next {b p nd ph : ℕ} {x d d' : ℕ → ℂ} (hph : ph + 1 < 2^p)
    (h : FwdSched b p nd x ph nd d)
    (hw : ∀ i < 2^(b+p+1), d' i = if (ph+1) * 2^b ≤ i ∧ i < (ph+2) * 2^b then x i else d i) :
    FwdSched b p nd x (ph+1) 0 d' := by
  intro i hi m hm hD
  rw [hw i hi]
  have hB : (ph+2) * 2^b = (ph+1)*2^b + 2^b := by ring
  have hp : 0 < 2^b := by positivity
  have hle : (ph+2) * 2^b ≤ 2^(b+p) := by
    rw [pow_add, mul_comm]; exact Nat.mul_le_mul_left _ hph
  by_cases hw : (ph+1) * 2^b ≤ i ∧ i < (ph+2) * 2^b
  · rw [if_pos hw]
    have hT : fwdT b p 0 i = ph + 1 := by
      rw [fwdT_zero, Nat.mod_eq_of_lt (by omega)]
      apply Nat.div_eq_of_lt_le hw.1
      rw [show (ph+1+1) = ph+2 by ring]; exact hw.2
    have hm0 : m = 0 := by
      by_contra hc
      have := (hD 0 (by omega)).mpr (by omega)
      unfold FwdDone at this; omega
    rw [if_pos hm0, arrived, if_pos (by rw [show ph+1+1 = ph+2 by ring]; exact hw.2)]
  · rw [if_neg hw]
    rw [h i hi m hm]
    · by_cases hm0 : m = 0
      · rw [if_pos hm0, if_pos hm0]
        unfold arrived
        rw [show ph+1+1 = ph+2 by ring]
        by_cases h1 : i < (ph+1) * 2^b
        · rw [if_pos h1, if_pos (by omega)]
        · rw [if_neg h1, if_neg (by omega)]
      · rw [if_neg hm0, if_neg hm0]
    · intro l' hl'
      rw [← hD l' hl']
      unfold FwdDone
      omega

theorem FwdSched_final {b p nd : ℕ} {x d : ℕ → ℂ} (hx : ∀ i ≥ 2^(b+p), x i = 0) (hnd : nd ≤ p + 1)
    (h : FwdSched b p nd x (2^p - 1) nd d) (i : ℕ) (hi : i < 2^(b+p+1)) :
    d i = Fl (b+p+1) nd x i := by
  rw [h i hi nd le_rfl]
  · split
    · next h0 =>
      subst h0
      unfold arrived
      rw [Nat.sub_add_cancel (Nat.one_le_two_pow), ← pow_add, add_comm p b]
      simp only [Fl]
      split
      · rfl
      · rw [hx _ (by omega)]
    · rfl
  · intro l' hl'
    simp only [hl', iff_true]
    have := fwdT_lt (b := b) (i := i) (show l' ≤ p by omega)
    unfold FwdDone; omega

end Zones.Proofs.R
