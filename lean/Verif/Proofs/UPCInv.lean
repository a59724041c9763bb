import Verif.Proofs.UPC

/-! # `UniformPartitionedConvolver`: invariant over whole streams -/

open Finset Zones.Spec Zones.Model

namespace Zones.Proofs

variable {c : UPar} {s : UPC} {x : ℕ → ℕ → ℝ}

/-- window `q` of the stream -/
def uwin (c : UPar) (x : ℕ → ℕ → ℝ) (q ch j : ℕ) : ℝ := x ch (q * c.B - c.D + j)

/-- real circular convolution -/
def rcirc (N : ℕ) (x h : ℕ → ℝ) (n : ℕ) : ℝ := ∑ k ∈ range N, h k * x ((n + N - k) % N)

theorem ft_rcirc (c : UPar) (x h : ℕ → ℝ) (k : ℕ) : c.ft (rcirc (2^c.o) x h) k = c.ft x k * c.ft h k := by
  unfold UPar.ft
  rw [mul_comm, ← dft_circConv (by positivity)]
  congr 1
  funext n
  unfold rcirc circConv
  push_cast; rfl

theorem ft_add (c : UPar) (x y : ℕ → ℝ) (k : ℕ) : c.ft (fun n => x n + y n) k = c.ft x k + c.ft y k := by
  unfold UPar.ft dft
  rw [← sum_add_distrib]
  refine sum_congr rfl fun j _ => ?_
  push_cast; ring

theorem ft_sum (c : UPar) (m : ℕ) (f : ℕ → ℕ → ℝ) (k : ℕ) :
    c.ft (fun n => ∑ i ∈ range m, f i n) k = ∑ i ∈ range m, c.ft (f i) k := by
  induction m with
  | zero => simp [UPar.ft, dft]
  | succ m ih =>
    simp only [sum_range_succ]
    rw [ft_add c (fun n => ∑ i ∈ range m, f i n) (f m), ih]

/-- position `D + e` of the circular convolution with partition `i` -/
theorem rcirc_at {B N D : ℕ} (hB : 0 < B) (hN : 2 * B ≤ N) (hD : D + B = N) {X h : ℕ → ℝ} (hh : ∀ j, B ≤ j → h j = 0)
    {e : ℕ} (he : e < B) {Y : ℕ → ℝ} (hX : ∀ j ≤ D + e, X j = Y j) :
    rcirc N X h (D + e) = ∑ k ∈ range B, h k * Y (D + e - k) := by
  unfold rcirc
  rw [← sum_subset (range_mono (show B ≤ N by omega))]
  · refine sum_congr rfl fun k hk => ?_
    rw [mem_range] at hk
    rw [show D + e + N - k = D + e - k + N by omega, Nat.add_mod_right, Nat.mod_eq_of_lt (by omega),
      hX _ (by omega)]
  · intro k _ hk
    rw [mem_range] at hk
    rw [hh k (by omega), zero_mul]

/-- window `q`, partially filled with `e` samples, before the next samples are added -/
structure UMid (c : UPar) (x : ℕ → ℕ → ℝ) (q e : ℕ) (s : UPC) : Prop where
  ex : ∃ R F V, URep c e R F V s ∧
    (∀ ch < c.nch, ∀ j < c.D + e, R ch j = uwin c x q ch j) ∧
    (∀ i, 0 < i → i < c.K → ∀ ch < c.nch, ∀ k ≤ c.N / 2, F i ch k = c.ft (uwin c x (q-i) ch) k) ∧
    (∀ ch < c.nch, ∀ k ≤ c.N / 2, V ch k = ∑ i ∈ range (c.K - 1), c.ft (uwin c x (q-(i+1)) ch) k * c.ft (c.H ch (i+1)) k)

/-- state after `T` samples of the (virtual) stream -/
structure UCore (c : UPar) (x : ℕ → ℕ → ℝ) (T : ℕ) (s : UPC) : Prop where
  ex : ∃ q e R F V, 0 < e ∧ e ≤ c.B ∧ T = q * c.B + e ∧ c.K + 3 ≤ q ∧ URep c (e % c.B) R F V s ∧
    (∀ ch < c.nch, ∀ j < c.D + e, R ch j = uwin c x q ch j) ∧
    (e = c.B → ∀ ch < c.nch, ∀ k ≤ c.N / 2, F 0 ch k = c.ft (uwin c x q ch) k) ∧
    (∀ i, 0 < i → i < c.K → ∀ ch < c.nch, ∀ k ≤ c.N / 2, F i ch k = c.ft (uwin c x (q-i) ch) k) ∧
    (∀ ch < c.nch, ∀ k ≤ c.N / 2, V ch k = ∑ i ∈ range (c.K - 1), c.ft (uwin c x (q-(i+1)) ch) k * c.ft (c.H ch (i+1)) k)

theorem UCore.prelude {T : ℕ} (h : UCore c x T s) :
    ∃ s' q e, s.prelude = some s' ∧ e < c.B ∧ T = q * c.B + e ∧ c.K + 3 ≤ q ∧ UMid c x q e s' := by
  obtain ⟨q, e, R, F, V, he, he2, hT, hq, rep, hR, hF0, hF, hV⟩ := h.ex
  rcases Nat.eq_or_lt_of_le he2 with heq | hlt
  · subst heq
    rw [Nat.mod_self] at rep
    obtain ⟨s', F', e1, hF', rep'⟩ := rep.prelude_zero
    have hDN := rep.hDN
    have hN2 := rep.hN2
    have hN4 := rep.hN4
    have hqD : c.D ≤ q * c.B := by
      have : 4 * c.B ≤ q * c.B := Nat.mul_le_mul_right _ (by have := rep.hK; omega)
      omega
    have hq1 : (q+1) * c.B = q * c.B + c.B := by ring
    refine ⟨s', q+1, 0, e1, he, by rw [hT, hq1]; rfl, by omega, ⟨_, _, _, rep', ?_, ?_, ?_⟩⟩
    · intro ch hch j hj
      have : slot c.N c.B j = c.B + j := by unfold slot; rw [if_pos (by omega)]
      simp only [this]
      rw [hR ch hch _ (by omega)]
      unfold uwin
      congr 1; omega
    · intro i hi hiK ch hch k hk
      obtain ⟨i, rfl⟩ : ∃ i', i = i' + 1 := ⟨i-1, by omega⟩
      rw [hF']
      by_cases hi0 : i = 0
      · subst hi0; rw [hF0 rfl ch hch k hk]; rfl
      · rw [hF i (by omega) (by omega) ch hch k hk]; congr 2; omega
    · intro ch hch k hk
      refine sum_congr rfl fun i hi => ?_
      rw [mem_range] at hi
      congr 1
      by_cases hi0 : i = 0
      · subst hi0; rw [hF0 rfl ch hch k hk]; rfl
      · rw [hF i (by omega) (by omega) ch hch k hk]; congr 2; omega
  · rw [Nat.mod_eq_of_lt hlt] at rep
    exact ⟨s, q, e, rep.prelude_pos (by omega), hlt, hT, hq, ⟨R, F, V, rep, hR, hF, hV⟩⟩

theorem UMid.body {F' : RealFFT} (hF' : Lawful F') {q e : ℕ} (h : UMid c x q e s) (he : e < c.B) (hq : c.K + 3 ≤ q)
    {blk : Buf} {done k : ℕ} (hk : 0 < k) (hek : e + k ≤ c.B) (hd : done + k ≤ blk.n) (hch : blk.ch = c.nch)
    (hin : ∀ ch < c.nch, ∀ i < k, blk.data ch (done + i) = x ch (q * c.B + e + i)) :
    ∃ s' blk', s.body F' blk done k = some (s', blk') ∧ blk'.n = blk.n ∧ blk'.ch = c.nch ∧
      (∀ ch < c.nch, ∀ i < blk.n, blk'.data ch i =
        if done ≤ i ∧ i < done + k then ∑ m ∈ range (c.K * c.B), c.h ch m * x ch (q * c.B + e + (i - done) - m)
        else blk.data ch i) ∧
      UCore c x (q * c.B + e + k) s' := by
  obtain ⟨R, F, V, rep, hR, hF, hV⟩ := h.ex
  have hDN := rep.hDN
  have hN2 := rep.hN2
  have hN4 := rep.hN4
  have hB := rep.hB
  have hK := rep.hK
  have hqB : (c.K + 3) * c.B ≤ q * c.B := Nat.mul_le_mul_right _ hq
  have hKB : (c.K + 3) * c.B = c.K * c.B + 3 * c.B := by ring
  have hKB1 : c.B ≤ c.K * c.B := Nat.le_mul_of_pos_left _ hK
  set R' : ℕ → ℕ → ℝ := fun ch j =>
    if c.D + e ≤ j ∧ j < c.D + e + k then blk.data ch (done + (j - (c.D + e))) else R ch j with hR'
  have hRw : ∀ ch < c.nch, ∀ j < c.D + (e + k), R' ch j = uwin c x q ch j := by
    intro ch hc j hj
    simp only [hR']
    split
    · next hj2 =>
      rw [hin ch hc _ (by omega)]; unfold uwin; congr 1; omega
    · next hj2 => exact hR ch hc j (by omega)
  set y : ℕ → ℕ → ℝ := fun ch n => rcirc (2^c.o) (R' ch) (c.H ch 0) n +
    ∑ i ∈ range (c.K - 1), rcirc (2^c.o) (uwin c x (q-(i+1)) ch) (c.H ch (i+1)) n with hy
  obtain ⟨s', blk', e1, n1, c1, d1, rep'⟩ := rep.body F' hF' hk hek hd hch R' (fun _ _ _ _ => rfl) y (by
    intro ch hc k hk
    simp only [hy]
    rw [ft_add c (rcirc (2^c.o) (R' ch) (c.H ch 0)), ft_sum c (c.K - 1) (fun i => rcirc (2^c.o) (uwin c x (q-(i+1)) ch) (c.H ch (i+1))),
      ft_rcirc, hV ch hc k hk]
    congr 1
    refine sum_congr rfl fun i _ => ?_
    rw [ft_rcirc])
  refine ⟨s', blk', e1, n1, c1, ?_, ⟨q, e + k, R', _, V, by omega, hek, by ring, hq, rep', hRw, ?_, ?_, hV⟩⟩
  · intro ch hc i hi
    rw [d1 ch hc i hi]
    split
    · next hdi =>
      obtain ⟨j, rfl⟩ : ∃ j, i = done + j := ⟨i - done, by omega⟩
      rw [Nat.add_sub_cancel_left]
      have hH0 : ∀ i j, c.B ≤ j → c.H ch i j = 0 := by
        intro i j hj; unfold UPar.H; rw [if_neg (by omega)]
      have term : ∀ i < c.K, ∀ X : ℕ → ℝ, (∀ j' ≤ c.D + (e + j), X j' = uwin c x (q - i) ch j') →
          rcirc (2^c.o) X (c.H ch i) (c.D + e + j) = ∑ m ∈ range c.B, c.h ch (i * c.B + m) * x ch (q * c.B + e + j - (i * c.B + m)) := by
        intro i hi X hX
        rw [show c.D + e + j = c.D + (e + j) by omega, rcirc_at hB hN2 hDN (hH0 i) (by omega) hX]
        refine sum_congr rfl fun m hm => ?_
        rw [mem_range] at hm
        have hiB : i * c.B + c.B ≤ c.K * c.B := by
          calc i * c.B + c.B = (i+1) * c.B := by ring
            _ ≤ _ := Nat.mul_le_mul_right _ hi
        have hqi : (q - i) * c.B = q * c.B - i * c.B := by rw [Nat.sub_mul]
        unfold UPar.H uwin
        rw [if_pos hm, hqi]
        congr 2
        omega
      simp only [hy]
      rw [term 0 hK (R' ch) (fun j' hj' => hRw ch hc j' (by omega))]
      have : ∀ i ∈ range (c.K - 1), rcirc (2^c.o) (uwin c x (q-(i+1)) ch) (c.H ch (i+1)) (c.D + e + j) =
          ∑ m ∈ range c.B, c.h ch ((i+1) * c.B + m) * x ch (q * c.B + e + j - ((i+1) * c.B + m)) := by
        intro i hi
        rw [mem_range] at hi
        exact term (i+1) (by omega) _ (fun j' _ => rfl)
      rw [sum_congr rfl this, sum_range_mul]
      obtain ⟨K', hK'⟩ : ∃ K', c.K = K' + 1 := ⟨c.K - 1, by omega⟩
      rw [hK', sum_range_succ', Nat.add_sub_cancel, add_comm]
    · rfl
  · intro heB ch hc k hk
    rw [if_pos rfl]
    unfold UPar.ft dft
    refine sum_congr rfl fun j hj => ?_
    rw [mem_range] at hj
    have hj' : j < c.N := hj
    beta_reduce
    rw [hRw ch hc j (by omega)]
  · intro i hi hiK ch hc k hk
    rw [if_neg (by omega)]
    exact hF i hi hiK ch hc k hk

theorem UCore.loop {F' : RealFFT} (hF' : Lawful F') (fuel : ℕ) : ∀ {s : UPC} {T : ℕ} {blk : Buf} {done : ℕ}, UCore c x T s →
    blk.ch = c.nch → done ≤ blk.n →
    (done < blk.n → blk.n - done + T % c.B ≤ fuel * c.B) →
    (∀ ch < c.nch, ∀ i < blk.n - done, blk.data ch (done + i) = x ch (T + i)) →
    ∃ s' blk', UPC.loop F' fuel s blk done = some (s', blk') ∧ blk'.n = blk.n ∧ blk'.ch = c.nch ∧
      (∀ ch < c.nch, ∀ i < blk.n, blk'.data ch i =
        if done ≤ i then ∑ m ∈ range (c.K * c.B), c.h ch m * x ch (T + (i - done) - m) else blk.data ch i) ∧
      UCore c x (T + (blk.n - done)) s' := by
  induction fuel with
  | zero =>
    intro s T blk done h hch hdn hfuel hin
    have hdn' : ¬ done < blk.n := fun hc => by have := hfuel hc; omega
    refine ⟨s, blk, by unfold UPC.loop; rw [if_neg hdn'], rfl, hch, ?_, by rw [show blk.n - done = 0 by omega]; exact h⟩
    intro ch _ i hi
    rw [if_neg (by omega)]
  | succ fuel ih =>
    intro s T blk done h hch hdn hfuel hin
    by_cases hdn' : done < blk.n
    · obtain ⟨s1, q, e, e1, he, hT, hq, hmid⟩ := h.prelude
      obtain ⟨R, F, V, rep, _⟩ := hmid.ex
      set k := min (blk.n - done) (c.B - e) with hk
      have hTmod : T % c.B = e := by rw [hT, add_comm, Nat.add_mul_mod_self_right, Nat.mod_eq_of_lt he]
      obtain ⟨s2, blk2, e2, n2, c2, d2, core2⟩ := hmid.body hF' he hq (blk := blk) (done := done) (k := k)
        (by omega) (by omega) (by omega) hch (by
          intro ch hc i hi
          rw [hin ch hc i (by omega), hT])
      rw [← hT] at core2 d2
      obtain ⟨s3, blk3, e3, n3, c3, d3, core3⟩ := ih core2 c2 (done := done + k) (by omega) (by
          intro hlt
          rw [n2] at hlt
          have hkB : k = c.B - e := by omega
          have : (T + k) % c.B = 0 := by
            rw [hT, hkB, show q * c.B + e + (c.B - e) = c.B * (q+1) by rw [mul_add, mul_comm]; omega, Nat.mul_mod_right]
          rw [this, n2]
          have hf := hfuel hdn'
          rw [hTmod, Nat.add_mul, one_mul] at hf
          omega) (by
          intro ch hc i hi
          rw [n2] at hi
          rw [d2 ch hc _ (by omega), if_neg (by omega), show done + k + i = done + (k + i) by ring,
            hin ch hc _ (by omega), add_assoc])
      refine ⟨s3, blk3, ?_, by rw [n3, n2], c3, ?_, ?_⟩
      · unfold UPC.loop
        rw [if_pos hdn', e1]
        simp only [Option.bind_eq_bind, Option.bind_some]
        rw [rep.partSize, rep.col, ← hk, e2]
        exact e3
      · intro ch hc i hi
        rw [d3 ch hc i (by omega)]
        by_cases h1 : done + k ≤ i
        · rw [if_pos h1, if_pos (by omega)]
          refine sum_congr rfl fun m _ => ?_
          congr 2; omega
        · rw [if_neg h1, d2 ch hc i hi]
          by_cases h2 : done ≤ i
          · rw [if_pos (by omega), if_pos h2]
          · rw [if_neg (by omega), if_neg h2]
      · rw [n2] at core3
        rw [show T + (blk.n - done) = T + k + (blk.n - (done + k)) by omega]; exact core3
    · refine ⟨s, blk, by unfold UPC.loop; rw [if_neg hdn'], rfl, hch, ?_, by rw [show blk.n - done = 0 by omega]; exact h⟩
      intro ch _ i hi
      rw [if_neg (by omega)]

/-! ## Reset and construction -/

theorem URep.reset {col : ℕ} {R : ℕ → ℕ → ℝ} {F : ℕ → ℕ → ℕ → ℂ} {V : ℕ → ℕ → ℂ} (h : URep c col R F V s) :
    URep c 0 (fun _ _ => 0) (fun _ _ _ => 0) (fun _ _ => 0) s.reset := by
  have hlt := h.half_lt
  exact { h with
    col := rfl
    fdlK := h.fdlK
    fdlh := h.fdlh
    fdl := by
      intro i hi
      simp only [UPC.reset, FDL.clear, h.fdlK, hi, if_true]
      exact h.fdl i hi
    conv := h.conv
    ifft := h.ifft
    rn := h.rn
    rc := h.rc
    rh := h.rh
    hR := by
      intro ch hc j hj
      simp only [UPC.reset, Buf.clear]
      rw [if_pos]
      exact ⟨by rw [h.rc]; exact hc, by rw [h.rn]; exact slot_lt h.rh hj⟩
    hF := by
      intro i hi ch hc k hk
      have hidx : s.fdl.idx i < c.K := by unfold FDL.idx; rw [h.fdlK]; exact Nat.mod_lt _ h.hK
      have hline : s.reset.fdl.line (s.reset.fdl.idx i) = (s.fdl.line (s.fdl.idx i)).clear := by
        show (if s.fdl.idx i < s.fdl.numBlocks then _ else _) = _
        rw [if_pos (by rw [h.fdlK]; exact hidx)]; rfl
      rw [hline]
      apply get_clear
      · rw [(h.fdl _ hidx).1]; exact hc
      · rw [(h.fdl _ hidx).2]; omega
    hV := by
      intro ch hc k hk
      apply get_clear
      · rw [h.conv.1]; exact hc
      · rw [h.conv.2]; omega }

theorem ft_zero (c : UPar) (k : ℕ) : c.ft (fun _ => 0) k = 0 := by
  unfold UPar.ft dft; simp

/-- a state with all buffers zero is a state of any stream that is silent so far -/
theorem UCore.of_zero {T0 : ℕ} (h : URep c 0 (fun _ _ => 0) (fun _ _ _ => 0) (fun _ _ => 0) s)
    (hT : c.K + 5 ≤ T0) (hx : ∀ ch, ∀ i < T0 * c.B, x ch i = 0) : UCore c x (T0 * c.B) s := by
  have hDN := h.hDN
  have hB := h.hB
  have hN4 := h.hN4
  have hq : (T0 - 1) * c.B + c.B = T0 * c.B := by
    obtain ⟨q, rfl⟩ : ∃ q, T0 = q + 1 := ⟨T0 - 1, by omega⟩
    rw [Nat.add_sub_cancel]; ring
  have hw : ∀ i < c.K, ∀ ch, ∀ j < c.N, uwin c x (T0 - 1 - i) ch j = 0 := by
    intro i hi ch j hj
    unfold uwin
    have h1 : (T0 - 1 - i) * c.B ≤ (T0 - 1) * c.B := Nat.mul_le_mul_right _ (by omega)
    have h2 : 5 * c.B ≤ (T0 - 1 - i) * c.B := Nat.mul_le_mul_right _ (by omega)
    exact hx ch _ (by omega)
  have hft : ∀ i < c.K, ∀ ch k, c.ft (uwin c x (T0 - 1 - i) ch) k = 0 := by
    intro i hi ch k
    unfold UPar.ft dft
    refine sum_eq_zero fun j hj => ?_
    rw [mem_range] at hj
    beta_reduce
    rw [hw i hi ch j hj]; simp
  have hK := h.hK
  refine ⟨T0 - 1, c.B, _, _, _, hB, le_rfl, hq.symm, by omega, by rw [Nat.mod_self]; exact h, ?_, ?_, ?_, ?_⟩
  · intro ch _ j hj
    exact (hw 0 hK ch j (by omega)).symm
  · intro _ ch _ k _
    exact (hft 0 hK ch k).symm
  · intro i _ hi ch _ k _
    exact (hft i hi ch k).symm
  · intro ch _ k _
    symm
    refine sum_eq_zero fun i hi => ?_
    rw [mem_range] at hi
    rw [hft (i+1) (by omega) ch k, zero_mul]

/-- state after `t` samples of `x` since the start or the last reset -/
def UInv (c : UPar) (x : ℕ → ℕ → ℝ) (t : ℕ) (s : UPC) : Prop :=
  ∃ T0, c.K + 5 ≤ T0 ∧ UCore c (fun ch => shift (T0 * c.B) (x ch)) (T0 * c.B + t) s

theorem UInv.of_zero (h : URep c 0 (fun _ _ => 0) (fun _ _ _ => 0) (fun _ _ => 0) s) (x : ℕ → ℕ → ℝ) :
    UInv c x 0 s := by
  refine ⟨c.K + 5, le_rfl, UCore.of_zero h le_rfl ?_⟩
  intro ch i hi
  unfold shift; rw [if_pos hi]

theorem UInv.rep {t : ℕ} (h : UInv c x t s) : ∃ R F V, URep c (t % c.B) R F V s := by
  obtain ⟨T0, _, h⟩ := h
  obtain ⟨q, e, R, F, V, _, he, hT, _, rep, _⟩ := h.ex
  refine ⟨R, F, V, ?_⟩
  have : t % c.B = e % c.B := by
    rw [← Nat.mul_add_mod c.B T0 t, mul_comm c.B, hT, add_comm, Nat.add_mul_mod_self_right]
  rw [this]; exact rep

theorem UInv.reset {t : ℕ} (h : UInv c x t s) (x' : ℕ → ℕ → ℝ) : UInv c x' 0 s.reset := by
  obtain ⟨R, F, V, rep⟩ := h.rep
  exact UInv.of_zero rep.reset x'

/-- `Process` on any block size, with a bound on the number of passes -/
theorem UInv.loop {F' : RealFFT} (hF' : Lawful F') {t : ℕ} (h : UInv c x t s) {blk : Buf} (hch : blk.ch = c.nch)
    (hin : ∀ ch < c.nch, ∀ i < blk.n, blk.data ch i = x ch (t + i)) (fuel : ℕ)
    (hfuel : 0 < blk.n → blk.n + t % c.B ≤ fuel * c.B) :
    ∃ s' blk', UPC.loop F' fuel s blk 0 = some (s', blk') ∧ blk'.n = blk.n ∧ blk'.ch = c.nch ∧
      (∀ ch < c.nch, ∀ i < blk.n, blk'.data ch i = linConv (c.K * c.B) (c.h ch) (x ch) (t + i)) ∧
      UInv c x (t + blk.n) s' := by
  obtain ⟨T0, hT0, hc⟩ := h
  have hmod : (T0 * c.B + t) % c.B = t % c.B := by rw [mul_comm, Nat.mul_add_mod]
  obtain ⟨s', blk', e1, n1, c1, d1, core⟩ := hc.loop hF' fuel (blk := blk) (done := 0) hch (by omega)
    (by rw [hmod]; exact hfuel) (by
      intro ch hc i hi
      rw [zero_add, hin ch hc i (by omega)]
      unfold shift; rw [if_neg (by omega)]; congr 1; omega)
  refine ⟨s', blk', e1, n1, c1, ?_, T0, hT0, by rw [← add_assoc]; exact core⟩
  intro ch hc i hi
  rw [d1 ch hc i hi, if_pos (by omega)]
  have hb : (c.K + 5) * c.B ≤ T0 * c.B := Nat.mul_le_mul_right _ hT0
  have hb2 : (c.K + 5) * c.B = c.K * c.B + 5 * c.B := by ring
  have := sum_dconv (a := T0 * c.B) (n := t + i) (D := 0) (m := c.K * c.B) (h := c.h ch) (x := x ch) (by omega)
  unfold dconv at this
  rw [if_pos (by omega)] at this
  rw [← Nat.sub_zero (t + i), ← this]
  refine sum_congr rfl fun m _ => ?_
  congr 2; omega

theorem fuel_enough {n e B : ℕ} (he : e < B) (hn : 0 < n) : n + e ≤ n * B := by
  obtain ⟨m, rfl⟩ : ∃ m, n = m + 1 := ⟨n-1, by omega⟩
  obtain ⟨k, rfl⟩ : ∃ k, B = k + 1 := ⟨B-1, by omega⟩
  have : (m+1) * (k+1) = m * k + m + k + 1 := by ring
  rw [this]
  have := Nat.zero_le (m*k)
  omega

theorem UInv.step {F' : RealFFT} (hF' : Lawful F') {t : ℕ} (h : UInv c x t s) {blk : Buf} (hch : blk.ch = c.nch)
    (hin : ∀ ch < c.nch, ∀ i < blk.n, blk.data ch i = x ch (t + i)) :
    ∃ s' blk', s.process F' blk = some (s', blk') ∧ blk'.n = blk.n ∧ blk'.ch = c.nch ∧
      (∀ ch < c.nch, ∀ i < blk.n, blk'.data ch i = linConv (c.K * c.B) (c.h ch) (x ch) (t + i)) ∧
      UInv c x (t + blk.n) s' := by
  obtain ⟨R, F, V, rep⟩ := h.rep
  exact h.loop hF' hch hin blk.n (fun hn => fuel_enough (Nat.mod_lt _ rep.hB) hn)

theorem filterPartition_eq {F' : RealFFT} (hF' : Lawful F') {o B nch : ℕ} (ho : 0 < o) (hBN : 2 * B ≤ 2^o) {ir : Buf}
    (hir : 0 < nch → 0 < ir.ch) {i : ℕ} (hi : i * B < ir.n) :
    ∃ b, UPC.filterPartition F' B o nch ir i = some b ∧ b.np = 2^o ∧ b.ch = nch ∧
      ∀ ch < nch, ∀ k ≤ 2^o / 2, b.get ch k =
        dft (2^o) (fun j => ((if j < B then zext ir (ch % ir.ch) (i * B + j) else 0 : ℝ) : ℂ)) k := by
  unfold UPC.filterPartition
  have hsub : ir.sub (i * B) (min B (ir.n - i * B)) =
      some ⟨ir.ch, min B (ir.n - i * B), fun c j => ir.data c (i * B + j)⟩ := by
    unfold Buf.sub; rw [if_pos ⟨hi, by omega⟩]
  simp only [hsub, Option.bind_eq_bind, Option.bind_some]
  set part : Buf := ⟨ir.ch, min B (ir.n - i * B), fun c j => ir.data c (i * B + j)⟩ with hpart
  have hpos : 0 < 2^o := by positivity
  have hNe : 2 * (2^o / 2) = 2^o := by
    obtain ⟨q, rfl⟩ : ∃ q, o = q + 1 := ⟨o - 1, by omega⟩
    rw [pow_succ]; omega
  have main : ∀ m ≤ nch, ∃ b, (List.range m).foldlM (UPC.filterChannel F' o part) (CBuf.mk0 (2^o) nch).clear = some b ∧
      b.np = 2^o ∧ b.ch = nch ∧
      (∀ ch < m, ∀ k ≤ 2^o / 2, b.get ch k =
        dft (2^o) (fun j => ((if j < B then zext ir (ch % ir.ch) (i * B + j) else 0 : ℝ) : ℂ)) k) ∧
      ∀ ch < nch, m ≤ ch → ∀ j < 2 * 2^o, b.floats.data ch j = 0 := by
    intro m hm
    induction m with
    | zero =>
      refine ⟨_, rfl, rfl, rfl, fun ch hc => by omega, fun ch hc _ j hj => ?_⟩
      have hz : (CBuf.mk0 (2^o) nch).clear.get ch (j/2) = 0 := get_clear hc (by show j / 2 < 2^o; omega)
      simp only [CBuf.floats]
      rw [hz]; simp
    | succ m ih =>
      obtain ⟨b1, e1, n1, c1, g1, z1⟩ := ih (by omega)
      rw [List.range_succ, List.foldlM_append, e1]
      simp only [Option.bind_eq_bind, Option.bind_some, List.foldlM_cons, List.foldlM_nil]
      unfold UPC.filterChannel
      have hmod : m % part.ch < part.ch := Nat.mod_lt _ (hir (by omega))
      rw [if_neg (by show ¬ ir.ch = 0; omega)]
      have hs1 : part.single (m % part.ch) = some ⟨1, part.n, fun _ j => part.data (m % part.ch) j⟩ := by
        unfold Buf.single; rw [if_pos hmod]
      have hs2 : b1.floats.single m = some ⟨1, b1.floats.n, fun _ j => b1.floats.data m j⟩ := by
        unfold Buf.single; rw [if_pos (by show m < b1.ch; omega)]
      simp only [hs1, hs2, Option.bind_eq_bind, Option.bind_some]
      set src : ℕ → ℝ := (Buf.copyFrom ⟨1, b1.floats.n, fun _ j => b1.floats.data m j⟩
        ⟨1, part.n, fun _ j => part.data (m % part.ch) j⟩).data 0 with hsrc
      set b2 := b1.ofFloats (b1.floats.putChannel m src) with hb2
      have hb2n : b2.np = 2^o := n1
      have hb2c : b2.ch = nch := c1
      have hfn : b1.floats.n = 2 * 2^o := by show 2 * b1.np = _; rw [n1]
      have hsrcv : ∀ j < 2^o, src j = if j < B then zext ir (m % ir.ch) (i * B + j) else 0 := by
        intro j hj
        simp only [hsrc, Buf.copyFrom, hpart, zext]
        rw [hfn, z1 m (by omega) le_rfl j (by omega)]
        by_cases h1 : j < B
        · rw [if_pos h1]
          by_cases h2 : i * B + j < ir.n
          · rw [if_pos (by omega), if_pos h2]
          · rw [if_neg (by omega), if_neg h2]
        · rw [if_neg h1, if_neg (by omega)]
      have hb2f : ∀ ch < nch, ∀ j < 2 * 2^o, b2.floats.data ch j = if ch = m then src j else b1.floats.data ch j := by
        intro ch hc j hj
        rw [hb2, floats_ofFloats (by omega) (by omega)]
        unfold Buf.putChannel
        simp only
        by_cases hcm : ch = m
        · rw [if_pos ⟨hcm, by omega⟩, if_pos hcm]
        · rw [if_neg (by tauto), if_neg hcm]
      unfold UPC.transformChannel
      rw [if_pos (by omega)]
      have hb3f : ∀ ch < nch, ∀ j < 2 * 2^o, (b2.ofFloats (b2.floats.putChannel m (F'.fwd o (b2.floats.data m)))).floats.data ch j
          = if ch = m then F'.fwd o (b2.floats.data m) j else b1.floats.data ch j := by
        intro ch hc j hj
        rw [floats_ofFloats (by omega) (by omega)]
        unfold Buf.putChannel
        simp only
        have hfn2 : b2.floats.n = 2 * 2^o := by show 2 * b2.np = _; rw [hb2n]
        by_cases hcm : ch = m
        · rw [if_pos ⟨hcm, by omega⟩, if_pos hcm]
        · rw [if_neg (by tauto), if_neg hcm, hb2f ch hc j hj, if_neg hcm]
      refine ⟨_, rfl, hb2n, hb2c, ?_, ?_⟩
      · intro ch hc k hk
        rw [get_eq_floats, hb3f ch (by omega) _ (by omega), hb3f ch (by omega) _ (by omega)]
        by_cases hcm : ch = m
        · subst hcm
          rw [if_pos rfl, if_pos rfl, hF'.fwd o ho _ k hk]
          unfold dft
          refine sum_congr rfl fun j hj => ?_
          rw [mem_range] at hj
          beta_reduce
          rw [hb2f ch (by omega) j (by omega), if_pos rfl, hsrcv j hj]
        · rw [if_neg hcm, if_neg hcm, ← get_eq_floats]
          exact g1 ch (by omega) k hk
      · intro ch hc hmc j hj
        rw [hb3f ch hc j hj, if_neg (by omega)]
        exact z1 ch hc (by omega) j hj
  obtain ⟨b, e, n1, c1, g, _⟩ := main nch le_rfl
  exact ⟨b, e, n1, c1, g⟩

/-- parameters of a uniform convolver for the segment `ir` -/
abbrev uPar (B nch : ℕ) (ir : Buf) : UPar :=
  ⟨B, fftOrder B, segK B ir, nch, fun ch => zext ir (ch % ir.ch)⟩

theorem order_bounds {B : ℕ} (hB : 0 < B) : 0 < fftOrder B ∧ 2 * B ≤ 2^fftOrder B ∧ 2^fftOrder B ≤ 4 * B := by
  unfold fftOrder
  have h1 : B * 2 ≤ 2 ^ Nat.clog 2 (B*2) := Nat.le_pow_clog (by norm_num) _
  have h2 : 0 < Nat.clog 2 (B*2) := Nat.clog_pos (by norm_num) (by omega)
  have h3 := Nat.pow_pred_clog_lt_self (b := 2) (by norm_num) (x := B*2) (by omega)
  obtain ⟨k, hk⟩ : ∃ k, Nat.clog 2 (B*2) = k + 1 := ⟨Nat.clog 2 (B*2) - 1, by omega⟩
  rw [hk] at h1 h3 ⊢
  rw [Nat.pred_succ] at h3
  refine ⟨by omega, by omega, ?_⟩
  rw [pow_succ]; omega

theorem UInv.create {F' : RealFFT} (hF' : Lawful F') {B nch : ℕ} (hB : 0 < B) (hB' : B ≤ 2^24) {ir : Buf}
    (hn : 0 < ir.n) (hn' : ir.n ≤ 2^24) (hch : 0 < nch → 0 < ir.ch) (ring0 : ℕ → ℕ → ℝ) :
    ∃ s, UPC.create F' B nch ir ring0 = some s ∧ ∀ x, UInv (uPar B nch ir) x 0 s := by
  obtain ⟨o1, o2, o3⟩ := order_bounds hB
  unfold UPC.create
  rw [if_neg (by omega)]
  simp only [numPartitionsFor_eq hB hn' hB']
  obtain ⟨v, ev, hv⟩ := buildVec_eq (CBuf.mk0 0 0) (f := UPC.filterPartition F' B (fftOrder B) nch ir) (n := segK B ir)
    (Q := fun i b => b.np = 2^(fftOrder B) ∧ b.ch = nch ∧
      ∀ ch < nch, ∀ k ≤ 2^(fftOrder B) / 2, b.get ch k =
        dft (2^(fftOrder B)) (fun j => ((if j < B then zext ir (ch % ir.ch) (i * B + j) else 0 : ℝ) : ℂ)) k)
    (fun i hi => filterPartition_eq hF' o1 o2 hch (by
      rw [Nat.lt_div_iff_mul_lt hB] at hi; omega))
  rw [ev]
  refine ⟨_, rfl, fun x => UInv.of_zero ?_ x⟩
  have hpos : 0 < 2^(fftOrder B) := by positivity
  refine URep.reset (R := fun ch j => ring0 ch (slot (2^fftOrder B) 0 j))
    (F := fun _ => (CBuf.mk0 (2^fftOrder B) nch).clear.get) (V := (CBuf.mk0 (2^fftOrder B) nch).get) (col := 0) ?_
  exact
    { hB := hB, hN2 := o2, hN4 := o3, hK := Nat.div_pos (by omega) hB, partSize := rfl, order := rfl, discard := rfl
      col := rfl, Kf := rfl, filt := hv, fdlK := rfl, fdlh := Nat.div_pos (by omega) hB, fdl := fun i _ => ⟨rfl, rfl⟩
      conv := ⟨rfl, rfl⟩, ifft := ⟨rfl, rfl⟩, rn := rfl, rc := rfl, rh := hpos, hR := fun ch _ j _ => rfl
      hF := fun i _ ch _ k _ => rfl, hV := fun ch _ k _ => rfl }

/-- the partitions cover the segment -/
theorem linConv_seg {B : ℕ} (hB : 0 < B) (ir : Buf) (ch : ℕ) (x : ℕ → ℝ) (n : ℕ) :
    linConv (segK B ir * B) (zext ir ch) x n = linConv ir.n (ir.data ch) x n := by
  apply linConv_ext
  · have := Nat.div_add_mod (ir.n + B - 1) B
    have := Nat.mod_lt (ir.n + B - 1) hB
    show ir.n ≤ (ir.n + B - 1) / B * B
    rw [mul_comm]; omega
  · intro j hj; unfold zext; rw [if_pos hj]
  · intro j hj; unfold zext; rw [if_neg (by omega)]

end Zones.Proofs
