import Verif.Proofs.RUPCInv
import Verif.Proofs.RMem
import Verif.Spec.Bits

/-! # Two runs on streams that agree from some sample on: `UniformPartitionedConvolver` -/

open Finset Zones.Spec Zones.Model

namespace Zones.Proofs.R

variable [Arith] {c : UPar} {s s' : UPC} {x x' : ℕ → ℕ → ℝ}

/-- window `q` of channel `ch` holds the same samples in both streams -/
def WinEq (c : UPar) (x x' : ℕ → ℕ → ℝ) (q ch : ℕ) : Prop := ∀ j < c.N, uwin c x q ch j = uwin c x' q ch j

/-- window `q`, partially filled with `e` samples, before the next samples are added -/
structure U2Mid (c : UPar) (x x' : ℕ → ℕ → ℝ) (q e : ℕ) (s s' : UPC) : Prop where
  ex : ∃ G R F V R' F' V', URep c G e R F V s ∧ URep c G e R' F' V' s' ∧
    (∀ ch < c.nch, ∀ j < c.N, ∃ i, q * c.B ≤ i + c.N ∧ i < q * c.B + e ∧ R ch j = x ch i ∧ R' ch j = x' ch i) ∧
    (∀ ch < c.nch, ∀ j < c.D + e, R ch j = uwin c x q ch j ∧ R' ch j = uwin c x' q ch j) ∧
    (∀ i, 0 < i → i < c.K → ∀ ch < c.nch, WinEq c x x' (q-i) ch → ∀ k ≤ c.N / 2, F i ch k = F' i ch k) ∧
    (∀ ch < c.nch, (∀ i < c.K - 1, WinEq c x x' (q-(i+1)) ch) → ∀ k ≤ c.N / 2, V ch k = V' ch k)

/-- states after `T` samples of the (virtual) streams -/
structure U2Core (c : UPar) (x x' : ℕ → ℕ → ℝ) (T : ℕ) (s s' : UPC) : Prop where
  ex : ∃ q e G R F V R' F' V', 0 < e ∧ e ≤ c.B ∧ T = q * c.B + e ∧ c.K + 3 ≤ q ∧
    URep c G (e % c.B) R F V s ∧ URep c G (e % c.B) R' F' V' s' ∧
    (∀ ch < c.nch, ∀ j < c.N, ∃ i, q * c.B ≤ i + c.N ∧ i < q * c.B + e ∧ R ch j = x ch i ∧ R' ch j = x' ch i) ∧
    (∀ ch < c.nch, ∀ j < c.D + e, R ch j = uwin c x q ch j ∧ R' ch j = uwin c x' q ch j) ∧
    (e = c.B → ∀ ch < c.nch, WinEq c x x' q ch → ∀ k ≤ c.N / 2, F 0 ch k = F' 0 ch k) ∧
    (∀ i, 0 < i → i < c.K → ∀ ch < c.nch, WinEq c x x' (q-i) ch → ∀ k ≤ c.N / 2, F i ch k = F' i ch k) ∧
    (∀ ch < c.nch, (∀ i < c.K - 1, WinEq c x x' (q-(i+1)) ch) → ∀ k ≤ c.N / 2, V ch k = V' ch k)

theorem U2Core.prelude {T : ℕ} (h : U2Core c x x' T s s') :
    ∃ s1 s1' q e, s.preludeR = some s1 ∧ s'.preludeR = some s1' ∧ e < c.B ∧ T = q * c.B + e ∧ c.K + 3 ≤ q ∧ U2Mid c x x' q e s1 s1' := by
  obtain ⟨q, e, G, R, F, V, R', F', V', he, he2, hT, hq, rep, rep', hRX, hR, hF0, hF, hV⟩ := h.ex
  rcases Nat.eq_or_lt_of_le he2 with heq | hlt
  · subst heq
    rw [Nat.mod_self] at rep rep'
    obtain ⟨s1, F1, e1, hF1, rep1⟩ := rep.prelude_zero
    obtain ⟨s1', F1', e1', hF1', rep1'⟩ := rep'.prelude_zero
    have hDN := rep.hDN
    have hN2 := rep.hN2
    have hN4 := rep.hN4
    have hqD : c.D ≤ q * c.B := by
      have : 4 * c.B ≤ q * c.B := Nat.mul_le_mul_right _ (by have := rep.hK; omega)
      omega
    have hq1 : (q+1) * c.B = q * c.B + c.B := by ring
    have hFs : ∀ i < c.K, ∀ ch < c.nch, WinEq c x x' (q + 1 - (i+1)) ch → ∀ k ≤ c.N / 2, F i ch k = F' i ch k := by
      intro i hi ch hch
      by_cases hi0 : i = 0
      · subst hi0; exact hF0 rfl ch hch
      · rw [show q + 1 - (i+1) = q - i by omega]; exact hF i (by omega) hi ch hch
    have hK := rep.hK
    refine ⟨s1, s1', q+1, 0, e1, e1', he, by rw [hT, hq1]; rfl, by omega, ⟨G, _, _, _, _, _, _, rep1, rep1', ?_, ?_, ?_, ?_⟩⟩
    · intro ch hch j hj
      have hsl := slot_lt (n := c.N) (by omega : c.B < c.N) hj
      have := hR ch hch (slot c.N c.B j) (by omega)
      exact ⟨q * c.B - c.D + slot c.N c.B j, by omega, by omega, by rw [this.1]; rfl, by rw [this.2]; rfl⟩
    · intro ch hch j hj
      have hsl : slot c.N c.B j = c.B + j := by unfold slot; rw [if_pos (by omega)]
      simp only [hsl]
      have := hR ch hch (c.B + j) (by omega)
      rw [this.1, this.2]
      unfold uwin
      exact ⟨by congr 1; omega, by congr 1; omega⟩
    · intro i hi hiK ch hch hw k hk
      obtain ⟨i, rfl⟩ : ∃ i', i = i' + 1 := ⟨i-1, by omega⟩
      rw [hF1, hF1']
      exact hFs i (by omega) ch hch hw k hk
    · intro ch hch hw k hk
      exact macs_congr (fun i hi => hFs i (by omega) ch hch (hw i hi) k hk) (fun _ _ => rfl)
  · rw [Nat.mod_eq_of_lt hlt] at rep rep'
    exact ⟨s, s', q, e, rep.prelude_pos (by omega), rep'.prelude_pos (by omega), hlt, hT, hq,
      ⟨G, R, F, V, R', F', V', rep, rep', hRX, hR, hF, hV⟩⟩

theorem U2Mid.body {E : RealFFT} (hE : HalfSpectrum E) {q e : ℕ} (h : U2Mid c x x' q e s s') (he : e < c.B)
    (hq : c.K + 3 ≤ q)
    {blk blk' : Buf} {done k : ℕ} (hk : 0 < k) (hek : e + k ≤ c.B) (hd : done + k ≤ blk.n) (hch : blk.ch = c.nch)
    (hd' : done + k ≤ blk'.n) (hch' : blk'.ch = c.nch)
    (hin : ∀ ch < c.nch, ∀ i < k, blk.data ch (done + i) = x ch (q * c.B + e + i))
    (hin' : ∀ ch < c.nch, ∀ i < k, blk'.data ch (done + i) = x' ch (q * c.B + e + i)) :
    ∃ s1 out s1' out', s.bodyR E blk done k = some (s1, out) ∧ s'.bodyR E blk' done k = some (s1', out') ∧
      out.n = blk.n ∧ out.ch = c.nch ∧ out'.n = blk'.n ∧ out'.ch = c.nch ∧
      (∀ ch < c.nch, ∀ i < blk.n, i < blk'.n → done ≤ i → i < done + k → ∀ a, SameFrom a (x ch) (x' ch) →
        a + (c.N + c.K * c.B) ≤ q * c.B + e + (i - done) + 1 → out.data ch i = out'.data ch i) ∧
      (∀ ch < c.nch, ∀ i < blk.n, ¬ (done ≤ i ∧ i < done + k) → out.data ch i = blk.data ch i) ∧
      (∀ ch < c.nch, ∀ i < blk'.n, ¬ (done ≤ i ∧ i < done + k) → out'.data ch i = blk'.data ch i) ∧
      U2Core c x x' (q * c.B + e + k) s1 s1' := by
  obtain ⟨G, R, F, V, R', F', V', rep, rep', hRX, hR, hF, hV⟩ := h.ex
  have hDN := rep.hDN
  have hN2 := rep.hN2
  have hN4 := rep.hN4
  have hB := rep.hB
  have hK := rep.hK
  have hqB : (c.K + 3) * c.B ≤ q * c.B := Nat.mul_le_mul_right _ hq
  have hKB : (c.K + 3) * c.B = c.K * c.B + 3 * c.B := by ring
  have hKB1 : c.B ≤ c.K * c.B := Nat.le_mul_of_pos_left _ hK
  set R1 : ℕ → ℕ → ℝ := fun ch j =>
    if c.D + e ≤ j ∧ j < c.D + e + k then blk.data ch (done + (j - (c.D + e))) else R ch j with hR1
  set R1' : ℕ → ℕ → ℝ := fun ch j =>
    if c.D + e ≤ j ∧ j < c.D + e + k then blk'.data ch (done + (j - (c.D + e))) else R' ch j with hR1'
  have hRw : ∀ ch < c.nch, ∀ j < c.D + (e + k), R1 ch j = uwin c x q ch j ∧ R1' ch j = uwin c x' q ch j := by
    intro ch hc j hj
    simp only [hR1, hR1']
    by_cases hj2 : c.D + e ≤ j ∧ j < c.D + e + k
    · rw [if_pos hj2, if_pos hj2, hin ch hc _ (by omega), hin' ch hc _ (by omega)]
      unfold uwin
      exact ⟨by congr 1; omega, by congr 1; omega⟩
    · rw [if_neg hj2, if_neg hj2]; exact hR ch hc j (by omega)
  have hRX' : ∀ ch < c.nch, ∀ j < c.N, ∃ i, q * c.B ≤ i + c.N ∧ i < q * c.B + (e + k) ∧ R1 ch j = x ch i ∧ R1' ch j = x' ch i := by
    intro ch hc j hj
    by_cases hjD : j < c.D + (e + k)
    · exact ⟨q * c.B - c.D + j, by omega, by omega, (hRw ch hc j hjD).1, (hRw ch hc j hjD).2⟩
    · obtain ⟨i, i1, i2, i3, i4⟩ := hRX ch hc j hj
      refine ⟨i, i1, by omega, ?_, ?_⟩
      · simp only [hR1]; rw [if_neg (by omega)]; exact i3
      · simp only [hR1']; rw [if_neg (by omega)]; exact i4
  obtain ⟨s1, out, X0, Y, e1, n1, c1, d1, hX0, hY, rep1⟩ := rep.body E hk hek hd hch R1 (fun _ _ _ _ => rfl)
  obtain ⟨s1', out', X0', Y', e1', n1', c1', d1', hX0', hY', rep1'⟩ := rep'.body E hk hek hd' hch' R1' (fun _ _ _ _ => rfl)
  have hXe : ∀ ch < c.nch, (∀ j < c.N, R1 ch j = R1' ch j) → ∀ k ≤ c.N / 2, X0 ch k = X0' ch k := by
    intro ch hc hw k hk
    obtain ⟨d, g1, g2⟩ := hX0 ch hc
    obtain ⟨d', g1', g2'⟩ := hX0' ch hc
    rw [g2 k hk, g2' k hk]
    exact hE.fwd _ _ _ (fun i hi => by rw [g1 i hi, g1' i hi, hw i hi]) k hk
  have hYe : ∀ ch < c.nch, (∀ j < c.N, R1 ch j = R1' ch j) → (∀ i < c.K - 1, WinEq c x x' (q-(i+1)) ch) →
      ∀ n < c.N, Y ch n = Y' ch n := by
    intro ch hc hw hw2 n hn
    obtain ⟨d, g1, g2⟩ := hY ch hc
    obtain ⟨d', g1', g2'⟩ := hY' ch hc
    rw [g2 n hn, g2' n hn]
    refine hE.inv _ _ _ (fun i hi => ?_) n hn
    rw [g1 i hi, g1' i hi, hXe ch hc hw i hi, hV ch hc hw2 i hi]
  refine ⟨s1, out, s1', out', e1, e1', n1, c1, n1', c1', ?_, ?_, ?_,
    ⟨q, e + k, G, R1, _, V, R1', _, V', by omega, hek, by ring, hq, rep1, rep1', hRX', hRw, ?_, ?_, hV⟩⟩
  · intro ch hc i hi hi' hdi1 hdi2 a hsame ha
    rw [d1 ch hc i hi, if_pos ⟨hdi1, hdi2⟩, d1' ch hc i hi', if_pos ⟨hdi1, hdi2⟩]
    refine hYe ch hc ?_ ?_ _ (by omega)
    · intro j hj
      obtain ⟨i, i1, i2, i3, i4⟩ := hRX' ch hc j hj
      rw [i3, i4]
      exact hsame i (by omega)
    · intro i hi j' hj'
      have w1 : (q - (i+1)) * c.B = q * c.B - (i+1) * c.B := Nat.sub_mul _ _ _
      have w2 : (i+1) * c.B + c.B ≤ c.K * c.B := by
        rw [← Nat.succ_mul]; exact Nat.mul_le_mul_right _ (by omega)
      exact hsame _ (by omega)
  · intro ch hc i hi hdi
    rw [d1 ch hc i hi, if_neg hdi]
  · intro ch hc i hi hdi
    rw [d1' ch hc i hi, if_neg hdi]
  · intro heB ch hc hw k hk
    simp only [if_true]
    refine hXe ch hc (fun j hj => ?_) k hk
    rw [(hRw ch hc j (by omega)).1, (hRw ch hc j (by omega)).2]
    exact hw j hj
  · intro i hi hiK ch hc hw k hk
    rw [if_neg (by omega), if_neg (by omega)]
    exact hF i hi hiK ch hc hw k hk

theorem U2Core.loop {E : RealFFT} (hE : HalfSpectrum E)
    (fuel : ℕ) : ∀ {s s' : UPC} {T : ℕ} {blk blk' : Buf} {done : ℕ}, U2Core c x x' T s s' →
    blk.ch = c.nch → blk'.ch = c.nch → blk'.n = blk.n → done ≤ blk.n →
    (done < blk.n → blk.n - done + T % c.B ≤ fuel * c.B) →
    (∀ ch < c.nch, ∀ i < blk.n - done, blk.data ch (done + i) = x ch (T + i)) →
    (∀ ch < c.nch, ∀ i < blk.n - done, blk'.data ch (done + i) = x' ch (T + i)) →
    ∃ s1 out s1' out', UPC.loopR E fuel s blk done = some (s1, out) ∧ UPC.loopR E fuel s' blk' done = some (s1', out') ∧
      out.n = blk.n ∧ out.ch = c.nch ∧ out'.n = blk.n ∧ out'.ch = c.nch ∧
      (∀ ch < c.nch, ∀ i < blk.n, done ≤ i → ∀ a, SameFrom a (x ch) (x' ch) →
        a + (c.N + c.K * c.B) ≤ T + (i - done) + 1 → out.data ch i = out'.data ch i) ∧
      (∀ ch < c.nch, ∀ i < blk.n, i < done → out.data ch i = blk.data ch i ∧ out'.data ch i = blk'.data ch i) ∧
      U2Core c x x' (T + (blk.n - done)) s1 s1' := by
  induction fuel with
  | zero =>
    intro s s' T blk blk' done h hch hch' hnn hdn hfuel hin hin'
    have hdn' : ¬ done < blk.n := fun hc => by have := hfuel hc; omega
    exact ⟨s, blk, s', blk', by unfold UPC.loopR; rw [if_neg hdn'], by unfold UPC.loopR; rw [if_neg (by rw [hnn]; exact hdn')], rfl, hch, hnn, hch',
      fun ch _ i hi hdi => by omega, fun _ _ _ _ _ => ⟨rfl, rfl⟩,
      by rw [show blk.n - done = 0 by omega]; exact h⟩
  | succ fuel ih =>
    intro s s' T blk blk' done h hch hch' hnn hdn hfuel hin hin'
    by_cases hdn' : done < blk.n
    · obtain ⟨s1, s1', q, e, e1, e1', he, hT, hq, hmid⟩ := h.prelude
      obtain ⟨G, R, F, V, R', F', V', rep, rep', _⟩ := hmid.ex
      set k := min (blk.n - done) (c.B - e) with hk
      have hTmod : T % c.B = e := by rw [hT, add_comm, Nat.add_mul_mod_self_right, Nat.mod_eq_of_lt he]
      obtain ⟨s2, b2, s2', b2', e2, e2', n2, c2, n2', c2', g2, d2, d2', core2⟩ := hmid.body hE he hq (blk := blk) (blk' := blk') (done := done) (k := k)
        (by omega) (by omega) (by omega) hch (by omega) hch' (by
          intro ch hc i hi
          rw [hin ch hc i (by omega), hT]) (by
          intro ch hc i hi
          rw [hin' ch hc i (by omega), hT])
      rw [← hT] at core2 g2
      obtain ⟨s3, b3, s3', b3', e3, e3', n3, c3, n3', c3', g3, d3, core3⟩ := ih core2 c2 c2' (by omega) (done := done + k) (by omega) (by
          intro hlt
          rw [n2] at hlt
          have hkB : k = c.B - e := by omega
          have : (T + k) % c.B = 0 := by
            rw [hT, hkB, show q * c.B + e + (c.B - e) = c.B * (q+1) by rw [mul_add, mul_comm]; omega, Nat.mul_mod_right]
          rw [this, n2]
          have hf := hfuel hdn'
          rw [hTmod, Nat.add_mul, one_mul] at hf
          omega) (by
          intro ch hc i hi
          rw [n2] at hi
          rw [d2 ch hc _ (by omega) (by omega), show done + k + i = done + (k + i) by ring,
            hin ch hc _ (by omega), add_assoc]) (by
          intro ch hc i hi
          rw [n2] at hi
          rw [d2' ch hc _ (by omega) (by omega), show done + k + i = done + (k + i) by ring,
            hin' ch hc _ (by omega), add_assoc])
      refine ⟨s3, b3, s3', b3', ?_, ?_, by rw [n3, n2], c3, by rw [n3', n2], c3', ?_, ?_, ?_⟩
      · unfold UPC.loopR
        rw [if_pos hdn', e1]
        simp only [Option.bind_eq_bind, Option.bind_some]
        rw [rep.partSize, rep.col, ← hk, e2]
        exact e3
      · unfold UPC.loopR
        rw [if_pos (by rw [hnn]; exact hdn'), e1']
        simp only [Option.bind_eq_bind, Option.bind_some]
        rw [rep'.partSize, rep'.col, hnn, ← hk, e2']
        exact e3'
      · intro ch hc i hi hdi a hsame ha
        by_cases h1 : done + k ≤ i
        · exact g3 ch hc i (by omega) h1 a hsame (by omega)
        · rw [(d3 ch hc i (by omega) (by omega)).1, (d3 ch hc i (by omega) (by omega)).2]
          exact g2 ch hc i hi (by omega) hdi (by omega) a hsame ha
      · intro ch hc i hi hdi
        rw [(d3 ch hc i (by omega) (by omega)).1, (d3 ch hc i (by omega) (by omega)).2]
        exact ⟨d2 ch hc i hi (by omega), d2' ch hc i (by omega) (by omega)⟩
      · rw [n2] at core3
        rw [show T + (blk.n - done) = T + k + (blk.n - (done + k)) by omega]; exact core3
    · exact ⟨s, blk, s', blk', by unfold UPC.loopR; rw [if_neg hdn'], by unfold UPC.loopR; rw [if_neg (by rw [hnn]; exact hdn')], rfl, hch, hnn, hch',
        fun ch _ i hi hdi => by omega, fun _ _ _ _ _ => ⟨rfl, rfl⟩,
        by rw [show blk.n - done = 0 by omega]; exact h⟩

/-! ## Reset and construction -/

/-- states with all buffers zero are states of any streams that are silent so far -/
theorem U2Core.of_zero {T0 : ℕ} {G : ℕ → ℕ → ℕ → ℂ}
    (h : URep c G 0 (fun _ _ => 0) (fun _ _ _ => 0) (fun _ _ => 0) s)
    (h' : URep c G 0 (fun _ _ => 0) (fun _ _ _ => 0) (fun _ _ => 0) s')
    (hT : c.K + 5 ≤ T0) (hx : ∀ ch, ∀ i < T0 * c.B, x ch i = 0) (hx' : ∀ ch, ∀ i < T0 * c.B, x' ch i = 0) :
    U2Core c x x' (T0 * c.B) s s' := by
  have hDN := h.hDN
  have hB := h.hB
  have hN4 := h.hN4
  have hK := h.hK
  have hq : (T0 - 1) * c.B + c.B = T0 * c.B := by
    obtain ⟨q, rfl⟩ : ∃ q, T0 = q + 1 := ⟨T0 - 1, by omega⟩
    rw [Nat.add_sub_cancel]; ring
  have hT5 : 5 * c.B ≤ T0 * c.B := Nat.mul_le_mul_right _ (by omega)
  refine ⟨T0 - 1, c.B, G, _, _, _, _, _, _, hB, le_rfl, hq.symm, by omega, by rw [Nat.mod_self]; exact h, by rw [Nat.mod_self]; exact h', ?_, ?_, ?_, ?_, ?_⟩
  · intro ch _ j hj
    exact ⟨T0 * c.B - 1, by omega, by omega, (hx ch _ (by omega)).symm, (hx' ch _ (by omega)).symm⟩
  · intro ch _ j hj
    unfold uwin
    exact ⟨(hx ch _ (by omega)).symm, (hx' ch _ (by omega)).symm⟩
  · intros; rfl
  · intros; rfl
  · intros; rfl

/-- states after `t` samples since the start or the last reset -/
def U2Inv (c : UPar) (x x' : ℕ → ℕ → ℝ) (t : ℕ) (s s' : UPC) : Prop :=
  ∃ T0, c.K + 5 ≤ T0 ∧ U2Core c (fun ch => shift (T0 * c.B) (x ch)) (fun ch => shift (T0 * c.B) (x' ch)) (T0 * c.B + t) s s'

theorem U2Inv.of_zero {G : ℕ → ℕ → ℕ → ℂ}
    (h : URep c G 0 (fun _ _ => 0) (fun _ _ _ => 0) (fun _ _ => 0) s)
    (h' : URep c G 0 (fun _ _ => 0) (fun _ _ _ => 0) (fun _ _ => 0) s') (x x' : ℕ → ℕ → ℝ) :
    U2Inv c x x' 0 s s' := by
  refine ⟨c.K + 5, le_rfl, U2Core.of_zero h h' le_rfl ?_ ?_⟩
  all_goals
    intro ch i hi
    unfold shift; rw [if_pos hi]

theorem U2Inv.rep {t : ℕ} (h : U2Inv c x x' t s s') :
    ∃ G R F V R' F' V', URep c G (t % c.B) R F V s ∧ URep c G (t % c.B) R' F' V' s' := by
  obtain ⟨T0, _, h⟩ := h
  obtain ⟨q, e, G, R, F, V, R', F', V', _, he, hT, _, rep, rep', _⟩ := h.ex
  have : t % c.B = e % c.B := by
    rw [← Nat.mul_add_mod c.B T0 t, mul_comm c.B, hT, add_comm, Nat.add_mul_mod_self_right]
  refine ⟨G, R, F, V, R', F', V', ?_, ?_⟩
  · rw [this]; exact rep
  · rw [this]; exact rep'

theorem U2Inv.reset {t : ℕ} (h : U2Inv c x x' t s s') (y y' : ℕ → ℕ → ℝ) : U2Inv c y y' 0 s.reset s'.reset := by
  obtain ⟨G, R, F, V, R', F', V', rep, rep'⟩ := h.rep
  exact U2Inv.of_zero rep.reset rep'.reset y y'

theorem SameFrom.shift {a b : ℕ} {x x' : ℕ → ℝ} (h : SameFrom a x x') : SameFrom (a + b) (shift b x) (shift b x') := by
  intro i hi
  unfold Proofs.shift
  split
  · rfl
  · exact h _ (by omega)

/-- `Process` on any block size -/
theorem U2Inv.step {E : RealFFT} (hE : HalfSpectrum E)
    {t : ℕ} (h : U2Inv c x x' t s s') {blk blk' : Buf} (hch : blk.ch = c.nch) (hch' : blk'.ch = c.nch) (hnn : blk'.n = blk.n)
    (hin : ∀ ch < c.nch, ∀ i < blk.n, blk.data ch i = x ch (t + i))
    (hin' : ∀ ch < c.nch, ∀ i < blk.n, blk'.data ch i = x' ch (t + i)) :
    ∃ s1 out s1' out', s.processR E blk = some (s1, out) ∧ s'.processR E blk' = some (s1', out') ∧
      out.n = blk.n ∧ out.ch = c.nch ∧ out'.n = blk.n ∧ out'.ch = c.nch ∧
      (∀ ch < c.nch, ∀ i < blk.n, ∀ a, SameFrom a (x ch) (x' ch) → a ≤ t + i + 1 - (c.N + c.K * c.B) →
        out.data ch i = out'.data ch i) ∧
      U2Inv c x x' (t + blk.n) s1 s1' := by
  obtain ⟨G, R, F, V, R', F', V', rep, rep'⟩ := h.rep
  obtain ⟨T0, hT0, hc⟩ := h
  have hmod : (T0 * c.B + t) % c.B = t % c.B := by rw [mul_comm, Nat.mul_add_mod]
  obtain ⟨s1, out, s1', out', e1, e1', n1, c1, n1', c1', d1, _, core⟩ := hc.loop hE blk.n
    (blk := blk) (blk' := blk') (done := 0) hch hch' hnn (by omega)
    (by rw [hmod]; exact fun hn => fuel_enough (Nat.mod_lt _ rep.hB) hn) (by
      intro ch hc i hi
      rw [zero_add, hin ch hc i (by omega)]
      unfold shift; rw [if_neg (by omega)]; congr 1; omega) (by
      intro ch hc i hi
      rw [zero_add, hin' ch hc i (by omega)]
      unfold shift; rw [if_neg (by omega)]; congr 1; omega)
  refine ⟨s1, out, s1', out', e1, by unfold UPC.processR; rw [hnn]; exact e1', n1, c1, n1', c1', ?_, T0, hT0, by rw [← add_assoc]; exact core⟩
  intro ch hc i hi a hsame ha
  have hN4 := rep.hN4
  have hbig : (c.K + 5) * c.B ≤ T0 * c.B := Nat.mul_le_mul_right _ hT0
  have e5 : (c.K + 5) * c.B = c.K * c.B + 5 * c.B := by ring
  refine d1 ch hc i hi (by omega) (T0 * c.B + t + i + 1 - (c.N + c.K * c.B)) (fun j hj => ?_) (by omega)
  unfold Proofs.shift
  split
  · rfl
  · exact hsame _ (by omega)

theorem U2Inv.create {E : RealFFT} {B nch : ℕ} (hB : 0 < B) (hB' : B ≤ 2^24) {ir : Buf}
    (hn : 0 < ir.n) (hn' : ir.n ≤ 2^24) (hch : 0 < nch → 0 < ir.ch) (ring0 ring0' : ℕ → ℕ → ℝ) :
    ∃ s s', UPC.create E B nch ir ring0 = some s ∧ UPC.create E B nch ir ring0' = some s' ∧
      ∀ x x', U2Inv (uPar B nch ir) x x' 0 s s' := by
  obtain ⟨o1, o2, o3⟩ := order_bounds hB
  unfold UPC.create
  simp only [if_neg (show ¬ B = 0 by omega)]
  simp only [numPartitionsFor_eq hB hn' hB']
  obtain ⟨v, ev, hv⟩ := buildVec_eq (CBuf.mk0 0 0) (f := UPC.filterPartition E B (fftOrder B) nch ir) (n := segK B ir)
    (Q := fun i b => b.np = 2^(fftOrder B) ∧ b.ch = nch ∧
      ∀ ch < nch, ∃ d : ℕ → ℝ, (∀ j < 2^(fftOrder B), d j = if j < B then zext ir (ch % ir.ch) (i * B + j) else 0) ∧
        ∀ k ≤ 2^(fftOrder B) / 2, b.get ch k = bin (E.fwd (fftOrder B) d) k)
    (fun i hi => filterPartition_eq E o1 o2 hch (by
      rw [Nat.lt_div_iff_mul_lt hB] at hi; omega))
  rw [ev]
  have hpos : 0 < 2^(fftOrder B) := by positivity
  refine ⟨_, _, rfl, rfl, fun x x' => U2Inv.of_zero (G := fun i => (v i).get) ?_ ?_ x x'⟩
  · refine URep.reset (R := fun ch j => ring0 ch (slot (2^fftOrder B) 0 j))
      (F := fun _ => (CBuf.mk0 (2^fftOrder B) nch).clear.get) (V := (CBuf.mk0 (2^fftOrder B) nch).get) (col := 0) ?_
    exact
      { hB := hB, hN2 := o2, hN4 := o3, hK := Nat.div_pos (by omega) hB, partSize := rfl, order := rfl, discard := rfl
        col := rfl, Kf := rfl, filt := fun i hi => ⟨(hv i hi).1, (hv i hi).2.1, fun _ _ _ _ => rfl⟩, fdlK := rfl
        fdlh := Nat.div_pos (by omega) hB, fdl := fun i _ => ⟨rfl, rfl⟩
        conv := ⟨rfl, rfl⟩, ifft := ⟨rfl, rfl⟩, rn := rfl, rc := rfl, rh := hpos, hR := fun ch _ j _ => rfl
        hF := fun i _ ch _ k _ => rfl, hV := fun ch _ k _ => rfl }
  · refine URep.reset (R := fun ch j => ring0' ch (slot (2^fftOrder B) 0 j))
      (F := fun _ => (CBuf.mk0 (2^fftOrder B) nch).clear.get) (V := (CBuf.mk0 (2^fftOrder B) nch).get) (col := 0) ?_
    exact
      { hB := hB, hN2 := o2, hN4 := o3, hK := Nat.div_pos (by omega) hB, partSize := rfl, order := rfl, discard := rfl
        col := rfl, Kf := rfl, filt := fun i hi => ⟨(hv i hi).1, (hv i hi).2.1, fun _ _ _ _ => rfl⟩, fdlK := rfl
        fdlh := Nat.div_pos (by omega) hB, fdl := fun i _ => ⟨rfl, rfl⟩
        conv := ⟨rfl, rfl⟩, ifft := ⟨rfl, rfl⟩, rn := rfl, rc := rfl, rh := hpos, hR := fun ch _ j _ => rfl
        hF := fun i _ ch _ k _ => rfl, hV := fun ch _ k _ => rfl }

end Zones.Proofs.R
