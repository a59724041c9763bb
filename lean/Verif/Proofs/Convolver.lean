import Verif.Model.Convolver
import Verif.Proofs.NUPC

/-!
# `Convolver`: internal block size, routing, exact convolution
-/

namespace Zones.Proofs
open Zones.Model Zones.Spec Finset

/-! ## powerOfTwoEqualOrBelow -/

theorem shl1_small {j : ℕ} (hj : j < 30) : shl1 (2^j) = 2^(j+1) := by
  unfold shl1
  rw [← pow_succ']
  have h1 : (2:ℤ)^(j+1) ≤ 2^30 := pow_le_pow_right₀ (by norm_num) (by omega)
  have h2 : (0:ℤ) < 2^(j+1) := by positivity
  generalize (2:ℤ)^(j+1) = q at h1 h2
  rw [Int.bmod_eq_of_le]
  · norm_num at *; omega
  · norm_num at *; omega

theorem po2Loop_run (n : ℤ) (m : ℕ) (hm : m ≤ 29) (h1 : 2^m ≤ n) (h2 : n < 2^(m+1)) :
    ∀ d j fuel, j + d = m + 1 → d < fuel → po2Loop n fuel (2^j) = some (2^m) := by
  intro d
  induction d with
  | zero =>
    intro j fuel hj hf
    obtain ⟨f, rfl⟩ : ∃ f, fuel = f + 1 := ⟨fuel - 1, by omega⟩
    have : j = m + 1 := by omega
    subst this
    unfold po2Loop
    rw [if_neg (by omega), pow_succ]
    simp
  | succ d ih =>
    intro j fuel hj hf
    obtain ⟨f, rfl⟩ : ∃ f, fuel = f + 1 := ⟨fuel - 1, by omega⟩
    unfold po2Loop
    have : (2:ℤ)^j ≤ 2^m := pow_le_pow_right₀ (by norm_num) (by omega)
    rw [if_pos (by omega), shl1_small (by omega)]
    exact ih (j+1) f (by omega) (by omega)

theorem po2Loop_zero (n : ℤ) (hn : 0 ≤ n) (fuel : ℕ) : po2Loop n fuel 0 = none := by
  induction fuel with
  | zero => rfl
  | succ f ih =>
    unfold po2Loop
    rw [if_pos hn, show shl1 0 = 0 by decide]; exact ih

/-- above `2^30` the bit is shifted out and the loop never ends -/
theorem po2Loop_forever (n : ℤ) (h1 : 2^30 ≤ n) (fuel : ℕ) : ∀ j ≤ 30, po2Loop n fuel (2^j) = none := by
  induction fuel with
  | zero => intro j _; rfl
  | succ f ih =>
    intro j hj
    unfold po2Loop
    have : (2:ℤ)^j ≤ 2^30 := pow_le_pow_right₀ (by norm_num) hj
    rw [if_pos (by omega)]
    rcases Nat.eq_or_lt_of_le hj with rfl | hlt
    · rw [show shl1 (2^30) = -2147483648 by decide]
      cases f with
      | zero => rfl
      | succ f =>
        unfold po2Loop
        rw [if_pos (by norm_num at h1; omega), show shl1 (-2147483648) = 0 by decide]
        exact po2Loop_zero n (by norm_num at h1; omega) f
    · rw [shl1_small (by omega)]
      exact ih (j+1) (by omega)

theorem and_pred_pow {n : ℕ} (hn : 0 < n) (h : n &&& (n - 1) = 0) : ∃ m, n = 2^m := by
  refine ⟨Nat.log 2 n, ?_⟩
  by_contra hne
  have h1 : 2^Nat.log 2 n ≤ n := Nat.pow_log_le_self 2 (by omega)
  have h2 : n < 2^(Nat.log 2 n + 1) := Nat.lt_pow_succ_log_self (by norm_num) n
  set m := Nat.log 2 n
  have hlt : 2^m ≤ n - 1 := by omega
  have t1 : n.testBit m = true := by
    rw [Nat.testBit_eq_decide_div_mod_eq]
    have : n / 2^m = 1 := by
      apply Nat.div_eq_of_lt_le <;> [omega; (rw [pow_succ] at h2; omega)]
    simp [this]
  have t2 : (n-1).testBit m = true := by
    rw [Nat.testBit_eq_decide_div_mod_eq]
    have : (n-1) / 2^m = 1 := by
      apply Nat.div_eq_of_lt_le <;> [omega; (rw [pow_succ] at h2; omega)]
    simp [this]
  have t3 : (n &&& (n-1)).testBit m = true := by rw [Nat.testBit_and, t1, t2]; rfl
  rw [h] at t3
  simp at t3

theorem pow_and_pred (m : ℕ) : 2^m &&& (2^m - 1) = 0 := by
  apply Nat.eq_of_testBit_eq
  intro i
  rw [Nat.testBit_and, Nat.testBit_two_pow, Nat.testBit_two_pow_sub_one]
  simp
  omega

/-- result for every 32 bit argument for which it terminates -/
theorem powerOfTwo_eq {n : ℤ} (hn : 0 < n) (h30 : n ≤ 2^30) {fuel : ℕ} (hf : 32 ≤ fuel) :
    powerOfTwoEqualOrBelow fuel n = some (2^Nat.log 2 n.toNat) := by
  unfold powerOfTwoEqualOrBelow
  rw [if_neg (by omega)]
  split
  · next h =>
    obtain ⟨m, hm⟩ := and_pred_pow (by omega) h
    rw [hm, Nat.log_pow (by norm_num)]
    congr 1
    have : n = ((2^m : ℕ) : ℤ) := by omega
    rw [this]; push_cast; rfl
  · next h =>
    have hnat : n = (n.toNat : ℤ) := by omega
    have h1 : 2^Nat.log 2 n.toNat ≤ n.toNat := Nat.pow_log_le_self 2 (by omega)
    have h2 : n.toNat < 2^(Nat.log 2 n.toNat + 1) := Nat.lt_pow_succ_log_self (by norm_num) _
    set m := Nat.log 2 n.toNat
    have hne : n.toNat ≠ 2^m := by
      intro he; apply h; rw [he]; exact pow_and_pred m
    have hm : m ≤ 29 := by
      by_contra hc
      have : 2^30 ≤ 2^m := Nat.pow_le_pow_right (by norm_num) (by omega)
      omega
    have := po2Loop_run n m hm (by rw [hnat]; exact_mod_cast h1) (by rw [hnat]; exact_mod_cast h2) (m+1) 0 fuel
      (by omega) (by omega)
    simpa using this

theorem powerOfTwo_forever {n : ℤ} (h30 : 2^30 < n) (h31 : n < 2^31) (fuel : ℕ) :
    powerOfTwoEqualOrBelow fuel n = none := by
  unfold powerOfTwoEqualOrBelow
  rw [if_neg (by omega), if_neg]
  · simpa using po2Loop_forever n h30.le fuel 0 (by omega)
  · intro h
    obtain ⟨m, hm⟩ := and_pred_pow (by omega) h
    have h1 : 2^30 < 2^m := by omega
    have h2 : 2^m < 2^31 := by omega
    rw [Nat.pow_lt_pow_iff_right (by norm_num)] at h1 h2
    omega

/-- the clamped value, in natural numbers -/
theorem internalBlockSize_eq {fuel maxB : ℕ} {io : Option ℤ} (hf : 32 ≤ fuel)
    (hr : requestedBlockSize maxB io ≤ 2^30) :
    ∃ b, 5 ≤ b ∧ b ≤ 11 ∧ internalBlockSize fuel maxB io = some (2^b) ∧
      (32 ≤ requestedBlockSize maxB io → ((2^b : ℕ) : ℤ) ≤ requestedBlockSize maxB io ∧
        (requestedBlockSize maxB io < 2 * ((2^b : ℕ) : ℤ) ∨ b = 11)) ∧
      (requestedBlockSize maxB io < 32 → b = 5) := by
  unfold internalBlockSize
  set r := requestedBlockSize maxB io
  by_cases h0 : 0 < r
  · rw [powerOfTwo_eq h0 hr hf]
    have hnat : r = (r.toNat : ℤ) := by omega
    have h1 : 2^Nat.log 2 r.toNat ≤ r.toNat := Nat.pow_log_le_self 2 (by omega)
    have h2 : r.toNat < 2^(Nat.log 2 r.toNat + 1) := Nat.lt_pow_succ_log_self (by norm_num) _
    set m := Nat.log 2 r.toNat
    rw [pow_succ] at h2
    by_cases hm5 : m < 5
    · have : 2^m ≤ 2^4 := Nat.pow_le_pow_right (by norm_num) (by omega)
      refine ⟨5, by omega, by omega, ?_, by intro h; omega, fun _ => rfl⟩
      simp only [Option.map_some, Option.some.injEq]
      have : ((2:ℤ)^m) ≤ 16 := by exact_mod_cast this
      norm_num; omega
    · by_cases hm11 : 11 < m
      · have h4 : 2^12 ≤ 2^m := Nat.pow_le_pow_right (by norm_num) (by omega)
        refine ⟨11, by omega, by omega, ?_, ?_, by intro h; omega⟩
        · simp only [Option.map_some, Option.some.injEq]
          have : (4096:ℤ) ≤ (2:ℤ)^m := by exact_mod_cast h4
          norm_num; omega
        · intro _
          refine ⟨?_, Or.inr rfl⟩
          norm_num; omega
      · refine ⟨m, by omega, by omega, ?_, ?_, ?_⟩
        · simp only [Option.map_some, Option.some.injEq]
          have h3 : 2^5 ≤ 2^m := Nat.pow_le_pow_right (by norm_num) (by omega)
          have h4 : 2^m ≤ 2^11 := Nat.pow_le_pow_right (by norm_num) (by omega)
          have h5 : ((2:ℤ)^m) = ((2^m : ℕ) : ℤ) := by push_cast; rfl
          rw [h5]
          generalize 2^m = q at *
          norm_num at h3 h4
          omega
        · intro _
          refine ⟨by omega, Or.inl (by omega)⟩
        · intro h
          have h3 : 2^5 ≤ 2^m := Nat.pow_le_pow_right (by norm_num) (by omega)
          omega
  · refine ⟨5, by omega, by omega, ?_, by intro h; omega, fun _ => rfl⟩
    unfold powerOfTwoEqualOrBelow
    rw [if_pos (by omega)]
    simp only [Option.map_some, Option.some.injEq]
    norm_num; omega

/-! ## Routing -/

theorem gather_eq {s : Convolver} {out rs : Buf} {inR : ℕ → ℕ} (hn : out.n = rs.n) (k : ℕ) (hk : k ≤ rs.ch)
    (hin : ∀ c < k, Convolver.route s.spec.inputRouting c = some (inR c) ∧ inR c < out.ch) :
    ∃ rs', (List.range k).foldlM (Convolver.gatherOne s out) rs = some rs' ∧ rs'.ch = rs.ch ∧ rs'.n = rs.n ∧
      ∀ c < rs.ch, ∀ i < rs.n, rs'.data c i = if c < k then out.data (inR c) i else rs.data c i := by
  induction k with
  | zero => exact ⟨rs, rfl, rfl, rfl, fun c _ i _ => by simp⟩
  | succ k ih =>
    obtain ⟨r1, e1, c1, n1, d1⟩ := ih (by omega) (fun c hc => hin c (by omega))
    obtain ⟨h1, h2⟩ := hin k (by omega)
    rw [List.range_succ, List.foldlM_append, e1]
    simp only [Option.bind_eq_bind, Option.bind_some, List.foldlM_cons, List.foldlM_nil]
    unfold Convolver.gatherOne
    have e2 : out.single (inR k) = some ⟨1, out.n, fun _ i => out.data (inR k) i⟩ := by
      unfold Buf.single; rw [if_pos h2]
    have e3 : r1.single k = some ⟨1, r1.n, fun _ i => r1.data k i⟩ := by
      unfold Buf.single; rw [if_pos (by omega)]
    simp only [h1, e2, e3, Option.bind_eq_bind, Option.bind_some]
    refine ⟨_, rfl, c1, n1, ?_⟩
    intro c hc i hi
    simp only [Buf.putChannel, Buf.copyFrom]
    by_cases hck : c = k
    · subst hck
      rw [if_pos ⟨rfl, by omega⟩, if_pos ⟨by omega, by omega⟩, if_pos (by omega)]
    · rw [if_neg (by tauto), d1 c hc i hi]
      by_cases hc2 : c < k
      · rw [if_pos hc2, if_pos (by omega)]
      · rw [if_neg hc2, if_neg (by omega)]

theorem scatter_eq {s : Convolver} {out rs : Buf} {outR : ℕ → ℕ} (hn : out.n = rs.n) (k : ℕ) (hk : k ≤ rs.ch)
    (hout : ∀ c < k, Convolver.route s.spec.outputRouting c = some (outR c) ∧ outR c < out.ch) :
    ∃ out', (List.range k).foldlM (Convolver.scatterOne s rs) out = some out' ∧ out'.ch = out.ch ∧ out'.n = out.n ∧
      ∀ o < out.ch, ∀ i < out.n, out'.data o i =
        out.data o i + ∑ c ∈ range k, if outR c = o then rs.data c i else 0 := by
  induction k with
  | zero => exact ⟨out, rfl, rfl, rfl, fun c _ i _ => by simp⟩
  | succ k ih =>
    obtain ⟨o1, e1, c1, n1, d1⟩ := ih (by omega) (fun c hc => hout c (by omega))
    obtain ⟨h1, h2⟩ := hout k (by omega)
    rw [List.range_succ, List.foldlM_append, e1]
    simp only [Option.bind_eq_bind, Option.bind_some, List.foldlM_cons, List.foldlM_nil]
    unfold Convolver.scatterOne
    have e2 : o1.single (outR k) = some ⟨1, o1.n, fun _ i => o1.data (outR k) i⟩ := by
      unfold Buf.single; rw [if_pos (by omega)]
    have e3 : rs.single k = some ⟨1, rs.n, fun _ i => rs.data k i⟩ := by
      unfold Buf.single; rw [if_pos (by omega)]
    simp only [h1, e2, e3, Option.bind_eq_bind, Option.bind_some, Buf.add, if_true]
    refine ⟨_, rfl, c1, n1, ?_⟩
    intro o ho i hi
    rw [sum_range_succ, ← add_assoc, ← d1 o ho i hi]
    simp only [Buf.putChannel]
    by_cases hok : o = outR k
    · subst hok
      rw [if_pos ⟨rfl, by omega⟩, if_pos ⟨by omega, by omega⟩, if_pos rfl]
    · rw [if_neg (by tauto), if_neg (by tauto), add_zero]

/-! ## The whole convolver -/

/-- what the caller hears on channel `o` -/
noncomputable def mixOut (ir : Buf) (inR outR : ℕ → ℕ) (x : ℕ → ℕ → ℝ) (o n : ℕ) : ℝ :=
  ∑ c ∈ range ir.ch, if outR c = o then linConv ir.n (ir.data c) (x (inR c)) n else 0

/-- state after `t` samples of `x` (caller's channels) since the start or the last reset -/
structure CInv (ir : Buf) (inR outR : ℕ → ℕ) (x : ℕ → ℕ → ℝ) (t : ℕ) (s : Convolver) : Prop where
  hB : 0 < s.blockSize
  numConv : s.numConv = ir.ch
  rch : s.routing.ch = ir.ch
  rn : s.routing.n = s.blockSize
  inr : ∀ c < ir.ch, Convolver.route s.spec.inputRouting c = some (inR c)
  outr : ∀ c < ir.ch, Convolver.route s.spec.outputRouting c = some (outR c)
  nupc : ∃ n0 rest, NInv (nPar s.blockSize ir.ch ir n0 rest) (fun c => x (inR c)) t s.nupc ∧
    (∀ (x : ℕ → ℕ → ℝ) ch τ, linConv (nPar s.blockSize ir.ch ir n0 rest).seg0.n
        ((nPar s.blockSize ir.ch ir n0 rest).seg0.data (ch % (nPar s.blockSize ir.ch ir n0 rest).seg0.ch)) (x ch) τ +
        (nPar s.blockSize ir.ch ir n0 rest).subOut x ch τ =
      linConv ir.n (ir.data (ch % ir.ch)) (x ch) τ)

variable {ir : Buf} {inR outR : ℕ → ℕ} {x : ℕ → ℕ → ℝ} {t : ℕ} {s : Convolver}

theorem CInv.clearRouting (h : CInv ir inR outR x t s) : CInv ir inR outR x t { s with routing := s.routing.clear } :=
  ⟨h.hB, h.numConv, h.rch, h.rn, h.inr, h.outr, h.nupc⟩

theorem CInv.reset (h : CInv ir inR outR x t s) (x' : ℕ → ℕ → ℝ) : CInv ir inR outR x' 0 s.reset := by
  obtain ⟨n0, rest, h1, h2⟩ := h.nupc
  exact ⟨h.hB, h.numConv, h.rch, h.rn, h.inr, h.outr, n0, rest, h1.reset h.hB _, h2⟩

theorem CInv.body {F : RealFFT} (hF : Lawful F) (h : CInv ir inR outR x t s) {blk : Buf} {done k : ℕ} (hk : 0 < k)
    (hkB : k ≤ s.blockSize) (hd : done + k ≤ blk.n) (hio : ∀ c < ir.ch, inR c < blk.ch ∧ outR c < blk.ch)
    (hin : ∀ c < ir.ch, ∀ i < k, blk.data (inR c) (done + i) = x (inR c) (t + i)) :
    ∃ s' blk', s.body F blk done k = some (s', blk') ∧ blk'.n = blk.n ∧ blk'.ch = blk.ch ∧
      s'.blockSize = s.blockSize ∧
      (∀ o < blk.ch, ∀ i < blk.n, blk'.data o i =
        if done ≤ i ∧ i < done + k then mixOut ir inR outR x o (t + (i - done)) else blk.data o i) ∧
      CInv ir inR outR x (t + k) s' := by
  obtain ⟨n0, rest, hN, hE⟩ := h.nupc
  have e1 : blk.sub done k = some ⟨blk.ch, k, fun c i => blk.data c (done + i)⟩ := by
    unfold Buf.sub; rw [if_pos ⟨by omega, hd⟩]
  have e2 : s.routing.sub 0 k = some ⟨ir.ch, k, fun c i => s.routing.data c (0 + i)⟩ := by
    unfold Buf.sub; rw [h.rn, h.rch, if_pos ⟨h.hB, by omega⟩]
  unfold Convolver.body
  simp only [e1, e2, Option.bind_eq_bind, Option.bind_some, h.numConv]
  set out : Buf := ⟨blk.ch, k, fun c i => blk.data c (done + i)⟩ with hout
  set rs : Buf := ⟨ir.ch, k, fun c i => s.routing.data c (0 + i)⟩ with hrs
  obtain ⟨r1, e3, c3, n3, d3⟩ := gather_eq (s := s) (out := out) (rs := rs) (inR := inR) rfl ir.ch le_rfl
    (fun c hc => ⟨h.inr c hc, (hio c hc).1⟩)
  rw [e3]
  simp only [Option.bind_some]
  obtain ⟨s4, b4, e4, n4, c4, d4, h4⟩ := hN.step hF h.hB (blk := r1) (by rw [c3]; rfl) (by
    intro c hc i hi
    have hc' : c < ir.ch := hc
    rw [n3] at hi
    rw [d3 c hc' i hi, if_pos hc']
    exact hin c hc' i hi)
  rw [e4]
  simp only [Option.bind_some]
  have n4' : b4.n = k := by rw [n4, n3]
  have c4' : b4.ch = ir.ch := c4
  obtain ⟨o5, e5, c5, n5, d5⟩ := scatter_eq (s := s) (out := out.clear) (rs := b4) (outR := outR) (by rw [n4']; rfl) ir.ch
    (by rw [c4']) (fun c hc => ⟨h.outr c hc, (hio c hc).2⟩)
  rw [e5]
  simp only [Option.bind_some]
  have c5' : o5.ch = blk.ch := c5
  have n5' : o5.n = k := n5
  refine ⟨_, _, rfl, rfl, rfl, rfl, ?_, ?_⟩
  · intro o ho i hi
    simp only [Buf.put, n5']
    by_cases hcond : done ≤ i ∧ i < done + k
    · rw [if_pos ⟨ho, hcond⟩, if_pos hcond, d5 o ho _ (by show _ < k; omega)]
      have hz : out.clear.data o (i - done) = 0 := by
        simp only [Buf.clear]; rw [if_pos ⟨ho, by show _ < k; omega⟩]
      rw [hz, zero_add]
      unfold mixOut
      refine sum_congr rfl fun c hc => ?_
      rw [mem_range] at hc
      by_cases hoc : outR c = o
      · rw [if_pos hoc, if_pos hoc, d4 c hc _ (by rw [n3]; show _ < k; omega)]
        have := hE (fun c => x (inR c)) c (t + (i - done))
        rw [Nat.mod_eq_of_lt (show c < ir.ch from hc)] at this
        exact this
      · rw [if_neg hoc, if_neg hoc]
    · rw [if_neg (by tauto), if_neg hcond]
  · refine ⟨h.hB, rfl, h.rch, h.rn, h.inr, h.outr, n0, rest, ?_, hE⟩
    show NInv _ _ _ s4
    rw [n3] at h4
    exact h4

theorem CInv.loop {F : RealFFT} (hF : Lawful F) (fuel : ℕ) :
    ∀ {t : ℕ} {s : Convolver} {blk : Buf} {done : ℕ}, CInv ir inR outR x t s → done ≤ blk.n →
    (∀ c < ir.ch, inR c < blk.ch ∧ outR c < blk.ch) → blk.n - done ≤ fuel * s.blockSize →
    (∀ c < ir.ch, ∀ i < blk.n - done, blk.data (inR c) (done + i) = x (inR c) (t + i)) →
    ∃ s' blk', Convolver.loop F fuel s blk done = some (s', blk') ∧ blk'.n = blk.n ∧ blk'.ch = blk.ch ∧
      s'.blockSize = s.blockSize ∧
      (∀ o < blk.ch, ∀ i < blk.n, blk'.data o i =
        if done ≤ i then mixOut ir inR outR x o (t + (i - done)) else blk.data o i) ∧
      CInv ir inR outR x (t + (blk.n - done)) s' := by
  induction fuel with
  | zero =>
    intro t s blk done h hdn hio hfuel hin
    have hdn' : ¬ done < blk.n := by omega
    refine ⟨s, blk, by unfold Convolver.loop; rw [if_neg hdn'], rfl, rfl, rfl, ?_,
      by rw [show blk.n - done = 0 by omega]; exact h⟩
    intro o _ i hi
    rw [if_neg (by omega)]
  | succ fuel ih =>
    intro t s blk done h hdn hio hfuel hin
    unfold Convolver.loop
    by_cases hlt : done < blk.n
    · rw [if_pos hlt]
      have hB := h.hB
      simp only [Option.bind_eq_bind]
      set k := min (blk.n - done) s.blockSize with hkdef
      have hk : 0 < k := by omega
      obtain ⟨s1, blk1, e1, n1, c1, b1, d1, h1⟩ := h.body hF (blk := blk) (done := done) (k := k) hk (by omega) (by omega)
        hio (fun c hc i hi => hin c hc i (by omega))
      rw [e1]
      simp only [Option.bind_some]
      obtain ⟨s2, blk2, e2, n2, c2, b2, d2, h2⟩ := ih h1 (blk := blk1) (done := done + k) (by omega)
        (by intro c hc; rw [c1]; exact hio c hc)
        (by rw [n1, b1]; rw [Nat.add_mul, one_mul] at hfuel; omega)
        (by
          intro c hc i hi
          rw [n1] at hi
          rw [d1 _ (hio c hc).1 _ (by omega), if_neg (by omega), show done + k + i = done + (k + i) by omega,
            hin c hc _ (by omega)]
          congr 1; omega)
      refine ⟨s2, blk2, e2, by rw [n2, n1], by rw [c2, c1], by rw [b2, b1], ?_, ?_⟩
      · intro o ho i hi
        rw [d2 o (by rw [c1]; exact ho) i (by rw [n1]; exact hi)]
        by_cases h3 : done + k ≤ i
        · rw [if_pos h3, if_pos (by omega), show t + k + (i - (done + k)) = t + (i - done) by omega]
        · rw [if_neg h3, d1 o ho i hi]
          by_cases h4 : done ≤ i
          · rw [if_pos ⟨h4, by omega⟩, if_pos h4]
          · rw [if_neg (by tauto), if_neg h4]
      · rw [n1, show t + k + (blk.n - (done + k)) = t + (blk.n - done) by omega] at h2
        exact h2
    · rw [if_neg hlt]
      refine ⟨s, blk, rfl, rfl, rfl, rfl, ?_, by rw [show blk.n - done = 0 by omega]; exact h⟩
      intro o _ i hi
      rw [if_neg (by omega)]

theorem CInv.step {F : RealFFT} (hF : Lawful F) (h : CInv ir inR outR x t s) {blk : Buf}
    (hio : ∀ c < ir.ch, inR c < blk.ch ∧ outR c < blk.ch)
    (hin : ∀ c < ir.ch, ∀ i < blk.n, blk.data (inR c) i = x (inR c) (t + i)) :
    ∃ s' blk', s.process F blk = some (s', blk') ∧ blk'.n = blk.n ∧ blk'.ch = blk.ch ∧
      (∀ o < blk.ch, ∀ i < blk.n, blk'.data o i = mixOut ir inR outR x o (t + i)) ∧
      CInv ir inR outR x (t + blk.n) s' := by
  obtain ⟨s', blk', e, n, cc, _, d, h'⟩ := h.clearRouting.loop hF blk.n (blk := blk) (done := 0) (by omega) hio
    (by
      have := h.hB
      show blk.n - 0 ≤ blk.n * s.blockSize
      exact Nat.le_mul_of_pos_right _ this)
    (by intro c hc i hi; rw [zero_add]; exact hin c hc i hi)
  refine ⟨s', blk', e, n, cc, ?_, h'⟩
  intro o ho i hi
  rw [d o ho i hi, if_pos (by omega), Nat.sub_zero]

theorem CInv.create {F : RealFFT} (hF : Lawful F) {maxB : ℕ} {spec : ConvolverSpec}
    (hr : requestedBlockSize maxB spec.internalBlockSize ≤ 2^30)
    (hn : 0 < ir.n) (hn' : ir.n ≤ 2^24)
    (hin : ∀ c < ir.ch, Convolver.route spec.inputRouting c = some (inR c))
    (hout : ∀ c < ir.ch, Convolver.route spec.outputRouting c = some (outR c)) (g : Garbage) (r0 : ℕ → ℕ → ℝ) :
    ∃ s, Convolver.create F ir maxB spec g r0 = some s ∧ ∀ x, CInv ir inR outR x 0 s := by
  obtain ⟨b, hb1, hb2, e1, _, _⟩ := internalBlockSize_eq (fuel := Convolver.po2Fuel) (by unfold Convolver.po2Fuel; omega) hr
  have hB : 0 < 2^b := by positivity
  have hB' : 2^b ≤ 2^24 := Nat.pow_le_pow_right (by norm_num) (by omega)
  obtain ⟨s, n0, rest, e2, h1, h2⟩ := NInv.create hF (nch := ir.ch) hB hB' hn hn' id g
  unfold Convolver.create
  rw [e1]
  simp only [Option.bind_eq_bind, Option.bind_some, e2]
  refine ⟨_, rfl, fun x => ⟨hB, rfl, rfl, rfl, hin, hout, n0, rest, h1 _, h2⟩⟩

end Zones.Proofs
