import Verif.Proofs.RNUPC
import Verif.Proofs.Convolver

/-! # `Convolver` in rounded arithmetic: error of the output -/

open Finset Zones.Spec Zones.Model

namespace Zones.Proofs.R

theorem specs_length {B nch : ℕ} {ir : Buf} {n0 : ℕ} {rest : List Layout} :
    (nPar B nch ir n0 rest).specs.length = rest.length := by
  show (mkSpecs B ir (n0 * B) rest).length = rest.length
  generalize n0 * B = off
  induction rest generalizing off with
  | nil => rfl
  | cons l rest ih => simp [mkSpecs, ih]

variable [Arith] {f : Fp}

/-- error factor of the output -/
noncomputable def mixK (K : Ctx) (ir : Buf) (rest : List Layout) : ℝ :=
  K.κ * (1 + K.f.u) ^ (rest.length + 1 + ir.ch)

/-- size of the results on output channel `o` -/
noncomputable def mixM (θ : ℝ) (B : ℕ) (ir : Buf) (n0 : ℕ) (rest : List Layout) (outR : ℕ → ℕ) (X : ℕ → ℝ) (o : ℕ) : ℝ :=
  ∑ c ∈ range ir.ch, if outR c = o then NPar.M θ (nPar B ir.ch ir n0 rest) (X c) c else 0

theorem scatter_eq (hA : f.Acc) {s : Convolver} {out rs : Buf} {outR : ℕ → ℕ} (hn : out.n = rs.n) (k : ℕ) (hk : k ≤ rs.ch)
    (hout : ∀ c < k, Convolver.route s.spec.outputRouting c = some (outR c) ∧ outR c < out.ch) :
    ∃ out', (List.range k).foldlM (Convolver.scatterOneR s rs) out = some out' ∧ out'.ch = out.ch ∧ out'.n = out.n ∧
      ∀ o < out.ch, ∀ i < out.n, ∀ (κ : ℝ) (m : ℕ → ℝ) (v : ℕ → ℝ), 1 ≤ κ →
        (∀ c < k, outR c = o → Near κ (m c) (rs.data c i) (v c)) → (∀ c < k, outR c = o → f.φ ≤ m c) →
        f.fits (κ * (1 + f.u) ^ k * ∑ c ∈ range k, if outR c = o then m c else 0) → out.data o i = 0 →
        Near (κ * (1 + f.u) ^ k) (∑ c ∈ range k, if outR c = o then m c else 0) (out'.data o i)
          (∑ c ∈ range k, if outR c = o then v c else 0) := by
  have hu := hA.u_nonneg
  induction k with
  | zero => exact ⟨out, rfl, rfl, rfl, fun c _ i _ κ m v hκ _ _ _ h0 => by rw [h0]; simpa using Near.zero.mono hκ le_rfl⟩
  | succ k ih =>
    obtain ⟨o1, e1, c1, n1, d1⟩ := ih (by omega) (fun c hc => hout c (by omega))
    obtain ⟨h1, h2⟩ := hout k (by omega)
    rw [List.range_succ, List.foldlM_append, e1]
    simp only [Option.bind_eq_bind, Option.bind_some, List.foldlM_cons, List.foldlM_nil]
    unfold Convolver.scatterOneR
    have e2 : o1.single (outR k) = some ⟨1, o1.n, fun _ i => o1.data (outR k) i⟩ := by
      unfold Buf.single; rw [if_pos (by omega)]
    have e3 : rs.single k = some ⟨1, rs.n, fun _ i => rs.data k i⟩ := by
      unfold Buf.single; rw [if_pos (by omega)]
    simp only [h1, e2, e3, Option.bind_eq_bind, Option.bind_some, Buf.addR, if_true]
    refine ⟨_, rfl, c1, n1, ?_⟩
    intro o ho i hi κ m v hκ hv hm hfit h0
    have hs0 : 0 ≤ ∑ c ∈ range k, if outR c = o then m c else 0 := by
      refine sum_nonneg fun c hc => ?_
      rw [mem_range] at hc
      split
      · exact (hv c (by omega) ‹_›).nonneg
      · exact le_rfl
    have hk0 : 0 ≤ if outR k = o then m k else 0 := by
      split
      · exact (hv k (by omega) ‹_›).nonneg
      · exact le_rfl
    have ih' := d1 o ho i hi κ m v hκ (fun c hc => hv c (by omega)) (fun c hc => hm c (by omega)) (hA.fits_mono _ _ (by
      rw [sum_range_succ]
      exact mac_le (mul_le_mul_of_nonneg_left (pow_le_pow_right₀ (by linarith) (by omega)) (by linarith)) (by linarith) (by positivity) hs0)
      hfit) h0
    rw [sum_range_succ, sum_range_succ]
    have hpw : 1 ≤ (1 + f.u) ^ k := one_le_pow₀ (by linarith)
    simp only [Buf.putChannel]
    by_cases hok : o = outR k
    · subst hok
      rw [if_pos rfl, if_pos rfl, if_pos ⟨rfl, by omega⟩, if_pos ⟨by omega, by omega⟩]
      have := ih'.addF hA (by have := hm k (by omega) rfl; linarith) (by
        rw [sum_range_succ, if_pos rfl] at hfit
        rw [mul_assoc κ, ← pow_succ]; exact hfit) ((hv k (by omega) rfl).mono (κ' := κ * (1 + f.u) ^ k) (by nlinarith) le_rfl)
      rw [mul_assoc, ← pow_succ] at this
      exact this
    · rw [if_neg (fun h : outR k = o => hok h.symm), if_neg (fun h : outR k = o => hok h.symm), if_neg (fun h => hok h.1), add_zero, add_zero]
      exact ih'.mono (mul_le_mul_of_nonneg_left (pow_le_pow_right₀ (by linarith) (by omega)) (by linarith)) le_rfl

/-- state after `t` samples of `x` (caller's channels) since the start or the last reset -/
structure CInv (K : Ctx) (ir : Buf) (inR outR : ℕ → ℕ) (n0 : ℕ) (rest : List Layout) (x : ℕ → ℕ → ℝ) (t : ℕ)
    (s : Convolver) : Prop where
  hB : 0 < s.blockSize
  numConv : s.numConv = ir.ch
  rch : s.routing.ch = ir.ch
  rn : s.routing.n = s.blockSize
  inr : ∀ c < ir.ch, Convolver.route s.spec.inputRouting c = some (inR c)
  outr : ∀ c < ir.ch, Convolver.route s.spec.outputRouting c = some (outR c)
  rng : ∀ o, ∀ X : ℕ → ℝ, (∀ c < ir.ch, outR c = o → K.f.lev (X c)) → K.f.fits (mixK K ir rest * mixM K.f.θ s.blockSize ir n0 rest outR X o)
  nupc : NInv K (nPar s.blockSize ir.ch ir n0 rest) (fun c => x (inR c)) t s.nupc ∧
    (∀ (x : ℕ → ℕ → ℝ) ch τ, linConv (nPar s.blockSize ir.ch ir n0 rest).seg0.n
        ((nPar s.blockSize ir.ch ir n0 rest).seg0.data (ch % (nPar s.blockSize ir.ch ir n0 rest).seg0.ch)) (x ch) τ +
        (nPar s.blockSize ir.ch ir n0 rest).subOut x ch τ =
      linConv ir.n (ir.data (ch % ir.ch)) (x ch) τ)

variable {K : Ctx} {ir : Buf} {inR outR : ℕ → ℕ} {n0 : ℕ} {rest : List Layout} {x : ℕ → ℕ → ℝ} {t : ℕ} {s : Convolver}

theorem CInv.clearRouting (h : CInv K ir inR outR n0 rest x t s) : CInv K ir inR outR n0 rest x t { s with routing := s.routing.clear } :=
  ⟨h.hB, h.numConv, h.rch, h.rn, h.inr, h.outr, h.rng, h.nupc⟩

theorem CInv.reset {F : RealFFT} (hF : K.Ok F) (h : CInv K ir inR outR n0 rest x t s) (x' : ℕ → ℕ → ℝ) : CInv K ir inR outR n0 rest x' 0 s.reset := by
  obtain ⟨h1, h2⟩ := h.nupc
  exact ⟨h.hB, h.numConv, h.rch, h.rn, h.inr, h.outr, h.rng, h1.reset hF h.hB _, h2⟩

theorem CInv.body {F : RealFFT} (hF : K.Ok F) (h : CInv K ir inR outR n0 rest x t s) {blk : Buf} {done k : ℕ} (hk : 0 < k)
    (hkB : k ≤ s.blockSize) (hd : done + k ≤ blk.n) (hio : ∀ c < ir.ch, inR c < blk.ch ∧ outR c < blk.ch)
    (hin : ∀ c < ir.ch, ∀ i < k, blk.data (inR c) (done + i) = x (inR c) (t + i)) :
    ∃ s' blk', s.bodyR F blk done k = some (s', blk') ∧ blk'.n = blk.n ∧ blk'.ch = blk.ch ∧
      s'.blockSize = s.blockSize ∧
      (∀ o < blk.ch, ∀ i < blk.n, done ≤ i → i < done + k → ∀ X : ℕ → ℝ,
        (∀ c < ir.ch, outR c = o → Recent K.f (x (inR c)) s.blockSize K.W (t + (i - done)) (X c)) → Near (mixK K ir rest)
        (mixM K.f.θ s.blockSize ir n0 rest outR X o) (blk'.data o i) (mixOut ir inR outR x o (t + (i - done)))) ∧
      (∀ o < blk.ch, ∀ i < blk.n, ¬ (done ≤ i ∧ i < done + k) → blk'.data o i = blk.data o i) ∧
      CInv K ir inR outR n0 rest x (t + k) s' := by
  obtain ⟨hN, hE⟩ := h.nupc
  have e1 : blk.sub done k = some ⟨blk.ch, k, fun c i => blk.data c (done + i)⟩ := by
    unfold Buf.sub; rw [if_pos ⟨by omega, hd⟩]
  have e2 : s.routing.sub 0 k = some ⟨ir.ch, k, fun c i => s.routing.data c (0 + i)⟩ := by
    unfold Buf.sub; rw [h.rn, h.rch, if_pos ⟨h.hB, by omega⟩]
  unfold Convolver.bodyR
  simp only [e1, e2, Option.bind_eq_bind, Option.bind_some, h.numConv]
  set out : Buf := ⟨blk.ch, k, fun c i => blk.data c (done + i)⟩ with hout
  set rs : Buf := ⟨ir.ch, k, fun c i => s.routing.data c (0 + i)⟩ with hrs
  obtain ⟨r1, e3, c3, n3, d3⟩ := gather_eq (s := s) (out := out) (rs := rs) (inR := inR) rfl ir.ch le_rfl
    (fun c hc => ⟨h.inr c hc, (hio c hc).1⟩)
  rw [e3]
  simp only [Option.bind_some]
  obtain ⟨s4, b4, e4, n4, c4, d4, h4⟩ := hN.step hF h.hB (blk := r1) (by rw [c3]; rfl) (by
    intro c hc i hi
    have hc' : c < ir.ch := hc
    rw [n3] at hi
    rw [d3 c hc' i hi, if_pos hc']
    exact hin c hc' i hi)
  rw [e4]
  simp only [Option.bind_some]
  have n4' : b4.n = k := by rw [n4, n3]
  have c4' : b4.ch = ir.ch := c4
  obtain ⟨o5, e5, c5, n5, d5⟩ := scatter_eq hF.acc (s := s) (out := out.clear) (rs := b4) (outR := outR) (by rw [n4']; rfl) ir.ch
    (by rw [c4']) (fun c hc => ⟨h.outr c hc, (hio c hc).2⟩)
  rw [e5]
  simp only [Option.bind_some]
  have c5' : o5.ch = blk.ch := c5
  have n5' : o5.n = k := n5
  refine ⟨_, _, rfl, rfl, rfl, rfl, ?_, ?_, ?_⟩
  · intro o ho i hi hd1 hd2 X hX
    simp only [Buf.put, n5']
    rw [if_pos ⟨ho, hd1, hd2⟩]
    have hz : out.clear.data o (i - done) = 0 := by
      simp only [Buf.clear]; rw [if_pos ⟨ho, by show _ < k; omega⟩]
    have hu := hF.acc.u_nonneg
    have hκ1 := hF.κ1
    have hpw : 1 ≤ (1 + K.f.u) ^ ((nPar s.blockSize ir.ch ir n0 rest).specs.length + 1) := one_le_pow₀ (by linarith)
    have := d5 o ho (i - done) (by show _ < k; omega) (K.κ * (1 + K.f.u) ^ ((nPar s.blockSize ir.ch ir n0 rest).specs.length + 1))
      (fun c => NPar.M K.f.θ (nPar s.blockSize ir.ch ir n0 rest) (X c) c)
      (fun c => linConv ir.n (ir.data c) (x (inR c)) (t + (i - done))) (by nlinarith) (by
        intro c hc hco
        have h1 := d4 c hc (i - done) (by rw [n3]; show _ < k; omega) (X c) (hX c hc hco)
        have h2 := hE (fun c => x (inR c)) c (t + (i - done))
        rw [Nat.mod_eq_of_lt (show c < ir.ch from hc)] at h2
        rw [h2] at h1
        exact h1) (by
        intro c hc hco
        have hl := (hX c hc hco).lev
        exact (hN.floor hF h.hB hl c).trans (NPar.M_ge _ _ (hF.acc.lev_nonneg hl) c)) (by
        have := h.rng o X (fun c hc hco => (hX c hc hco).lev)
        unfold mixK mixM at this
        rw [mul_assoc K.κ, ← pow_add, specs_length]
        exact this) hz
    unfold mixK mixM mixOut
    rw [mul_assoc, ← pow_add] at this
    rw [specs_length] at this
    exact this
  · intro o ho i hi hcond
    simp only [Buf.put, n5']
    rw [if_neg (by tauto)]
  · refine ⟨h.hB, rfl, h.rch, h.rn, h.inr, h.outr, h.rng, ?_, hE⟩
    show NInv _ _ _ _ s4
    rw [n3] at h4
    exact h4

theorem CInv.loop {F : RealFFT} (hF : K.Ok F) (fuel : ℕ) :
    ∀ {t : ℕ} {s : Convolver} {blk : Buf} {done : ℕ}, CInv K ir inR outR n0 rest x t s → done ≤ blk.n →
    (∀ c < ir.ch, inR c < blk.ch ∧ outR c < blk.ch) → blk.n - done ≤ fuel * s.blockSize →
    (∀ c < ir.ch, ∀ i < blk.n - done, blk.data (inR c) (done + i) = x (inR c) (t + i)) →
    ∃ s' blk', Convolver.loopR F fuel s blk done = some (s', blk') ∧ blk'.n = blk.n ∧ blk'.ch = blk.ch ∧
      s'.blockSize = s.blockSize ∧
      (∀ o < blk.ch, ∀ i < blk.n, done ≤ i → ∀ X : ℕ → ℝ,
        (∀ c < ir.ch, outR c = o → Recent K.f (x (inR c)) s.blockSize K.W (t + (i - done)) (X c)) → Near (mixK K ir rest)
        (mixM K.f.θ s.blockSize ir n0 rest outR X o) (blk'.data o i) (mixOut ir inR outR x o (t + (i - done)))) ∧
      (∀ o < blk.ch, ∀ i < blk.n, i < done → blk'.data o i = blk.data o i) ∧
      CInv K ir inR outR n0 rest x (t + (blk.n - done)) s' := by
  induction fuel with
  | zero =>
    intro t s blk done h hdn hio hfuel hin
    have hdn' : ¬ done < blk.n := by omega
    refine ⟨s, blk, by unfold Convolver.loopR; rw [if_neg hdn'], rfl, rfl, rfl, fun _ _ _ _ _ => by omega, fun _ _ _ _ _ => rfl,
      by rw [show blk.n - done = 0 by omega]; exact h⟩
  | succ fuel ih =>
    intro t s blk done h hdn hio hfuel hin
    unfold Convolver.loopR
    by_cases hlt : done < blk.n
    · rw [if_pos hlt]
      have hB := h.hB
      simp only [Option.bind_eq_bind]
      set k := min (blk.n - done) s.blockSize with hkdef
      have hk : 0 < k := by omega
      obtain ⟨s1, blk1, e1, n1, c1, b1, d1, d1', h1⟩ := h.body hF (blk := blk) (done := done) (k := k) hk (by omega) (by omega)
        hio (fun c hc i hi => hin c hc i (by omega))
      rw [e1]
      simp only [Option.bind_some]
      obtain ⟨s2, blk2, e2, n2, c2, b2, d2, d2', h2⟩ := ih h1 (blk := blk1) (done := done + k) (by omega)
        (by intro c hc; rw [c1]; exact hio c hc)
        (by rw [n1, b1]; rw [Nat.add_mul, one_mul] at hfuel; omega)
        (by
          intro c hc i hi
          rw [n1] at hi
          rw [d1' _ (hio c hc).1 _ (by omega) (by omega), show done + k + i = done + (k + i) by omega,
            hin c hc _ (by omega)]
          congr 1; omega)
      refine ⟨s2, blk2, e2, by rw [n2, n1], by rw [c2, c1], by rw [b2, b1], ?_, ?_, ?_⟩
      · intro o ho i hi hdi
        by_cases h3 : done + k ≤ i
        · have := d2 o (by rw [c1]; exact ho) i (by rw [n1]; exact hi) h3
          rw [b1, show t + k + (i - (done + k)) = t + (i - done) by omega] at this
          exact this
        · rw [d2' o (by rw [c1]; exact ho) i (by rw [n1]; exact hi) (by omega)]
          exact d1 o ho i hi hdi (by omega)
      · intro o ho i hi hdi
        rw [d2' o (by rw [c1]; exact ho) i (by rw [n1]; exact hi) (by omega), d1' o ho i hi (by omega)]
      · rw [n1, show t + k + (blk.n - (done + k)) = t + (blk.n - done) by omega] at h2
        exact h2
    · rw [if_neg hlt]
      refine ⟨s, blk, rfl, rfl, rfl, rfl, fun _ _ _ _ _ => by omega, fun _ _ _ _ _ => rfl,
        by rw [show blk.n - done = 0 by omega]; exact h⟩

theorem CInv.step {F : RealFFT} (hF : K.Ok F) (h : CInv K ir inR outR n0 rest x t s) {blk : Buf}
    (hio : ∀ c < ir.ch, inR c < blk.ch ∧ outR c < blk.ch)
    (hin : ∀ c < ir.ch, ∀ i < blk.n, blk.data (inR c) i = x (inR c) (t + i)) :
    ∃ s' blk', s.processR F blk = some (s', blk') ∧ blk'.n = blk.n ∧ blk'.ch = blk.ch ∧
      s'.blockSize = s.blockSize ∧
      (∀ o < blk.ch, ∀ i < blk.n, ∀ X : ℕ → ℝ,
        (∀ c < ir.ch, outR c = o → Recent K.f (x (inR c)) s.blockSize K.W (t + i) (X c)) → Near (mixK K ir rest)
        (mixM K.f.θ s.blockSize ir n0 rest outR X o) (blk'.data o i) (mixOut ir inR outR x o (t + i))) ∧
      CInv K ir inR outR n0 rest x (t + blk.n) s' := by
  obtain ⟨s', blk', e, n, cc, hb, d, _, h'⟩ := h.clearRouting.loop hF blk.n (blk := blk) (done := 0) (by omega) hio
    (by
      have := h.hB
      show blk.n - 0 ≤ blk.n * s.blockSize
      exact Nat.le_mul_of_pos_right _ this)
    (by intro c hc i hi; rw [zero_add]; exact hin c hc i hi)
  exact ⟨s', blk', e, n, cc, hb, fun o ho i hi => d o ho i hi (by omega), h'⟩

theorem CInv.create {F : RealFFT} (hA : f.Acc) (hF : f.Fft F) {maxB : ℕ} {spec : ConvolverSpec}
    (hr : requestedBlockSize maxB spec.internalBlockSize ≤ 2^30)
    (hn : 0 < ir.n) (hn' : ir.n ≤ 2^24)
    (hin : ∀ c < ir.ch, Convolver.route spec.inputRouting c = some (inR c))
    (hout : ∀ c < ir.ch, Convolver.route spec.outputRouting c = some (outR c)) (g : Garbage) (r0 : ℕ → ℕ → ℝ) :
    ∃ s n0 rest, Convolver.createR F ir maxB spec g r0 = some s ∧
      internalBlockSize Convolver.po2Fuel maxB spec.internalBlockSize = some s.blockSize ∧
      getPartitionScheme kGarciaResults s.blockSize ir.n = some (⟨1, n0⟩ :: rest) ∧
      GoodRest s.blockSize ir.n (n0 * s.blockSize) rest ∧ (∃ b, s.blockSize = 2^b ∧ b ≤ 11) ∧ 0 < n0 ∧
      (∀ (κ : ℝ) (W : ℕ), 1 ≤ κ → upK f.u f.ε (segK s.blockSize (nPar s.blockSize ir.ch ir n0 rest).seg0) ≤ κ →
        (uPar s.blockSize ir.ch (nPar s.blockSize ir.ch ir n0 rest).seg0).N +
          segK s.blockSize (nPar s.blockSize ir.ch ir n0 rest).seg0 * s.blockSize ≤ W →
        (∀ a ∈ (nPar s.blockSize ir.ch ir n0 rest).specs, Nat.log 2 s.blockSize + a.p + 1 ≤ f.L ∧
          tdK f.u f.τ (Nat.log 2 s.blockSize + a.p + 1) (segK (2^(Nat.log 2 s.blockSize+a.p)) a.seg) ≤ κ ∧
          a.e + (segK (2^(Nat.log 2 s.blockSize+a.p)) a.seg + 3) * 2^(Nat.log 2 s.blockSize+a.p) ≤ W ∧
          ∀ c < ir.ch, TFits f (Nat.log 2 s.blockSize+a.p+1) (2^(Nat.log 2 s.blockSize+a.p)) (segK (2^(Nat.log 2 s.blockSize+a.p)) a.seg) (zext a.seg (c % a.seg.ch))) →
        NFits ⟨f, κ, W⟩ (nPar s.blockSize ir.ch ir n0 rest) →
        (∀ o, ∀ X : ℕ → ℝ, (∀ c < ir.ch, outR c = o → f.lev (X c)) → f.fits (mixK ⟨f, κ, W⟩ ir rest * mixM f.θ s.blockSize ir n0 rest outR X o)) →
        ∀ x, CInv ⟨f, κ, W⟩ ir inR outR n0 rest x 0 s) := by
  obtain ⟨b, hb1, hb2, e1, _, _⟩ := internalBlockSize_eq (fuel := Convolver.po2Fuel) (by unfold Convolver.po2Fuel; omega) hr
  have hB : 0 < 2^b := by positivity
  have hB' : 2^b ≤ 2^24 := Nat.pow_le_pow_right (by norm_num) (by omega)
  obtain ⟨s, n0, rest, e2, esch, hgood, _, hn0, h1, h2⟩ := NInv.create hA hF (nch := ir.ch) hB hB' hn hn' id g
  unfold Convolver.createR
  rw [e1]
  simp only [Option.bind_eq_bind, Option.bind_some, e2]
  refine ⟨_, n0, rest, rfl, rfl, esch, hgood, ⟨b, rfl, hb2⟩, hn0, fun κ W hκ k1 kw k2 k3 k4 x => ⟨hB, rfl, rfl, rfl, hin, hout, k4, h1 κ W hκ k1 kw k2 k3 _, h2⟩⟩

end Zones.Proofs.R
