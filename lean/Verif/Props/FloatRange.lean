import Verif.Props.Rounding
import Verif.Props.RoundingExamples
import Verif.Proofs.RFloat32

/-!
# The convolver in floating point with underflow and overflow (C93)

`AccurateIn v η Ω τ L` and `ApproxIn F ε φ Ω` (`Verif.Spec.FloatRange`) are what is assumed of the arithmetic. `u` is any number above `v`;
`φ` is a size from which on the absolute error `η` is at most `u - v` of the result; `θ` is a level whose square is at least `φ`.
-/

open Finset Zones.Spec Zones.Model Zones.Proofs Zones.Proofs.R

namespace Zones.Props

theorem schemeNormF_le {θ : ℝ} (hθ : 0 ≤ θ) (B : ℕ) (h : ℕ → ℝ) : ∀ (sch : List Layout) (off : ℕ),
    schemeNormF θ B h off sch ≤ schemeNorm B h off sch + 3 * θ * (sch.map fun l => l.np * (l.psb * B)).sum
  | [], _ => by simp [schemeNormF, schemeNorm]
  | l :: rest, off => by
    have ih := schemeNormF_le hθ B h rest (off + l.np * (l.psb * B))
    unfold schemeNormF schemeNorm
    rw [List.map_cons, List.sum_cons, Nat.cast_add]
    generalize l.psb * B = P at ih ⊢
    have h1 : ∑ i ∈ range l.np, max (√(P : ℕ) * θ) (blockNorm h (off + i * P) P) ≤
        ∑ i ∈ range l.np, blockNorm h (off + i * P) P + l.np * (√(P : ℕ) * θ) := by
      have : (l.np : ℝ) * (√(P : ℕ) * θ) = ∑ _i ∈ range l.np, √(P : ℕ) * θ := by simp
      rw [this, ← sum_add_distrib]
      refine sum_le_sum fun i _ => max_le ?_ ?_
      · have := blockNorm_nonneg h (off + i * P) P; linarith
      · have : 0 ≤ √(P : ℕ) * θ := by positivity
        linarith
    have h2 := mul_le_mul_of_nonneg_left h1 (show 0 ≤ 2 * √((2 * P : ℕ) : ℝ) by positivity)
    have h3 : √((2 * P : ℕ) : ℝ) * √(P : ℝ) = √2 * P := by
      rw [Nat.cast_mul, Real.sqrt_mul (by norm_num), mul_assoc, Real.mul_self_sqrt (Nat.cast_nonneg _)]; norm_num
    have h4 : 2 * √((2 * P : ℕ) : ℝ) * (l.np * (√(P : ℕ) * θ)) ≤ 3 * θ * ((l.np * P : ℕ) : ℝ) := by
      have e : 2 * √((2 * P : ℕ) : ℝ) * (l.np * (√(P : ℕ) * θ)) = 2 * (√((2 * P : ℕ) : ℝ) * √(P : ℝ)) * (l.np * θ) := by ring
      rw [e, h3, Nat.cast_mul]
      have h5 : 2 * √2 ≤ 3 := by
        have : √2 ≤ 3 / 2 := by rw [Real.sqrt_le_left (by norm_num)]; norm_num
        linarith
      have h6 : (0:ℝ) ≤ P * (l.np * θ) := by positivity
      nlinarith
    linarith

variable [Arith] {u v η φ θ τ ε Ω Xmax : ℝ} {L K : ℕ}

omit [Arith] in
theorem errorFactor_nonneg (hu : 0 ≤ u) (hτ : 0 ≤ τ) (hε : 0 ≤ ε) (L K s n : ℕ) : 0 ≤ errorFactor u τ ε L K s n := by
  unfold errorFactor
  have h1 : 1 ≤ (1 + ε) ^ 3 := one_le_pow₀ (by linarith)
  have h2 : 1 ≤ ((1 + u) ^ 3 * (1 + τ)) ^ (3 * L) := one_le_pow₀ (one_le_lvl hu hτ)
  have h3 : 1 ≤ (1 + u) ^ (K + 2 + s + n) := one_le_pow₀ (by linarith)
  have := one_le_mul_of_one_le_of_one_le (one_le_mul_of_one_le_of_one_le h1 h2) h3
  linarith

omit [Arith] in
theorem weight_le_headroom (hX : 0 ≤ Xmax) {B : ℕ} {ir : Buf} {sch : List Layout} {outR : List ℤ} {X : ℕ → ℝ} {o : ℕ}
    (h : ∀ c < ir.ch, channelAt outR c = o → X c ≤ Xmax) : outputWeightF θ B ir sch outR X o ≤ headroom θ B ir sch L Xmax := by
  have h0 := weights_nonneg θ B ir sch
  have h1 : outputWeightF θ B ir sch outR X o ≤ Xmax * ∑ c ∈ range ir.ch, schemeNormF θ B (extended ir c) 0 sch := by
    unfold outputWeightF
    rw [mul_sum]
    refine sum_le_sum fun c hc => ?_
    have hs := schemeNormF_nonneg θ B (extended ir c) sch 0
    split
    · rename_i hco
      exact mul_le_mul_of_nonneg_right (h c (mem_range.mp hc) hco) hs
    · positivity
  unfold headroom
  change 0 ≤ ∑ c ∈ range ir.ch, schemeNormF θ B (extended ir c) 0 sch at h0
  have h2 : (1:ℝ) ≤ 2 ^ (L + 1) := one_le_pow₀ (by norm_num)
  have h3 : Xmax * ∑ c ∈ range ir.ch, schemeNormF θ B (extended ir c) 0 sch ≤ Xmax * (1 + ∑ c ∈ range ir.ch, schemeNormF θ B (extended ir c) 0 sch) :=
    mul_le_mul_of_nonneg_left (by linarith) hX
  have h4 : 0 ≤ Xmax * (1 + ∑ c ∈ range ir.ch, schemeNormF θ B (extended ir c) 0 sch) := mul_nonneg hX (by linarith)
  exact h1.trans (h3.trans (le_mul_of_one_le_left h4 h2))

/-- **C93.** The bound of C71 survives underflow, and overflow as long as nothing in it is too loud. Small numbers may lose all of their
relative precision, and an operation may return anything when its result, or an operand, exceeds `Ω`. The error of an output sample is still bounded, from
the input level around it alone, when that level is at most `Xmax` and the largest number that it can give rise to, `headroom`, is within
range, and the sample itself is then within range: a level, and a partition, of less than `θ` counts as one of `θ`. Nothing is asked of the level at other times: however
loud the input was before, even if it overflowed, the bound holds again `ir.n + 2^L + B` samples later, and after `Reset`. -/
theorem C93_bounded_with_underflow_and_overflow (hA : AccurateIn v η Ω τ L) {F : RealFFT} (hF : ApproxIn F ε φ Ω)
    (hv : v ≤ u) (hη : η ≤ (u - v) * φ) (hφ : 0 ≤ φ) (hφθ : 2 * φ ≤ θ) (hφθ2 : φ ≤ θ * θ) {ir : Buf} {maxB N : ℕ}
    {spec : ConvolverSpec} (h : Usable ir maxB spec N) {B : ℕ} {sch : List Layout}
    (hB : internalBlockSize Convolver.po2Fuel maxB spec.internalBlockSize = some B)
    (hsch : getPartitionScheme kGarciaResults B ir.n = some sch)
    (hL : ∀ l ∈ sch, 2 * (l.psb * B) ≤ 2^L ∧ l.np ≤ K) (hX1 : 1 ≤ Xmax)
    (hΩ : (1 + errorFactor u τ ε L K sch.length ir.ch) * headroom θ B ir sch L Xmax ≤ Ω) (g : Garbage) (r0 : ℕ → ℕ → ℝ) :
    ∃ c, Convolver.createR F ir maxB spec g r0 = some c ∧
      (∀ ops : List Op, (∀ b, Op.process b ∈ ops → b.ch = N) →
        ∃ used, history (Convolver.processR F) Convolver.reset c ops = some used) ∧
      ∀ start, (start = c ∨ ∃ ops used, (∀ b, Op.process b ∈ ops → b.ch = N) ∧
          history (Convolver.processR F) Convolver.reset c ops = some used ∧ start = used.reset) →
        ∀ blocks : List Buf, (∀ b ∈ blocks, b.ch = N) →
          ∃ c' outs, feed (Convolver.processR F) start blocks = some (c', outs) ∧ SameShape blocks outs ∧
            ∀ o < N, ∀ n < totalLen blocks, ∀ X : ℕ → ℝ,
              (∀ c < ir.ch, channelAt spec.outputRouting c = o → θ ≤ X c ∧ X c ≤ Xmax ∧
                LevelAround (stream blocks (channelAt spec.inputRouting c)) (ir.n + 2^L + B) B n (X c)) →
              |stream outs o n - routedConv ir spec.inputRouting spec.outputRouting (stream blocks) o n| ≤
                errorFactor u τ ε L K sch.length ir.ch * outputWeightF θ B ir sch spec.outputRouting X o ∧
              |stream outs o n| ≤ Ω := by
  have hAcc := within_acc (u := u) (θ := θ) (Xm := Xmax) hA hF.nonneg hv hη hφ hφθ hφθ2
  obtain ⟨c, e, h1, h2⟩ := boundIn hAcc (within_fft hF) h hB hsch hL
    (fun b n0 rest hb hs hgood => by
      have hlog : Nat.log 2 B = b := by rw [hb]; exact Nat.log_pow (by norm_num) b
      unfold InRange
      rw [hlog]
      subst hb hs
      refine range_of (f := Fp.within u v η φ θ τ ε Ω Xmax L) (Xm := Xmax) hAcc.toGood hgood hL (fun X hX => hX.2) hX1
        (fun r hr => hr.trans (le_trans (le_of_eq ?_) hΩ))
      have e := factor_eq (f := Fp.within u v η φ θ τ ε Ω Xmax L) (K := K) (W := 0) (ir := ir) (rest := rest) rfl
      have e' : mixK ⟨Fp.within u v η φ θ τ ε Ω Xmax L, worst u τ ε L K, 0⟩ ir rest =
          1 + errorFactor u τ ε L K (rest.length + 1) ir.ch := by
        rw [show errorFactor u τ ε L K (rest.length + 1) ir.ch =
          mixK ⟨Fp.within u v η φ θ τ ε Ω Xmax L, worst u τ ε L K, 0⟩ ir rest - 1 from e.symm]
        ring
      rw [List.length_cons, ← e']
      rfl) g r0
  refine ⟨c, e, h1, fun start hs blocks hN => ?_⟩
  obtain ⟨c', outs, e1, sh, d⟩ := h2 start hs blocks hN
  refine ⟨c', outs, e1, sh, fun o ho n hn X hX => ?_⟩
  obtain ⟨d1, d2⟩ := d o ho n hn X fun c hc hco => ⟨⟨(hX c hc hco).1, (hX c hc hco).2.1⟩, (hX c hc hco).2.2⟩
  refine ⟨d1, d2.trans (le_trans (mul_le_mul_of_nonneg_left ?_ (by
    have := errorFactor_nonneg (hA.v_nonneg.trans hv) hA.τ_nonneg hF.nonneg L K sch.length ir.ch
    show 0 ≤ 1 + errorFactor u τ ε L K sch.length ir.ch
    linarith)) hΩ)⟩
  exact weight_le_headroom (by linarith) fun c hc hco => (hX c hc hco).2.1

/-- **C93**, in terms of the weights of C71: underflow adds a noise floor. The error is at most that of C71 at the level `max X θ`, plus
the error factor times `3 θ` times that level for every sample of the partitions. -/
theorem C93_noise_floor (hA : AccurateIn v η Ω τ L) {F : RealFFT} (hF : ApproxIn F ε φ Ω)
    (hv : v ≤ u) (hη : η ≤ (u - v) * φ) (hφ : 0 ≤ φ) (hφθ : 2 * φ ≤ θ) (hφθ2 : φ ≤ θ * θ) {ir : Buf} {maxB N : ℕ}
    {spec : ConvolverSpec} (h : Usable ir maxB spec N) {B : ℕ} {sch : List Layout}
    (hB : internalBlockSize Convolver.po2Fuel maxB spec.internalBlockSize = some B)
    (hsch : getPartitionScheme kGarciaResults B ir.n = some sch)
    (hL : ∀ l ∈ sch, 2 * (l.psb * B) ≤ 2^L ∧ l.np ≤ K) (hX1 : 1 ≤ Xmax) (hθ : θ ≤ Xmax)
    (hΩ : (1 + errorFactor u τ ε L K sch.length ir.ch) * headroom θ B ir sch L Xmax ≤ Ω) (g : Garbage) (r0 : ℕ → ℕ → ℝ) :
    ∃ c, Convolver.createR F ir maxB spec g r0 = some c ∧
      ∀ blocks : List Buf, (∀ b ∈ blocks, b.ch = N) →
        ∃ c' outs, feed (Convolver.processR F) c blocks = some (c', outs) ∧ SameShape blocks outs ∧
          ∀ o < N, ∀ n < totalLen blocks, ∀ X : ℝ, X ≤ Xmax →
            (∀ c < ir.ch, channelAt spec.outputRouting c = o →
              LevelAround (stream blocks (channelAt spec.inputRouting c)) (ir.n + 2^L + B) B n X) →
            |stream outs o n - routedConv ir spec.inputRouting spec.outputRouting (stream blocks) o n| ≤
              errorFactor u τ ε L K sch.length ir.ch * (outputWeight B ir sch spec.outputRouting (fun _ => max X θ) o +
                ir.ch * (max X θ * (3 * θ * (sch.map fun l => l.np * (l.psb * B)).sum))) := by
  obtain ⟨c, e, _, hc⟩ := C93_bounded_with_underflow_and_overflow hA hF hv hη hφ hφθ hφθ2 h hB hsch hL hX1 hΩ g r0
  refine ⟨c, e, fun blocks hN => ?_⟩
  obtain ⟨c', outs, e1, sh, d⟩ := hc c (.inl rfl) blocks hN
  refine ⟨c', outs, e1, sh, fun o ho n hn X hXm hX => ?_⟩
  have hθ0 : 0 ≤ θ := by linarith
  have hm0 : 0 ≤ max X θ := hθ0.trans (le_max_right _ _)
  have h1 := (d o ho n hn (fun _ => max X θ) fun c hc hco => ⟨le_max_right _ _, max_le hXm hθ, hm0, fun m a b =>
    ((hX c hc hco).2 m a b).trans (le_max_left _ _)⟩).1
  have hu : 0 ≤ u := hA.v_nonneg.trans hv
  have hE := errorFactor_nonneg hu hA.τ_nonneg hF.nonneg L K sch.length ir.ch
  refine h1.trans (mul_le_mul_of_nonneg_left ?_ hE)
  have e2 : (ir.ch : ℝ) * (max X θ * (3 * θ * (sch.map fun l => l.np * (l.psb * B)).sum)) =
      ∑ _c ∈ range ir.ch, max X θ * (3 * θ * (sch.map fun l => l.np * (l.psb * B)).sum) := by simp
  unfold outputWeightF outputWeight
  rw [e2, ← sum_add_distrib]
  refine sum_le_sum fun c _ => ?_
  have hs0 : 0 ≤ max X θ * (3 * θ * (sch.map fun l => l.np * (l.psb * B)).sum) := by positivity
  split
  · rw [← mul_add]
    exact mul_le_mul_of_nonneg_left (schemeNormF_le hθ0 B _ sch 0) hm0
  · linarith

end Zones.Props

/-! ## binary32 -/

namespace Zones.Props

/-- arithmetic in binary32, with or without subnormal numbers -/
@[reducible] noncomputable def float32 (flush : Bool) (infinite : ℝ → ℝ) : Arith :=
  Arith.rounded (binary32 flush infinite) (fun n e => roundC (binary32 flush infinite) (omega n ^ e))
    (fun n e => roundC (binary32 flush infinite) ((omega n)⁻¹ ^ e))

theorem sqrt2_le : √2 ≤ 1.4143 := by
  rw [Real.sqrt_le_left (by norm_num)]; norm_num

theorem float32_accurate (flush : Bool) (infinite : ℝ → ℝ) (L : ℕ) :
    @AccurateIn (float32 flush infinite) (√2 * (2 * 2⁻¹ ^ 24 + (2⁻¹ ^ 24) ^ 2)) (√2 * ((3 + 2 * 2⁻¹ ^ 24) * 2⁻¹ ^ 126)) (2 ^ 125)
      (2⁻¹ ^ 23) L := by
  have hr := binary32_rounds flush infinite
  have tw : ∀ z : ℂ, ‖z‖ = 1 → ‖roundC (binary32 flush infinite) z - z‖ ≤ 2⁻¹ ^ 23 := by
    intro z hz
    refine (roundC_err hr z (by rw [hz]; norm_num)).trans ?_
    rw [hz, mul_one]
    have h1 := mul_le_mul_of_nonneg_right sqrt2_le (show (0:ℝ) ≤ 2⁻¹ ^ 126 by positivity)
    have h2 : (2⁻¹ ^ 24 : ℝ) + 1.4143 * 2⁻¹ ^ 126 ≤ 2⁻¹ ^ 23 := by norm_num
    linarith
  refine accurateIn_rounded hr (by positivity) (by norm_num) (by positivity) (by norm_num) (fun k _ e _ => tw _ ?_) (fun k _ e _ => tw _ ?_)
  · rw [norm_pow, norm_omega, one_pow]
  · rw [norm_pow, norm_inv, norm_omega, inv_one, one_pow]

/-- **C93 in binary32**, with its real range of exponents, with subnormal numbers or with those flushed to zero, and with anything at all
in place of infinities: provided that no number can exceed `2^124`, levels and partitions below `2^-49` count as `2^-49`. -/
theorem C93_binary32 (flush : Bool) (infinite : ℝ → ℝ) {ir : Buf} {maxB N L K : ℕ} {Xmax : ℝ}
    {spec : ConvolverSpec} (h : Usable ir maxB spec N) {B : ℕ} {sch : List Layout}
    (hB : internalBlockSize Convolver.po2Fuel maxB spec.internalBlockSize = some B)
    (hsch : getPartitionScheme kGarciaResults B ir.n = some sch)
    (hL : ∀ l ∈ sch, 2 * (l.psb * B) ≤ 2^L ∧ l.np ≤ K) (hX1 : 1 ≤ Xmax)
    (hE : errorFactor (2⁻¹ ^ 22) (2⁻¹ ^ 23) (2⁻¹ ^ 23) L K sch.length ir.ch ≤ 1)
    (hH : headroom (2⁻¹ ^ 49) B ir sch L Xmax ≤ 2 ^ 124) (g : Garbage) (r0 : ℕ → ℕ → ℝ) :
    letI := float32 flush infinite
    ∃ c, Convolver.createR (roundedFFT (binary32 flush infinite)) ir maxB spec g r0 = some c ∧
      (∀ ops : List Op, (∀ b, Op.process b ∈ ops → b.ch = N) →
        ∃ used, history (Convolver.processR (roundedFFT (binary32 flush infinite))) Convolver.reset c ops = some used) ∧
      ∀ start, (start = c ∨ ∃ ops used, (∀ b, Op.process b ∈ ops → b.ch = N) ∧
          history (Convolver.processR (roundedFFT (binary32 flush infinite))) Convolver.reset c ops = some used ∧ start = used.reset) →
        ∀ blocks : List Buf, (∀ b ∈ blocks, b.ch = N) →
          ∃ c' outs, feed (Convolver.processR (roundedFFT (binary32 flush infinite))) start blocks = some (c', outs) ∧
            SameShape blocks outs ∧
            ∀ o < N, ∀ n < totalLen blocks, ∀ X : ℕ → ℝ,
              (∀ c < ir.ch, channelAt spec.outputRouting c = o → 2⁻¹ ^ 49 ≤ X c ∧ X c ≤ Xmax ∧
                LevelAround (stream blocks (channelAt spec.inputRouting c)) (ir.n + 2^L + B) B n (X c)) →
              |stream outs o n - routedConv ir spec.inputRouting spec.outputRouting (stream blocks) o n| ≤
                errorFactor (2⁻¹ ^ 22) (2⁻¹ ^ 23) (2⁻¹ ^ 23) L K sch.length ir.ch *
                  outputWeightF (2⁻¹ ^ 49) B ir sch spec.outputRouting X o ∧
              |stream outs o n| ≤ 2 ^ 125 := by
  letI := float32 flush infinite
  have hr := (binary32_rounds flush infinite).mono (Ω' := 2 ^ 125) (by norm_num)
  have hF := roundedFFT_approxIn (φ := 2⁻¹ ^ 99) hr (by
    have h1 := mul_le_mul_of_nonneg_right sqrt2_le (show (0:ℝ) ≤ 2⁻¹ ^ 126 by positivity)
    exact h1.trans (by norm_num))
  rw [show (2:ℝ) * 2⁻¹ ^ 24 = 2⁻¹ ^ 23 by norm_num] at hF
  have hv : √2 * (2 * 2⁻¹ ^ 24 + (2⁻¹ ^ 24) ^ 2) ≤ 1.4143 * (2 * 2⁻¹ ^ 24 + (2⁻¹ ^ 24) ^ 2) :=
    mul_le_mul_of_nonneg_right sqrt2_le (by positivity)
  have hη : √2 * ((3 + 2 * 2⁻¹ ^ 24) * 2⁻¹ ^ 126) ≤ 1.4143 * ((3 + 2 * 2⁻¹ ^ 24) * 2⁻¹ ^ 126) :=
    mul_le_mul_of_nonneg_right sqrt2_le (by positivity)
  refine C93_bounded_with_underflow_and_overflow (float32_accurate flush infinite L) hF (u := 2⁻¹ ^ 22) (hv.trans (by norm_num)) ?_
    (by positivity) (by norm_num) (by norm_num) h hB hsch hL hX1 ?_ g r0
  · refine hη.trans (le_trans (b := (2⁻¹ ^ 22 - 1.4143 * (2 * 2⁻¹ ^ 24 + (2⁻¹ ^ 24) ^ 2)) * 2⁻¹ ^ 99) (by norm_num) ?_)
    exact mul_le_mul_of_nonneg_right (by linarith) (by positivity)
  · have h0 : 0 ≤ headroom (2⁻¹ ^ 49) B ir sch L Xmax := by
      unfold headroom
      have := weights_nonneg (2⁻¹ ^ 49) B ir sch
      have h1 : 0 ≤ ∑ c ∈ range ir.ch, schemeNormF (2⁻¹ ^ 49) B (extended ir c) 0 sch := this
      positivity
    have h1 : (1 + errorFactor (2⁻¹ ^ 22) (2⁻¹ ^ 23) (2⁻¹ ^ 23) L K sch.length ir.ch) * headroom (2⁻¹ ^ 49) B ir sch L Xmax ≤
        2 * headroom (2⁻¹ ^ 49) B ir sch L Xmax := mul_le_mul_of_nonneg_right (by linarith) h0
    have h2 : (2:ℝ) * 2 ^ 124 = 2 ^ 125 := by norm_num
    linarith

/-! ## The example of `RoundingExamples`, in binary32: levels up to `2^64` -/

theorem example_factor32 : errorFactor (2⁻¹ ^ 22) (2⁻¹ ^ 23) (2⁻¹ ^ 23) 9 18 2 2 ≤ 1e-4 := by
  refine (errorFactor_le (E := 9e-5) (by positivity) (by positivity) (by positivity) ?_ (by norm_num)).trans (by norm_num)
  norm_num

theorem example_r1 (c : ℕ) (hc : c < 2) : r1 exampleIR.n (exampleIR.data c) ≤ 2 ^ 25 := by
  have h1 : r1 exampleIR.n (exampleIR.data c) ≤ ∑ _k ∈ range 5000, (5000:ℝ) := by
    show ∑ k ∈ range 5000, |exampleIR.data c k| ≤ _
    refine sum_le_sum fun k hk => ?_
    rw [mem_range] at hk
    show |if c = 0 then (1:ℝ) else (k : ℝ)| ≤ 5000
    split
    · norm_num
    · rw [abs_of_nonneg (Nat.cast_nonneg k)]
      exact_mod_cast hk.le
  refine h1.trans ?_
  rw [sum_const, card_range]
  norm_num

theorem example_headroom : headroom (2⁻¹ ^ 49) 64 exampleIR [⟨1, 9⟩, ⟨4, 18⟩] 9 (2 ^ 64) ≤ 2 ^ 124 := by
  have hs : √((2:ℝ) ^ 9) ≤ 23 := by rw [Real.sqrt_le_left (by norm_num)]; norm_num
  have h1 : ∀ c < 2, schemeNormF (2⁻¹ ^ 49) 64 (extended exampleIR c) 0 [⟨1, 9⟩, ⟨4, 18⟩] ≤ 2 ^ 32 := by
    intro c hc
    have a1 := schemeNormF_le (θ := 2⁻¹ ^ 49) (by positivity) 64 (extended exampleIR c) [⟨1, 9⟩, ⟨4, 18⟩] 0
    have a2 : schemeNorm 64 (extended exampleIR c) 0 [⟨1, 9⟩, ⟨4, 18⟩] ≤ 2 * √(2^9) * r1 exampleIR.n (exampleIR.data c) :=
      schemeNorm_le_r1 exampleIR c fun l hl => (example_points l hl).1
    have a3 := example_r1 c hc
    have a4 : 2 * √((2:ℝ) ^ 9) * r1 exampleIR.n (exampleIR.data c) ≤ 2 * 23 * 2 ^ 25 :=
      mul_le_mul (mul_le_mul_of_nonneg_left hs (by norm_num)) a3 (r1_nonneg _ _) (by norm_num)
    have a5 : 3 * (2⁻¹ ^ 49 : ℝ) * (((([⟨1, 9⟩, ⟨4, 18⟩] : List Layout).map fun l => l.np * (l.psb * 64)).sum : ℕ) : ℝ) ≤ 1 := by
      have : (([⟨1, 9⟩, ⟨4, 18⟩] : List Layout).map fun l => l.np * (l.psb * 64)).sum = 5184 := rfl
      rw [this]; norm_num
    have a6 : (2:ℝ) * 23 * 2 ^ 25 + 1 ≤ 2 ^ 32 := by norm_num
    linarith
  unfold headroom
  show 2 ^ (9 + 1) * (2 ^ 64 * (1 + ∑ c ∈ range 2, schemeNormF (2⁻¹ ^ 49) 64 (extended exampleIR c) 0 [⟨1, 9⟩, ⟨4, 18⟩])) ≤ _
  rw [sum_range_succ, sum_range_one]
  have b1 := h1 0 (by norm_num)
  have b2 := h1 1 (by norm_num)
  norm_num at b1 b2 ⊢
  linarith

/-- C93 for the example, with flushing to zero: whatever was played before, a level of at most `2^64` gives an error of at most `1e-4` times
the weights. -/
example : letI := float32 true (fun _ => 0)
    ∃ c, Convolver.createR (roundedFFT (binary32 true fun _ => 0)) exampleIR 64 exampleSpec junk (fun _ _ => 7) = some c ∧
      ∀ blocks : List Buf, (∀ b ∈ blocks, b.ch = 2) →
        ∃ c' outs, feed (Convolver.processR (roundedFFT (binary32 true fun _ => 0))) c blocks = some (c', outs) ∧
          ∀ o < 2, ∀ n < totalLen blocks, ∀ X : ℕ → ℝ,
            (∀ c < exampleIR.ch, channelAt exampleSpec.outputRouting c = o → 2⁻¹ ^ 49 ≤ X c ∧ X c ≤ 2 ^ 64 ∧
              LevelAround (stream blocks (channelAt exampleSpec.inputRouting c)) (exampleIR.n + 2^9 + 64) 64 n (X c)) →
            |stream outs o n - routedConv exampleIR exampleSpec.inputRouting exampleSpec.outputRouting (stream blocks) o n| ≤
              errorFactor (2⁻¹ ^ 22) (2⁻¹ ^ 23) (2⁻¹ ^ 23) 9 18 2 2 *
                outputWeightF (2⁻¹ ^ 49) 64 exampleIR [⟨1, 9⟩, ⟨4, 18⟩] exampleSpec.outputRouting X o := by
  obtain ⟨c, e, _, h⟩ := C93_binary32 true (fun _ => 0) exampleUsable example_block example_scheme example_points (Xmax := 2 ^ 64)
    (by norm_num) (example_factor32.trans (by norm_num)) example_headroom junk (fun _ _ => 7)
  refine ⟨c, e, fun blocks hN => ?_⟩
  obtain ⟨c', outs, e1, _, d⟩ := h c (.inl rfl) blocks hN
  exact ⟨c', outs, e1, fun o ho n hn X hX => (d o ho n hn X hX).1⟩

end Zones.Props
