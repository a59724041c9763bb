import Verif.Props.RoundingChannels
import Verif.Props.RoundingParts

/-!
# The theorems on floating point at work: binary32 arithmetic, a stereo impulse response of 5000 samples

`single` is arithmetic on pairs of numbers with 24 significant bits, rounded after every operation; `singleFFT` rounds the results
of exact transforms. Blocks of 64 samples; 9 partitions of 64 samples followed by 18 partitions of 256 samples.
-/

open Finset Zones.Spec Zones.Model Zones.Proofs Zones.Proofs.R

namespace Zones.Props

/-- The size of the error factor: its first order term, up to a square. -/
theorem errorFactor_le {u τ ε E : ℝ} {L K S C : ℕ} (hu : 0 ≤ u) (hτ : 0 ≤ τ) (hε : 0 ≤ ε)
    (hE : 3 * ε + 3 * L * (3 * u + τ) + (K + 2 + S + C) * u ≤ E) (h1 : E ≤ 1) : errorFactor u τ ε L K S C ≤ E + E ^ 2 := by
  have hpow : ∀ (x : ℝ) (n : ℕ), 0 ≤ x → (1 + x) ^ n ≤ Real.exp (n * x) := by
    intro x n hx
    rw [Real.exp_nat_mul]
    refine pow_le_pow_left₀ (by linarith) ?_ n
    have := Real.add_one_le_exp x
    linarith
  have h2 : (1 + u) ^ 3 * (1 + τ) ≤ Real.exp (3 * u + τ) := by
    rw [Real.exp_add]
    have a := hpow u 3 hu
    have b := Real.add_one_le_exp τ
    push_cast at a
    exact mul_le_mul a (by linarith) (by linarith) (Real.exp_pos _).le
  have h3 : ((1 + u) ^ 3 * (1 + τ)) ^ (3 * L) ≤ Real.exp (3 * L * (3 * u + τ)) := by
    have := pow_le_pow_left₀ (by positivity) h2 (3 * L)
    rw [← Real.exp_nat_mul] at this
    push_cast at this
    exact this
  have h4 := hpow ε 3 hε
  have h5 := hpow u (K + 2 + S + C) hu
  push_cast at h4 h5
  have h6 : (1 + ε) ^ 3 * ((1 + u) ^ 3 * (1 + τ)) ^ (3 * L) * (1 + u) ^ (K + 2 + S + C) ≤ Real.exp E := by
    refine le_trans (mul_le_mul (mul_le_mul h4 h3 (by positivity) (Real.exp_pos _).le) h5 (by positivity) (by positivity)) ?_
    rw [← Real.exp_add, ← Real.exp_add]
    exact Real.exp_le_exp.mpr hE
  have h0 : 0 ≤ E := le_trans (by positivity) hE
  have h7 := Real.abs_exp_sub_one_sub_id_le (x := E) (by rw [abs_of_nonneg h0]; exact h1)
  have h8 := (abs_le.mp h7).2
  unfold errorFactor
  linarith

/-- unit roundoff of the complex operations of `single` -/
noncomputable def u32 : ℝ := √2 * (2 * 2⁻¹ ^ 24 + (2⁻¹ ^ 24) ^ 2)

theorem u32_nonneg : 0 ≤ u32 := by unfold u32; positivity

theorem u32_le : u32 ≤ 1.69e-7 := by
  have h : √2 ≤ 1.4143 := by
    rw [Real.sqrt_le_left (by norm_num)]; norm_num
  unfold u32
  have h2 : (0:ℝ) ≤ 2 * 2⁻¹ ^ 24 + (2⁻¹ ^ 24) ^ 2 := by positivity
  have := mul_le_mul_of_nonneg_right h h2
  refine this.trans ?_
  norm_num

deriving instance DecidableEq for Layout

/-- the internal block size of the example -/
theorem example_block : internalBlockSize Convolver.po2Fuel 64 exampleSpec.internalBlockSize = some 64 := by decide +kernel

/-- the partitions of the example -/
theorem example_scheme : getPartitionScheme kGarciaResults 64 exampleIR.n = some [⟨1, 9⟩, ⟨4, 18⟩] := by
  show getPartitionScheme kGarciaResults 64 5000 = _
  decide +kernel

theorem example_points : ∀ l ∈ ([⟨1, 9⟩, ⟨4, 18⟩] : List Layout), 2 * (l.psb * 64) ≤ 2 ^ 9 ∧ l.np ≤ 18 := by
  intro l hl
  simp only [List.mem_cons, List.not_mem_nil, or_false] at hl
  rcases hl with rfl | rfl <;> norm_num

/-- the relative error of the example: 2e-5 -/
theorem example_factor : errorFactor u32 (2⁻¹ ^ 24) (2⁻¹ ^ 24) 9 18 2 2 ≤ 2e-5 := by
  have h := u32_le
  refine (errorFactor_le (E := 1.99e-5) u32_nonneg (by positivity) (by positivity) ?_ (by norm_num)).trans (by norm_num)
  norm_num at h ⊢
  linarith

noncomputable local instance : Arith := single

/-- the uninitialised memory of the example -/
def junk : Garbage := ⟨fun _ _ => 7, fun _ _ _ _ => 7, fun _ _ => 7, fun _ _ => 7, fun _ _ => 7⟩

/-- C71 and C72 for the example, with a bound in terms of the levels of the signal around each sample. -/
example : ∃ c, Convolver.createR singleFFT exampleIR 64 exampleSpec junk (fun _ _ => 7) = some c ∧
    ∀ blocks : List Buf, (∀ b ∈ blocks, b.ch = 2) →
      ∃ c' outs, feed (Convolver.processR singleFFT) c blocks = some (c', outs) ∧ SameShape blocks outs ∧
        ∀ o < 2, ∀ n < totalLen blocks, ∀ X : ℕ → ℝ,
          (∀ c < exampleIR.ch, channelAt exampleSpec.outputRouting c = o →
            LevelAround (stream blocks (channelAt exampleSpec.inputRouting c)) (exampleIR.n + 2^9 + 64) 64 n (X c)) →
          |stream outs o n - routedConv exampleIR exampleSpec.inputRouting exampleSpec.outputRouting (stream blocks) o n| ≤
            errorFactor u32 (2⁻¹ ^ 24) (2⁻¹ ^ 24) 9 18 2 2 *
              outputWeight 64 exampleIR [⟨1, 9⟩, ⟨4, 18⟩] exampleSpec.outputRouting X o :=
  C71_rounding_error_bounded (single_accurate 9) singleFFT_approx exampleUsable example_block example_scheme example_points _ _

/-- C71 in terms of magnitudes, with the number 2e-5 in place of the error factor. -/
example : ∃ c, Convolver.createR singleFFT exampleIR 64 exampleSpec junk (fun _ _ => 7) = some c ∧
    ∀ (X : ℝ) (blocks : List Buf), 0 ≤ X → (∀ b ∈ blocks, b.ch = 2) → (∀ ch < 2, ∀ i, |stream blocks ch i| ≤ X) →
      ∃ c' outs, feed (Convolver.processR singleFFT) c blocks = some (c', outs) ∧ SameShape blocks outs ∧
        ∀ o < 2, ∀ n < totalLen blocks,
          |stream outs o n - routedConv exampleIR exampleSpec.inputRouting exampleSpec.outputRouting (stream blocks) o n| ≤
            2e-5 * (2 * √(2^9) * X * ∑ c ∈ range exampleIR.ch,
              if channelAt exampleSpec.outputRouting c = o then ∑ i ∈ range exampleIR.n, |exampleIR.data c i| else 0) := by
  obtain ⟨c, hc, h⟩ := C71_rounding_error_absolute (single_accurate 9) singleFFT_approx exampleUsable example_block example_scheme
    example_points junk (fun _ _ => 7)
  refine ⟨c, hc, fun X blocks hX h1 h2 => ?_⟩
  obtain ⟨c', outs, h3, h4, h5⟩ := h X blocks hX h1 h2
  refine ⟨c', outs, h3, h4, fun o ho n hn => (h5 o ho n hn).trans (mul_le_mul_of_nonneg_right example_factor ?_)⟩
  refine mul_nonneg (by positivity) (sum_nonneg fun c _ => ?_)
  split
  · exact sum_nonneg fun _ _ => abs_nonneg _
  · exact le_rfl

/-- C72 for the example. -/
example : ∃ c, Convolver.createR singleFFT exampleIR 64 exampleSpec junk (fun _ _ => 7) = some c ∧
    ∀ ops : List Op, (∀ b, Op.process b ∈ ops → b.ch = 2) →
      ∃ used, history (Convolver.processR singleFFT) Convolver.reset c ops = some used ∧
        ∀ blocks : List Buf, (∀ b ∈ blocks, b.ch = 2) →
          ∃ c' outs, feed (Convolver.processR singleFFT) used.reset blocks = some (c', outs) ∧ SameShape blocks outs ∧
            ∀ o < 2, ∀ n < totalLen blocks, ∀ X : ℕ → ℝ,
              (∀ c < exampleIR.ch, channelAt exampleSpec.outputRouting c = o →
                LevelAround (stream blocks (channelAt exampleSpec.inputRouting c)) (exampleIR.n + 2^9 + 64) 64 n (X c)) →
              |stream outs o n - routedConv exampleIR exampleSpec.inputRouting exampleSpec.outputRouting (stream blocks) o n| ≤
                errorFactor u32 (2⁻¹ ^ 24) (2⁻¹ ^ 24) 9 18 2 2 *
                  outputWeight 64 exampleIR [⟨1, 9⟩, ⟨4, 18⟩] exampleSpec.outputRouting X o :=
  C72_reset_forgets_rounding_errors (single_accurate 9) singleFFT_approx exampleUsable example_block example_scheme example_points _ _

/-- C73 for the example: a click at sample 10, then silence; from sample `10 + 5576` on the output is exactly zero. -/
example : ∃ c, Convolver.createR singleFFT exampleIR 64 exampleSpec junk (fun _ _ => 7) = some c ∧
    ∃ c' outs, feed (Convolver.processR singleFFT) c
        [⟨2, 100, fun _ i => if i = 10 then 1 / 3 else 0⟩, ⟨2, 10000, fun _ _ => 0⟩] = some (c', outs) ∧
      ∀ o < 2, ∀ n < 10100, 10 + 5576 ≤ n → stream outs o n = 0 := by
  obtain ⟨c, hc, h⟩ := C73_silence_is_exact (single_accurate 9) singleFFT_approx exampleUsable example_block example_scheme
    example_points junk (fun _ _ => 7)
  obtain ⟨c', outs, h1, _, h2⟩ := h c (.inl rfl) [⟨2, 100, fun _ i => if i = 10 then 1 / 3 else 0⟩, ⟨2, 10000, fun _ _ => 0⟩]
    (by intro b hb; simp only [List.mem_cons, List.not_mem_nil, or_false] at hb; rcases hb with rfl | rfl <;> rfl)
  refine ⟨c, hc, c', outs, h1, fun o ho n hn hl => h2 o ho n hn fun k _ _ m hm _ => ?_⟩
  have hm' : n < m + (5000 + 2 ^ 9 + 64) := hm
  norm_num at hm'
  simp only [stream]
  split
  · rw [if_neg (by omega)]
  · split <;> rfl

/-- the transforms work in place -/
theorem singleFFT_inPlace : InPlace singleFFT where
  fwd k d d' h i hi := by
    simp only [singleFFT, naturalFFT]
    have : ∀ j, dft (2 ^ k) (fun j => (d j : ℂ)) j = dft (2 ^ k) (fun j => (d' j : ℂ)) j := by
      intro j
      unfold dft
      refine sum_congr rfl fun m hm => ?_
      rw [mem_range] at hm
      beta_reduce
      rw [h m (by omega)]
    rw [this]
  inv k d d' h i hi := by
    simp only [singleFFT, naturalFFT]
    congr 1
    unfold realInv
    congr 2
    have hk : (0:ℕ) < 2 ^ k := by positivity
    have hb : ∀ j ≤ 2 ^ k / 2, bin d j = bin d' j := by
      intro j hj
      unfold bin
      generalize 2 ^ k = M at *
      by_cases hM : M = 1
      · subst hM
        have : j = 0 := by omega
        subst this
        rw [h 0 (by omega), h 1 (by omega)]
      · rw [h (2 * j) (by omega), h (2 * j + 1) (by omega)]
    refine sum_congr rfl fun m hm => ?_
    rw [mem_range] at hm
    split
    · next hle => rw [hb m hle]
    · rw [hb (2 ^ k - m) (by omega)]

/-- C68 for the example: output 0 of the stereo convolver is what a mono convolver, with the second channel of the impulse
response alone, makes of the second input alone, in spite of all the rounding. -/
example :
    ∃ c c', Convolver.createR singleFFT exampleIR 64 exampleSpec junk (fun _ _ => 7) = some c ∧
      Convolver.createR singleFFT ⟨1, 5000, fun _ i => i⟩ 64 { inputRouting := [0], outputRouting := [0] } junk (fun _ _ => 9) = some c' ∧
      ∀ (x y : ℕ → ℝ), ∃ e e' outs outs',
        feed (Convolver.processR singleFFT) c [⟨2, 77, fun ch i => if ch = 0 then x i else y i⟩, ⟨2, 4000, fun ch i => if ch = 0 then x (77 + i) else y (77 + i)⟩] = some (e, outs) ∧
        feed (Convolver.processR singleFFT) c' [⟨1, 77, fun _ i => y i⟩, ⟨1, 4000, fun _ i => y (77 + i)⟩] = some (e', outs') ∧
        ∀ n < 4077, stream outs 0 n = stream outs' 0 n := by
  obtain ⟨c, c', hc, hc', h⟩ := C68_equal_channels_give_equal_outputs (single_accurate 9) singleFFT_approx singleFFT_inPlace exampleUsable
    (ir' := ⟨1, 5000, fun _ i => i⟩) (maxB' := 64) (N' := 1) (spec' := { inputRouting := [0], outputRouting := [0] })
    { nonempty := by norm_num
      size := by norm_num
      inputs := by
        intro c hc
        have : c = 0 := by have : c < 1 := hc; omega
        subst this; simp
      outputs := by
        intro c hc
        have : c = 0 := by have : c < 1 := hc; omega
        subst this; simp
      blockSize := by left; norm_num }
    example_block (by decide +kernel) rfl example_scheme (fun l hl => (example_points l hl).1) (o := 0) (o' := 0) (by norm_num) (by norm_num)
    (ps := [(1, 0)]) (by decide +kernel) (by decide +kernel)
    (by
      intro p hp i _
      simp only [List.mem_cons, List.not_mem_nil, or_false] at hp
      subst hp
      simp [exampleIR]) junk junk (fun _ _ => 7) (fun _ _ => 9)
  refine ⟨c, c', hc, hc', fun x y => ?_⟩
  obtain ⟨used, used', e1, e1', h1⟩ := h [] [] .nil (by simp) (by simp)
  cases e1; cases e1'
  refine h1 _ _ ?_ (by simp) (by simp)
  refine .cons ⟨rfl, ?_⟩ (.cons ⟨rfl, ?_⟩ .nil) <;>
  · intro p hp i _
    simp only [List.map_cons, List.map_nil, List.mem_cons, List.not_mem_nil, or_false] at hp
    subst hp
    simp [channelAt, exampleSpec]

/-- C69 with numbers: 1024 points in binary32, a buffer of 2048. -/
example (d : ℕ → ℂ) : ∃ r, forwardFFTUnorderedR 2048 0 1024 d = some r ∧
    l2 1024 (fun k => r k - dft 1024 d (bitrev 10 k)) ≤ 6e-6 * (√1024 * l2 1024 d) ∧ ∀ k ≥ 1024, r k = d k := by
  obtain ⟨r, h1, h2, h3⟩ := C69_forward_error (single_accurate 10) 10 2048 le_rfl (by norm_num) d
  refine ⟨r, h1, ?_, h3⟩
  have e : √((2:ℝ) ^ 10) = √1024 := by norm_num
  rw [e] at h2
  refine h2.trans (mul_le_mul_of_nonneg_right ?_ (mul_nonneg (Real.sqrt_nonneg _) (l2_nonneg _ _)))
  have hu := u32_nonneg
  have hle : (1 + u32) ^ 3 * (1 + 2⁻¹ ^ 24) ≤ 1 + 5.7e-7 := by
    have h5 := u32_le
    have h6 : (1 + u32) ^ 3 ≤ (1 + 1.69e-7) ^ 3 := pow_le_pow_left₀ (by linarith) (by linarith) 3
    have h7 : (1 + u32) ^ 3 * (1 + 2⁻¹ ^ 24) ≤ (1 + 1.69e-7) ^ 3 * (1 + 2⁻¹ ^ 24) := mul_le_mul_of_nonneg_right h6 (by positivity)
    refine h7.trans ?_
    norm_num
  have h8 : ((1 + u32) ^ 3 * (1 + 2⁻¹ ^ 24)) ^ 10 ≤ (1 + 5.7e-7) ^ 10 := pow_le_pow_left₀ (by positivity) hle 10
  have h9 : ((1:ℝ) + 5.7e-7) ^ 10 ≤ 1 + 6e-6 := by norm_num
  have h10 := h8.trans h9
  unfold u32 at h10
  linarith

/-- The other parts of C69 for the same size: the spectrum of an impulse is 1 everywhere. -/
example : ∃ r, inverseFFTUnorderedR 2048 0 1024 (fun _ => 1) = some r ∧
    ∀ k < 1024, ‖r k - (if k = 0 then 1 else 0)‖ ≤ (((1 + u32) ^ 3 * (1 + 2⁻¹ ^ 24)) ^ 10 - 1) * (l1 1024 (fun _ => 1) / 1024) := by
  obtain ⟨r, h1, _, h3, _⟩ := C69_inverse_error (single_accurate 10) 10 2048 le_rfl (by norm_num) (fun k => if k = 0 then 1 else 0) (fun _ => 1)
    (by
      intro k _
      unfold dft
      rw [sum_eq_single 0] <;> simp +contextual)
  refine ⟨r, h1, fun k hk => ?_⟩
  have := h3 k hk
  rw [show ((2:ℝ) ^ 10) = 1024 by norm_num] at this
  exact this

/-- The round trip of C69. -/
example (d : ℕ → ℂ) : ∃ r b, forwardFFTUnorderedR 2048 0 1024 d = some r ∧ inverseFFTUnorderedR 2048 0 1024 r = some b ∧
    l2 1024 (fun k => b k - d k) ≤ (((1 + u32) ^ 3 * (1 + 2⁻¹ ^ 24)) ^ 20 - 1) * l2 1024 d ∧ ∀ k ≥ 1024, b k = d k :=
  C69_round_trip_error (single_accurate 10) 10 2048 le_rfl (by norm_num) d

/-- C70 for partitions of 100 samples (transforms of 256 points). -/
example : ∃ c, UPC.create singleFFT 100 2 exampleIR (fun _ _ => 7) = some c ∧
    ∀ blocks : List Buf, (∀ b ∈ blocks, b.ch = 2) →
      ∃ c' outs, feed (UPC.processR singleFFT) c blocks = some (c', outs) ∧ SameShape blocks outs ∧
        ∀ ch < 2, ∀ n < totalLen blocks, ∀ X, LevelAround (stream blocks ch) 5500 100 n X →
          |stream outs ch n - linConv 5000 (exampleIR.data (ch % 2)) (stream blocks ch) n| ≤
            ((1 + 2⁻¹ ^ 24) ^ 3 * (1 + u32) ^ 51 - 1) *
              (X * (2 * √(4 * (100:ℕ)) * ∑ i ∈ range 50, blockNorm (extended exampleIR (ch % 2)) (i * 100) 100)) := by
  obtain ⟨c, h1, h2⟩ := C70_uniform_error (single_accurate 0) singleFFT_approx (B := 100) (nch := 2) (by norm_num) (by norm_num)
    exampleUsable.nonempty exampleUsable.size (by norm_num [exampleIR]) (fun _ _ => 7)
  exact ⟨c, h1, h2 c (.inl rfl)⟩

/-- C70 for partitions of 4 blocks of 64 samples. -/
example : ∃ m, Multi.createR (2^6) 2 (2^2) exampleIR (fun _ _ _ => 7) = some m ∧
    ∀ blocks : List Buf, (∀ blk ∈ blocks, blk.ch = 2 ∧ blk.n = 2^6) →
      ∃ m' outs, feed Multi.processR m blocks = some (m', outs) ∧ SameShape blocks outs ∧
        ∀ ch < 2, ∀ n < totalLen blocks, ∀ X, LevelAround (stream blocks ch) (5000 + 4 * 2^(6+2)) 1 n X →
          |stream outs ch n - delayedConv (2 * 2^(6+2)) 5000 (exampleIR.data (ch % 2)) (stream blocks ch) n| ≤
            (((1 + u32) ^ 3 * (1 + 2⁻¹ ^ 24)) ^ (3 * (6 + 2 + 1)) * (1 + u32) ^ ((5000 + 2^(6+2) - 1) / 2^(6+2) + 2) - 1) *
              (X * (2 * √(2^(6+2)) * ∑ i ∈ range ((5000 + 2^(6+2) - 1) / 2^(6+2)),
                blockNorm (extended exampleIR (ch % 2)) (i * 2^(6+2)) (2^(6+2)))) := by
  obtain ⟨c, h1, h2⟩ := C70_time_distributed_error (single_accurate 9) (b := 6) (p := 2) (nch := 2) (by norm_num) (by norm_num)
    exampleUsable.nonempty exampleUsable.size (by norm_num [exampleIR]) (by norm_num) (fun _ _ _ => 7)
  exact ⟨c, h1, h2 c (.inl rfl)⟩

end Zones.Props
