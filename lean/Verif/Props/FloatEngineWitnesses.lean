import Verif.Props.FloatEngineExamples
import Verif.Props.EngineWitnesses
import Verif.Props.ReferenceFloat

/-!
# C74, C75 and C76 applied to concrete histories of an engine in binary32

The example response of 5000 samples in two channels at 48 kHz, blocks of 64 samples, transforms, convolvers and fades in binary32.
-/

open Zones.Spec Zones.Model Zones.Proofs Zones.Proofs.R

namespace Zones.Props

noncomputable local instance singleArith : Arith := single

theorem example_cut_inOut : Cut exampleIR 64 exampleSpecInOut 9 18 64 [⟨1, 9⟩, ⟨4, 18⟩] := ⟨example_block, example_scheme, example_points⟩

theorem example_convolverR_inOut : ∃ v, FreshR singleFFT exampleIR 64 exampleSpecInOut 2 v ∧ ServesR singleFFT 2 9 v := by
  obtain ⟨c, e, _⟩ := C71_rounding_error_bounded (single_accurate 9) singleFFT_approx exampleUsableInOut example_block example_scheme
    example_points junk (fun _ _ => 7)
  have h : FreshR singleFFT exampleIR 64 exampleSpecInOut 2 c := ⟨_, _, c, e, Or.inl rfl⟩
  exact ⟨c, h, exampleIR, 64, exampleSpecInOut, 18, 64, _, [], exampleUsableInOut, example_cut_inOut, HeardR_fresh h⟩

/-- Response 1 plays and has heard one block. -/
theorem single_playing {v : Convolver} (hv : FreshR singleFFT exampleIR 64 exampleSpec 2 v) : ∃ c a, Reaches singleOps 2 (ServesR singleFFT 2 9) (hist1 v) c ∧
    QuietResets singleOps {} (hist1 v) ∧ c.spec = some exampleFormat ∧ c.active = some a ∧ a.id = 1 ∧ c.fade = none ∧
    HeardR singleFFT exampleIR 64 exampleSpec 2 [exampleBlock] a.obj := by
  have hs : ServesR singleFFT 2 9 v := ⟨exampleIR, 64, exampleSpec, 18, 64, _, [], exampleUsable, example_cut, HeardR_fresh hv⟩
  have hA := accepts_convolverR (single_accurate 9) singleFFT_approx (.rounded round24) 2
  obtain ⟨h1, h2⟩ := example_lengths
  obtain ⟨c1, _, q1, q2, q3, q4, q5, _⟩ := reachable_states hA
    (a := ⟨1, v⟩) (f := ⟨2, v⟩) (q := ⟨3, v⟩) hs hs hs exampleFormat_valid (fun _ _ => 7) (z := exampleBlock) rfl (by decide) h1 h2
  obtain ⟨v', out, ha, hp⟩ := playing_after_one hA hs exampleFormat_valid _ (z := exampleBlock) rfl (by decide) q1
  refine ⟨c1, ⟨1, v'⟩, q1, q2, q3, ha, rfl, q5, by simp [exampleBlock], v, [out], hv, ?_⟩
  have hp : Convolver.processR singleFFT v exampleBlock = some (v', out) := hp
  simp [Spec.feed, hp]

/-- Response 1 plays, response 2 is being faded to and response 3 waits. -/
theorem single_queued {v w : Convolver} (hv : ServesR singleFFT 2 9 v) (hw : ServesR singleFFT 2 9 w) : ∃ c,
    Reaches singleOps 2 (ServesR singleFFT 2 9) (hist2 v w) c ∧ QuietResets singleOps {} (hist2 v w) ∧
    c.spec = some exampleFormat ∧ slotIds c = (some 1, some 2, some 3) := by
  obtain ⟨h1, h2⟩ := example_lengths
  obtain ⟨_, c2, _, _, _, _, _, q6, q7, q8, q9, q10, q11⟩ := reachable_states (accepts_convolverR (single_accurate 9) singleFFT_approx (.rounded round24) 2)
    (a := ⟨1, v⟩) (f := ⟨2, w⟩) (q := ⟨3, v⟩) hv hw hv exampleFormat_valid (fun _ _ => 7) (z := exampleBlock) rfl (by decide) h1 h2
  refine ⟨c2, q6, q7, q8, ?_⟩
  unfold slotIds
  rw [q9, q10, q11]
  rfl

/-- The error bound of the example (C71): `2e-5` times the weight of the response and the recent input at most, see `example_factor`. -/
abbrev SingleError (spec : ConvolverSpec) (x : ℕ → ℕ → ℝ) (o n : ℕ) (e : ℝ) : Prop :=
  ErrorBound (√2 * (2 * 2⁻¹ ^ 24 + (2⁻¹ ^ 24) ^ 2)) (2⁻¹ ^ 24) (2⁻¹ ^ 24) 9 18 64 [⟨1, 9⟩, ⟨4, 18⟩] exampleIR spec x o n e

/-- There is such a bound for everything that can be sent: here, blocks of ones. -/
theorem singleError_exists (spec : ConvolverSpec) (x : ℕ → ℕ → ℝ) (hx : ∀ ch t, |x ch t| ≤ 1) (o n : ℕ) :
    ∃ e, SingleError spec x o n e := ⟨_, fun _ => 1, fun c _ _ => ⟨zero_le_one, fun m _ _ => hx _ m⟩, rfl⟩

/-- **C75** outside of fades: 100 more blocks. -/
example : ∃ v c c' outs, Reaches singleOps 2 (ServesR singleFFT 2 9) (hist1 v) c ∧
    c.play singleOps (quietly (List.replicate 100 exampleBlock)) = some (c', outs) ∧ slotIds c' = (some 1, none, none) ∧
    ∀ o < 2, ∀ t < 6400, ∀ e, SingleError exampleSpec (stream ([exampleBlock] ++ List.replicate 100 exampleBlock)) o (64 + t) e →
      |stream outs o t - routedConv exampleIR [0, 1] [1, 0] (stream ([exampleBlock] ++ List.replicate 100 exampleBlock)) o (64 + t)| ≤ e := by
  obtain ⟨v, hv, hs⟩ := example_convolverR
  obtain ⟨c, a, h, hq, hp, ha, hai, hf, hH⟩ := single_playing hv
  obtain ⟨c', outs, e, _, hsl, hd⟩ := C75_settled_output (single_accurate 9) singleFFT_approx (G := .rounded round24) h hp hf ha exampleUsable example_cut hH (List.replicate 100 exampleBlock)
    (fun b hb => (blocks_fit 100 b hb).1)
  rw [hai] at hsl
  refine ⟨v, c, c', outs, h, e, hsl, fun o ho t ht => ?_⟩
  exact hd o ho t (by rw [blocks_len]; omega)

/-- **C75**, a crossfade of 4800 samples: the mix of the two responses, with an error of the fade of `5.8e-4` of the louder one at most (`example_fade_error`). -/
example : ∃ v c c' outs, Reaches singleOps 2 (ServesR singleFFT 2 9) (hist1 v) c ∧
    c.play singleOps (([⟨2, v⟩], exampleBlock) :: quietly (List.replicate 79 exampleBlock)) = some (c', outs) ∧ slotIds c' = (some 2, none, none) ∧
    ∀ o < 2, ∀ t < 5120, ∀ eA eG, SingleError exampleSpec (stream ([exampleBlock] ++ List.replicate 80 exampleBlock)) o (64 + t) eA →
      SingleError exampleSpec (stream (List.replicate 80 exampleBlock)) o t eG →
      let convA := routedConv exampleIR [0, 1] [1, 0] (stream ([exampleBlock] ++ List.replicate 80 exampleBlock)) o (64 + t)
      let convG := routedConv exampleIR [0, 1] [1, 0] (stream (List.replicate 80 exampleBlock)) o t
      |stream outs o t - ((1 - fadeGain 4800 t) * convA + fadeGain 4800 t * convG)| ≤
        (1 - fadeGain 4800 t) * eA + fadeGain 4800 t * eG + ((1 + (2⁻¹ : ℝ) ^ 24) ^ (2 * 4800 + 6) - 1) * max (|convA| + eA) (|convG| + eG) := by
  obtain ⟨v, hv, hs⟩ := example_convolverR
  obtain ⟨c, a, h, hq, hp, ha, hai, hf, hH⟩ := single_playing hv
  obtain ⟨c', outs, e, _, hend, hd⟩ := C75_crossfade (single_accurate 9) singleFFT_approx accurateGains_single h hq hp exampleFormat_rate (by norm_num) hf ha
    exampleUsable example_cut hH (g := ⟨2, v⟩) exampleUsable example_cut hv (n := 4800) fade_crossfade exampleBlock (List.replicate 79 exampleBlock) (by
      have := blocks_fit 80
      rwa [List.replicate_succ] at this)
  have hl : totalLen (exampleBlock :: List.replicate 79 exampleBlock) = 5120 := blocks_len 80
  refine ⟨v, c, c', outs, h, e, hend (by rw [hl]; norm_num), fun o ho t ht => ?_⟩
  exact hd o ho t (by rw [hl]; exact ht)

/-- **C75**, an in/out fade of twice 19200 samples. -/
example : ∃ v w c c' outs1 outs2, Reaches singleOps 2 (ServesR singleFFT 2 9) (hist1 v) c ∧
    c.play singleOps (([⟨2, w⟩], exampleBlock) :: quietly (List.replicate 299 exampleBlock ++ List.replicate 300 exampleBlock)) = some (c', outs1 ++ outs2) ∧
    slotIds c' = (some 2, none, none) ∧
    (∀ o < 2, ∀ t < 19200, ∀ eA, SingleError exampleSpec (stream ([exampleBlock] ++ List.replicate 300 exampleBlock)) o (64 + t) eA →
      let convA := routedConv exampleIR [0, 1] [1, 0] (stream ([exampleBlock] ++ List.replicate 300 exampleBlock)) o (64 + t)
      |stream outs1 o t - (1 - fadeGain 19200 t) * convA| ≤ (1 - fadeGain 19200 t) * eA + ((1 + (2⁻¹ : ℝ) ^ 24) ^ (19200 + 3) - 1) * (|convA| + eA)) ∧
    ∀ o < 2, ∀ t < 19200, ∀ eG, SingleError exampleSpecInOut (stream (List.replicate 300 exampleBlock)) o t eG →
      let convG := routedConv exampleIR [0, 1] [1, 0] (stream (List.replicate 300 exampleBlock)) o t
      |stream outs2 o t - fadeGain 19200 t * convG| ≤ fadeGain 19200 t * eG + ((1 + (2⁻¹ : ℝ) ^ 24) ^ (19200 + 3) - 1) * (|convG| + eG) := by
  obtain ⟨v, hv, hs⟩ := example_convolverR
  obtain ⟨w, hw, hws⟩ := example_convolverR_inOut
  obtain ⟨c, a, h, hq, hp, ha, hai, hf, hH⟩ := single_playing hv
  have hl : totalLen (exampleBlock :: List.replicate 299 exampleBlock) = 19200 := blocks_len 300
  have hl2 : totalLen (List.replicate 300 exampleBlock) = 19200 := blocks_len 300
  have hd1 : (exampleBlock :: List.replicate 299 exampleBlock).dropLast = List.replicate 299 exampleBlock := List.dropLast_replicate (n := 300)
  have hd2 : (List.replicate 300 exampleBlock).dropLast = List.replicate 299 exampleBlock := List.dropLast_replicate (n := 300)
  obtain ⟨c', o1, o2, e, _, _, hend, k1, k2⟩ := C75_in_out_fade (single_accurate 9) singleFFT_approx accurateGains_single h hq hp exampleFormat_rate (by norm_num) hf ha
    exampleUsable example_cut hH (g := ⟨2, w⟩) exampleUsableInOut example_cut_inOut hw (n := 19200) fade_in_out exampleBlock (List.replicate 299 exampleBlock) (List.replicate 300 exampleBlock) (by
      have := blocks_fit 600
      intro x hx
      refine this x ?_
      rw [List.mem_append] at hx
      rw [List.mem_replicate]
      refine ⟨by norm_num, ?_⟩
      rcases hx with hx | hx
      · exact List.eq_of_mem_replicate (n := 300) hx
      · exact List.eq_of_mem_replicate hx) ⟨by rw [hd1, blocks_len]; norm_num, by rw [hl]⟩ (by rw [hd2, blocks_len]; norm_num)
  refine ⟨v, w, c, c', o1, o2, h, e, hend (by rw [hl2]), fun o ho t ht => ?_, fun o ho t ht => ?_⟩
  · exact k1 o ho t (by rw [hl]; exact ht)
  · exact k2 o ho t (by rw [hl2]; exact ht)

/-- The responses of `hist2` and what they were made from. -/
theorem single_hist2_built {v w : Convolver} {spec : ConvolverSpec} (hv : FreshR singleFFT exampleIR 64 exampleSpec 2 v) (hU : Usable exampleIR 64 spec 2)
    (hC : Cut exampleIR 64 spec 9 18 64 [⟨1, 9⟩, ⟨4, 18⟩]) (hw : FreshR singleFFT exampleIR 64 spec 2 w) :
    BuiltForR singleFFT 2 9 (fun _ => exampleIR) (fun _ => 64) (fun i => if i = 2 then spec else exampleSpec) (fun _ => 18) (fun _ => 64) (fun _ => [⟨1, 9⟩, ⟨4, 18⟩]) (hist2 v w) := by
  intro b hb g hg
  have hb : b ∈ [([], .prepare exampleFormat fun _ _ => 7), ([⟨1, v⟩], .process exampleBlock), ([⟨2, w⟩, ⟨3, v⟩], .process exampleBlock)] := hb
  simp only [List.mem_cons, List.not_mem_nil, or_false] at hb
  rcases hb with rfl | rfl | rfl
  · cases hg
  · rw [List.mem_singleton] at hg; rw [hg]; exact ⟨exampleUsable, example_cut, hv⟩
  · simp only [List.mem_cons, List.not_mem_nil, or_false] at hg
    rcases hg with rfl | rfl
    · exact ⟨hU, hC, hw⟩
    · exact ⟨exampleUsable, example_cut, hv⟩

/-- **C76**: two responses arrive at once while a third one plays; 12008 blocks later, and as soon as 5576 more samples have passed, what comes out is the convolution with the
last one, up to the error bound of C71. -/
example : ∃ v c c' outs, Reaches singleOps 2 (ServesR singleFFT 2 9) (hist2 v v) c ∧ slotIds c = (some 1, some 2, some 3) ∧
    c.play singleOps (quietly (List.replicate 12008 exampleBlock ++ List.replicate 100 exampleBlock)) = some (c', outs) ∧
    ∀ o < 2, ∀ t < 6400, 5575 ≤ t → ∀ e, SingleError exampleSpec (stream (List.replicate 12008 exampleBlock ++ List.replicate 100 exampleBlock)) o (768512 + t) e →
      |stream (outs.drop 12008) o t - routedConv exampleIR [0, 1] [1, 0] (stream (List.replicate 12008 exampleBlock ++ List.replicate 100 exampleBlock)) o (768512 + t)| ≤ e := by
  obtain ⟨v, hv, hs⟩ := example_convolverR
  obtain ⟨c, h, hq, hp, hsl⟩ := single_queued hs hs
  have hA := accepts_convolverR (single_accurate 9) singleFFT_approx (.rounded round24) 2
  have hnr := C38_quiet_resets_suffice hA h.1 hq
  have hl : totalLen (List.replicate 12008 exampleBlock) = 768512 := blocks_len 12008
  have hlen : 4 * ((ceilTimes kUpperFadeTimeS exampleFormat.sampleRate).toNat + exampleFormat.maximumBlockSize) ≤ totalLen (List.replicate 12008 exampleBlock) := by
    rw [exampleFormat_rate, upper_exact (by norm_num), hl]
    show 4 * (192000 + 64) ≤ 768512
    norm_num
  obtain ⟨c', outs, e, _, hd⟩ := C76_converges_to_newest (single_accurate 9) singleFFT_approx (single_hist2_built hv exampleUsable example_cut hv) h hnr hp (i := 3) rfl
    (List.replicate 12008 exampleBlock) (List.replicate 100 exampleBlock) (by
      intro b hb
      rw [List.mem_append] at hb
      rcases hb with hb | hb <;> exact blocks_fit _ b hb) hlen
  refine ⟨v, c, c', outs, h, hsl, e, fun o ho t ht h5 => ?_⟩
  have := hd o ho t (by rw [blocks_len]; omega) (by show 5000 + 2 ^ 9 + 64 ≤ t + 1; norm_num; omega)
  rw [List.length_replicate, hl] at this
  exact this

/-- Response 2 while it is being faded to. -/
theorem single_hist2_fading {v w : Convolver} {spec : ConvolverSpec} (hv : FreshR singleFFT exampleIR 64 exampleSpec 2 v) (hU : Usable exampleIR 64 spec 2)
    (hC : Cut exampleIR 64 spec 9 18 64 [⟨1, 9⟩, ⟨4, 18⟩]) (hw : FreshR singleFFT exampleIR 64 spec 2 w) {c : Core Convolver}
    (h : Reaches singleOps 2 (ServesR singleFFT 2 9) (hist2 v w) c) {f : Held Convolver} (hf : c.fade = some f) (hi : f.id = 2) :
    singleOps.numSamples f.obj = 5000 ∧ singleOps.strategy f.obj = spec.fadeStrategy := by
  have hA := accepts_convolverR (single_accurate 9) singleFFT_approx (.rounded round24) 2
  have hB := single_hist2_built hv hU hC hw
  have hk : Keeps (InUseR singleFFT 2 9 (fun _ => exampleIR) (fun _ => 64) (fun i => if i = 2 then spec else exampleSpec) (fun _ => 18) (fun _ => 64) (fun _ => [⟨1, 9⟩, ⟨4, 18⟩])) c :=
    calls_keeps hA (inUseR_lasting (single_accurate 9) singleFFT_approx (.rounded round24) 2 _ _ _ _ _ _) _ none {} c (start_known 2 _) h.1
      ⟨fun x hx => (by cases hx), fun x hx => (by cases hx), fun x hx => (by cases hx)⟩
      (fun b hb g hg => ⟨(hB b hb g hg).1, (hB b hb g hg).2.1, [], HeardR_fresh (hB b hb g hg).2.2⟩) h.2
  obtain ⟨_, _, past, hH⟩ := hk.2.1 f hf
  obtain ⟨h1, h2⟩ := heardR_fixed hH
  refine ⟨h1, ?_⟩
  show f.obj.spec.fadeStrategy = _
  rw [h2, hi]
  rfl

/-- **C74** in the state in which response 1 plays, 2 is being faded to and 3 waits. -/
example : ∃ v c a f j, Reaches singleOps 2 (ServesR singleFFT 2 9) (hist2 v v) c ∧ slotIds c = (some 1, some 2, some 3) ∧ j < 4800 ∧
    Crossfades (nearlyLinearFades (2⁻¹ ^ 24)) singleOps 2 64 (ServesR singleFFT 2 9) 4800 j a f [] c := by
  obtain ⟨v, hv, hs⟩ := example_convolverR
  obtain ⟨c, h, hq, hp, hsl⟩ := single_queued hs hs
  have hsl' := hsl
  unfold slotIds at hsl'
  simp only [Prod.mk.injEq] at hsl'
  obtain ⟨f, hf, hfi⟩ := slot_of hsl'.2.1
  have hfx := single_hist2_fading hv exampleUsable example_cut hv h hf hfi
  obtain ⟨a, j, _, hj, hx⟩ := C74_crossfade (ops := singleOps) accurateGains_single (accepts_convolverR (single_accurate 9) singleFFT_approx (.rounded round24) 2) h hq hp
    exampleFormat_rate (by norm_num) hf (n := 4800) (by rw [hfx.1, hfx.2]; exact fade_crossfade)
  exact ⟨v, c, a, f, j, h, hsl, hj, hx⟩

/-- **C74**, the same with an in/out fade. -/
example : ∃ v w c a f j, Reaches singleOps 2 (ServesR singleFFT 2 9) (hist2 v w) c ∧ slotIds c = (some 1, some 2, some 3) ∧ j < 19200 ∧
    (InOutFades (nearlyLinearFades (2⁻¹ ^ 24)) singleOps 2 64 (ServesR singleFFT 2 9) 19200 j a f [] c ∨
      SecondHalf (nearlyLinearFades (2⁻¹ ^ 24)) singleOps 2 64 (ServesR singleFFT 2 9) 19200 j a f c) := by
  obtain ⟨v, hv, hs⟩ := example_convolverR
  obtain ⟨w, hw, hws⟩ := example_convolverR_inOut
  obtain ⟨c, h, hq, hp, hsl⟩ := single_queued hs hws
  have hsl' := hsl
  unfold slotIds at hsl'
  simp only [Prod.mk.injEq] at hsl'
  obtain ⟨f, hf, hfi⟩ := slot_of hsl'.2.1
  have hfx := single_hist2_fading hv exampleUsableInOut example_cut_inOut hw h hf hfi
  obtain ⟨a, j, _, hj, hx⟩ := C74_in_out_fade (ops := singleOps) accurateGains_single (accepts_convolverR (single_accurate 9) singleFFT_approx (.rounded round24) 2) h hq hp
    exampleFormat_rate (by norm_num) hf (n := 19200) (by rw [hfx.1, hfx.2]; exact fade_in_out)
  exact ⟨v, w, c, a, f, j, h, hsl, hj, hx⟩

/-- **C74**: a response that arrives while another one plays alone is crossfaded to, from the first sample on. -/
example : ∃ v c a, Reaches singleOps 2 (ServesR singleFFT 2 9) (hist1 v) c ∧ slotIds c = (some 1, none, none) ∧
    FadesAsExpected (nearlyLinearFades (2⁻¹ ^ 24)) singleOps 2 64 (ServesR singleFFT 2 9) (.crossfade, ((4800 : ℕ) : ℤ)) a ⟨2, v⟩ [⟨2, v⟩] c := by
  obtain ⟨v, hv, hs⟩ := example_convolverR
  obtain ⟨c, a, h, hq, hp, ha, hai, hf, hH⟩ := single_playing hv
  have hA := accepts_convolverR (single_accurate 9) singleFFT_approx (.rounded round24) 2
  have hpd : c.pending = none := by
    rcases playing_of_reaches hA h hq hp with ⟨_, hpd, _⟩ | ⟨f, n', j, j', hfa⟩
    · exact hpd
    · rw [hfa.slot] at hf; cases hf
  obtain ⟨e1, e2⟩ := freshR_fixed hv
  have hch := C74_fade_choice (ops := singleOps) accurateGains_single hA h hq hp exampleFormat_rate (by norm_num) hf ha (g := ⟨2, v⟩) hs
  have hfade : expectedFade 48000 (singleOps.numSamples v) (singleOps.strategy v) = (.crossfade, ((4800 : ℕ) : ℤ)) := by
    have e1 : singleOps.numSamples v = 5000 := e1
    have e2 : singleOps.strategy v = .crossfade := by
      show v.spec.fadeStrategy = _
      rw [e2]; rfl
    rw [e1, e2]
    exact fade_crossfade
  refine ⟨v, c, a, h, ?_, ?_⟩
  · unfold slotIds
    rw [ha, hf, hpd, Option.map_some, hai]
    rfl
  · rw [← hfade]; exact hch

end Zones.Props
