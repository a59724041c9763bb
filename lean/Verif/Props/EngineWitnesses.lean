import Verif.Props.EngineExact
import Verif.Props.EngineExamples
import Verif.Props.Reference

/-!
# The theorems about the audio side of the engine, applied to concrete histories

Real convolvers (`referenceFFT`, the example response of 5000 samples in two channels with swapped outputs, 48 kHz, blocks of 64 samples): every hypothesis
of C32, C33, C34, C35, C38, C39, C42, C45 and C49 is met by the histories here, and the conclusions are given in numbers.
-/

open Zones.Spec Zones.Model Zones.Proofs

namespace Zones.Props

/-- The example response, to be faded in after the old one has been faded out. -/
def exampleSpecInOut : ConvolverSpec := { exampleSpec with fadeStrategy := .inOut }

theorem exampleUsableInOut : Usable exampleIR 64 exampleSpecInOut 2 :=
  ⟨exampleUsable.nonempty, exampleUsable.size, exampleUsable.inputs, exampleUsable.outputs, exampleUsable.blockSize⟩

theorem example_convolver_inOut : ∃ v, Fresh referenceFFT exampleIR 64 exampleSpecInOut 2 v ∧ Serves referenceFFT 2 v := by
  obtain ⟨c, e, _⟩ := C01_exact_convolution referenceFFT_lawful exampleUsableInOut
    ⟨fun _ _ => 7, fun _ _ _ _ => 7, fun _ _ => 7, fun _ _ => 7, fun _ _ => 7⟩ (fun _ _ => 7)
  have h : Fresh referenceFFT exampleIR 64 exampleSpecInOut 2 c := ⟨_, _, c, e, Or.inl rfl⟩
  exact ⟨c, h, exampleIR, 64, exampleSpecInOut, [], exampleUsableInOut, Heard_fresh h⟩

theorem fade_crossfade : expectedFade 48000 5000 .crossfade = (.crossfade, ((4800 : ℕ) : ℤ)) := by
  have c1 : ⌈((48000 : ℕ) : ℚ) / 10⌉ = 4800 := by rw [Int.ceil_eq_iff]; norm_num
  have c2 : ⌈(14 * ((5000 : ℕ) : ℚ)) / 100⌉ = 700 := by rw [Int.ceil_eq_iff]; norm_num
  rw [expectedFade, if_pos ⟨rfl, by norm_num⟩, c1, c2]; norm_num

theorem fade_in_out : expectedFade 48000 5000 .inOut = (.inOut, ((19200 : ℕ) : ℤ)) := by
  have c4 : ⌈(4 * ((48000 : ℕ) : ℚ)) / 10⌉ = 19200 := by rw [Int.ceil_eq_iff]; norm_num
  rw [expectedFade, if_neg (by simp), c4]; norm_num

theorem exampleFormat_rate : exampleFormat.sampleRate = ((48000 : ℕ) : ℚ) := by norm_num [exampleFormat]

/-- A host that prepares the engine and then sends blocks. -/
noncomputable abbrev hist0 : List (List (Held Convolver) × Call) := [([], .prepare exampleFormat fun _ _ => 7)]
noncomputable abbrev hist1 (v : Convolver) : List (List (Held Convolver) × Call) := hist0 ++ [([⟨1, v⟩], .process exampleBlock)]
noncomputable abbrev hist2 (v w : Convolver) : List (List (Held Convolver) × Call) := hist1 v ++ [([⟨2, w⟩, ⟨3, v⟩], .process exampleBlock)]

theorem example_prepared : ∃ c, Reaches (convolverOps referenceFFT) 2 (Serves referenceFFT 2) hist0 c ∧ c.spec = some exampleFormat ∧ c.active = none ∧ c.fade = none := by
  refine ⟨_, ⟨⟨by simp, fun _ _ => rfl, exampleFormat_valid, trivial⟩, rfl⟩, rfl, rfl, rfl⟩

/-- **C42**, **C49** without a response: whatever is sent to the prepared engine comes back as it is. -/
example : ∃ c, Reaches (convolverOps referenceFFT) 2 (Serves referenceFFT 2) hist0 c ∧
    (∀ blocks, c.play (convolverOps referenceFFT) (quietly blocks) = some (c, blocks)) := by
  obtain ⟨c, h, _⟩ := example_prepared
  exact ⟨c, h, fun blocks => C42_transparent_without_response _ h.2 (by intro b hb; rw [List.mem_singleton] at hb; rw [hb]) blocks⟩

/-- The state after `prepare` and one block with which the first response arrives: it plays, and has processed that block. -/
theorem playing_after_one {V : Type} {ops : ConvOps V} {N : ℕ} {Good : V → Prop} (hA : Accepts ops N Good) {a : Held V} (ha : Good a.obj) {p : ProcSpec} (hp : ValidFormat N p)
    (m : ℕ → ℕ → ℝ) {z : Buf} (hz : z.ch = N) (hzn : z.n ≤ p.maximumBlockSize) {c : Core V} (h : Reaches ops N Good [([], .prepare p m), ([a], .process z)] c) :
    ∃ v out, c.active = some ⟨a.id, v⟩ ∧ ops.process a.obj z = some (v, out) := by
  have r0 : Reaches ops N Good [([], .prepare p m)] (((({} : Core V).prepareHead p m).resetFade).resetBody ops).1 := ⟨⟨by simp, fun _ _ => rfl, hp, trivial⟩, rfl⟩
  obtain ⟨c', g', outs, ep, ef, _, hac, _⟩ := C42_first_response_plays_at_once hA r0 (p := p) rfl rfl rfl (g := a) ha z [] (by simpa using hz)
  generalize (((({} : Core V).prepareHead p m).resetFade).resetBody ops).1 = c0 at r0 ep
  have e1 : (({} : Core V).calls ops [([], .prepare p m)]).bind (fun c => (c.call ops [a] (.process z)).bind fun r => some r.1) = some c := by
    rw [← h.2]
    rfl
  rw [r0.2, Option.bind_some] at e1
  have e2 : (c0.call ops [a] (.process z)).bind (fun r => (some (r.1, ([] : List Buf))).map fun s => (s.1, r.2.out.toList ++ s.2)) = some (c', outs) := ep
  cases hc : c0.call ops [a] (.process z) with
  | none => rw [hc] at e1; cases e1
  | some r =>
    rw [hc] at e1 e2
    simp only [Option.bind_some, Option.map_some, Option.some.injEq, Prod.mk.injEq] at e1 e2
    have e : c = c' := by rw [← e1, ← e2.1]
    subst e
    have ef : (ops.process a.obj z).bind (fun r => (some (r.1, ([] : List Buf))).map fun s => (s.1, r.2 :: s.2)) = some (g', outs) := ef
    cases hp : ops.process a.obj z with
    | none => rw [hp] at ef; cases ef
    | some r =>
      rw [hp] at ef
      simp only [Option.bind_some, Option.map_some, Option.some.injEq, Prod.mk.injEq] at ef
      obtain ⟨v, out⟩ := r
      simp only at ef
      obtain ⟨rfl, _⟩ := ef
      exact ⟨v, out, hac, rfl⟩

/-- The engine with one response that plays and has heard one block (**C42** applied). -/
theorem example_playing {v : Convolver} (hv : Fresh referenceFFT exampleIR 64 exampleSpec 2 v) : ∃ c a, Reaches (convolverOps referenceFFT) 2 (Serves referenceFFT 2) (hist1 v) c ∧
    QuietResets (convolverOps referenceFFT) {} (hist1 v) ∧ c.spec = some exampleFormat ∧ c.active = some a ∧ a.id = 1 ∧ c.fade = none ∧
    Heard referenceFFT exampleIR 64 exampleSpec 2 [exampleBlock] a.obj := by
  have hs : Serves referenceFFT 2 v := ⟨exampleIR, 64, exampleSpec, [], exampleUsable, Heard_fresh hv⟩
  obtain ⟨h1, h2⟩ := example_lengths
  obtain ⟨c1, _, q1, q2, q3, q4, q5, _⟩ := reachable_states (accepts_convolver referenceFFT_lawful 2)
    (a := ⟨1, v⟩) (f := ⟨2, v⟩) (q := ⟨3, v⟩) hs hs hs exampleFormat_valid (fun _ _ => 7) (z := exampleBlock) rfl (by decide) h1 h2
  obtain ⟨v', out, ha, hp⟩ := playing_after_one (accepts_convolver referenceFFT_lawful 2) hs exampleFormat_valid _ (z := exampleBlock) rfl (by decide) q1
  refine ⟨c1, ⟨1, v'⟩, q1, q2, q3, ha, rfl, q5, by simp [exampleBlock], v, [out], hv, ?_⟩
  have hp : Convolver.process referenceFFT v exampleBlock = some (v', out) := hp
  simp [Spec.feed, hp]

theorem quiet_append {V : Type} {ops : ConvOps V} : ∀ (xs ys : List (List (Held V) × Call)) (c c' : Core V), QuietResets ops c xs → c.calls ops xs = some c' →
    QuietResets ops c' ys → QuietResets ops c (xs ++ ys)
  | [], ys, c, c', _, e, h => by cases e; exact h
  | x :: xs, ys, c, c', hx, e, h => by
    obtain ⟨h1, h2⟩ := hx
    refine ⟨h1, fun r hr => quiet_append xs ys r.1 c' (h2 r hr) ?_ h⟩
    rw [Core.calls, hr, Option.bind_some] at e
    exact e

/-- The engine with response 1 playing, response 2 (a convolver `w`) being faded to and response 3 waiting. -/
theorem example_queued {v w : Convolver} (hv : Serves referenceFFT 2 v) (hw : Serves referenceFFT 2 w) : ∃ c,
    Reaches (convolverOps referenceFFT) 2 (Serves referenceFFT 2) (hist2 v w) c ∧ QuietResets (convolverOps referenceFFT) {} (hist2 v w) ∧
    c.spec = some exampleFormat ∧ slotIds c = (some 1, some 2, some 3) := by
  obtain ⟨h1, h2⟩ := example_lengths
  obtain ⟨_, c2, _, _, _, _, _, q6, q7, q8, q9, q10, q11⟩ := reachable_states (accepts_convolver referenceFFT_lawful 2)
    (a := ⟨1, v⟩) (f := ⟨2, w⟩) (q := ⟨3, v⟩) hv hw hv exampleFormat_valid (fun _ _ => 7) (z := exampleBlock) rfl (by decide) h1 h2
  refine ⟨c2, q6, q7, q8, ?_⟩
  unfold slotIds
  rw [q9, q10, q11]
  rfl

/-- Blocks the host may send. -/
theorem blocks_fit (n : ℕ) : ∀ b ∈ List.replicate n exampleBlock, b.ch = 2 ∧ b.n ≤ exampleFormat.maximumBlockSize := by
  intro b hb
  rw [List.eq_of_mem_replicate hb]
  exact ⟨rfl, le_rfl⟩

theorem blocks_len (n : ℕ) : totalLen (List.replicate n exampleBlock) = n * 64 := totalLen_replicate n exampleBlock

/-- **C33.** Response 2 arrives while response 1 plays: 80 blocks later the crossfade is over, and the 5120 samples are the mix. -/
example : ∃ v c c' outs, Reaches (convolverOps referenceFFT) 2 (Serves referenceFFT 2) (hist1 v) c ∧
    c.play (convolverOps referenceFFT) (([⟨2, v⟩], exampleBlock) :: quietly (List.replicate 79 exampleBlock)) = some (c', outs) ∧
    slotIds c' = (some 2, none, none) ∧
    ∀ o < 2, ∀ t < 5120, stream outs o t =
      (1 - fadeGain 4800 t) * routedConv exampleIR [0, 1] [1, 0] (stream (exampleBlock :: List.replicate 80 exampleBlock)) o (64 + t) +
      fadeGain 4800 t * routedConv exampleIR [0, 1] [1, 0] (stream (List.replicate 80 exampleBlock)) o t := by
  obtain ⟨v, hv, hs⟩ := example_convolver
  obtain ⟨c, a, h, hq, hp, ha, _, hf, hH⟩ := example_playing hv
  obtain ⟨c', outs, e, _, hend, hd⟩ := C33_exact referenceFFT_lawful h hq hp exampleFormat_rate (by norm_num) hf ha exampleUsable hH (g := ⟨2, v⟩) exampleUsable hv
    (n := 4800) fade_crossfade exampleBlock (List.replicate 79 exampleBlock) (by
      have := blocks_fit 80
      rwa [List.replicate_succ] at this)
  have hl : totalLen (exampleBlock :: List.replicate 79 exampleBlock) = 5120 := blocks_len 80
  refine ⟨v, c, c', outs, h, e, hend (by rw [hl]; norm_num), fun o ho t ht => ?_⟩
  exact hd o ho t (by rw [hl]; exact ht)

/-- **C34.** The same with a response that is to be faded in and out: 300 blocks of the old one, then 300 of the new one. -/
example : ∃ v w c c' outs1 outs2, Reaches (convolverOps referenceFFT) 2 (Serves referenceFFT 2) (hist1 v) c ∧
    c.play (convolverOps referenceFFT) (([⟨2, w⟩], exampleBlock) :: quietly (List.replicate 299 exampleBlock ++ List.replicate 300 exampleBlock)) = some (c', outs1 ++ outs2) ∧
    slotIds c' = (some 2, none, none) ∧
    (∀ o < 2, ∀ t < 19200, stream outs1 o t =
      (1 - fadeGain 19200 t) * routedConv exampleIR [0, 1] [1, 0] (stream (exampleBlock :: List.replicate 300 exampleBlock)) o (64 + t)) ∧
    ∀ o < 2, ∀ t < 19200, stream outs2 o t = fadeGain 19200 t * routedConv exampleIR [0, 1] [1, 0] (stream (List.replicate 300 exampleBlock)) o t := by
  obtain ⟨v, hv, hs⟩ := example_convolver
  obtain ⟨w, hw, hws⟩ := example_convolver_inOut
  obtain ⟨c, a, h, hq, hp, ha, _, hf, hH⟩ := example_playing hv
  have hl : totalLen (exampleBlock :: List.replicate 299 exampleBlock) = 19200 := blocks_len 300
  have hl2 : totalLen (List.replicate 300 exampleBlock) = 19200 := blocks_len 300
  have hd1 : (exampleBlock :: List.replicate 299 exampleBlock).dropLast = List.replicate 299 exampleBlock := List.dropLast_replicate (n := 300)
  have hd2 : (List.replicate 300 exampleBlock).dropLast = List.replicate 299 exampleBlock := List.dropLast_replicate (n := 300)
  obtain ⟨c', o1, o2, e, _, _, hend, k1, k2⟩ := C34_exact referenceFFT_lawful h hq hp exampleFormat_rate (by norm_num) hf ha exampleUsable hH (g := ⟨2, w⟩) exampleUsableInOut hw
    (n := 19200) fade_in_out exampleBlock (List.replicate 299 exampleBlock) (List.replicate 300 exampleBlock) (by
      have := blocks_fit 600
      intro x hx
      refine this x ?_
      rw [List.mem_append] at hx
      rw [List.mem_replicate]
      refine ⟨by norm_num, ?_⟩
      rcases hx with hx | hx
      · exact List.eq_of_mem_replicate (n := 300) hx
      · exact List.eq_of_mem_replicate hx) ⟨by rw [hd1, blocks_len]; norm_num, by rw [hl]⟩ (by rw [hd2, blocks_len]; norm_num)
  refine ⟨v, w, c, c', o1, o2, h, e, hend (by rw [hl2]), fun o ho t ht => ?_, fun o ho t ht => ?_⟩
  · exact k1 o ho t (by rw [hl]; exact ht)
  · exact k2 o ho t (by rw [hl2]; exact ht)

/-- The responses of `hist2` and what they were made from: response 2 may be to be faded in and out. -/
theorem hist2_built {v w : Convolver} {spec : ConvolverSpec} (hv : Fresh referenceFFT exampleIR 64 exampleSpec 2 v) (hU : Usable exampleIR 64 spec 2)
    (hw : Fresh referenceFFT exampleIR 64 spec 2 w) :
    BuiltFor referenceFFT 2 (fun _ => exampleIR) (fun _ => 64) (fun i => if i = 2 then spec else exampleSpec) (hist2 v w) := by
  intro b hb g hg
  have hb : b ∈ [([], .prepare exampleFormat fun _ _ => 7), ([⟨1, v⟩], .process exampleBlock), ([⟨2, w⟩, ⟨3, v⟩], .process exampleBlock)] := hb
  simp only [List.mem_cons, List.not_mem_nil, or_false] at hb
  rcases hb with rfl | rfl | rfl
  · cases hg
  · rw [List.mem_singleton] at hg; rw [hg]; exact ⟨exampleUsable, hv⟩
  · simp only [List.mem_cons, List.not_mem_nil, or_false] at hg
    rcases hg with rfl | rfl
    · exact ⟨hU, hw⟩
    · exact ⟨exampleUsable, hv⟩

/-- Response 2 while it is being faded to. -/
theorem hist2_fading {v w : Convolver} {spec : ConvolverSpec} (hv : Fresh referenceFFT exampleIR 64 exampleSpec 2 v) (hU : Usable exampleIR 64 spec 2)
    (hw : Fresh referenceFFT exampleIR 64 spec 2 w) {c : Core Convolver} (h : Reaches (convolverOps referenceFFT) 2 (Serves referenceFFT 2) (hist2 v w) c)
    {f : Held Convolver} (hf : c.fade = some f) (hi : f.id = 2) :
    (convolverOps referenceFFT).numSamples f.obj = 5000 ∧ (convolverOps referenceFFT).strategy f.obj = spec.fadeStrategy := by
  obtain ⟨_, past, hH⟩ := (keeps_of_reaches referenceFFT_lawful (hist2_built hv hU hw) h).2.1 f hf
  obtain ⟨h1, h2⟩ := heard_fixed hH
  refine ⟨h1, ?_⟩
  show f.obj.spec.fadeStrategy = _
  rw [h2, hi]
  rfl

/-- A slot from its number. -/
theorem slot_of {V : Type} {x : Option (Held V)} {i : ℕ} (h : x.map Held.id = some i) : ∃ y, x = some y ∧ y.id = i := by
  cases x with
  | none => cases h
  | some y => exact ⟨y, rfl, Option.some.inj h⟩

/-- **C32**, **C45.** Two responses arrive at once while a third one plays: 12008 blocks later the last one plays alone, and what comes out of the next
100 blocks — as soon as 5000 samples have passed — is the convolution of the input with it. -/
example : ∃ v c c' outs c'' outs', Reaches (convolverOps referenceFFT) 2 (Serves referenceFFT 2) (hist2 v v) c ∧ slotIds c = (some 1, some 2, some 3) ∧
    c.play (convolverOps referenceFFT) (quietly (List.replicate 12008 exampleBlock)) = some (c', outs) ∧ slotIds c' = (some 3, none, none) ∧
    c.play (convolverOps referenceFFT) (quietly (List.replicate 12008 exampleBlock ++ List.replicate 100 exampleBlock)) = some (c'', outs') ∧
    ∀ o < 2, ∀ t < 6400, 4999 ≤ t → stream (outs'.drop 12008) o t =
      routedConv exampleIR [0, 1] [1, 0] (stream (List.replicate 12008 exampleBlock ++ List.replicate 100 exampleBlock)) o (768512 + t) := by
  obtain ⟨v, hv, hs⟩ := example_convolver
  obtain ⟨c, h, hq, hp, hsl⟩ := example_queued hs hs
  have hA := accepts_convolver referenceFFT_lawful 2
  have hnr := C38_quiet_resets_suffice hA h.1 hq
  have hl : totalLen (List.replicate 12008 exampleBlock) = 768512 := blocks_len 12008
  have hlen : 4 * ((ceilTimes kUpperFadeTimeS exampleFormat.sampleRate).toNat + exampleFormat.maximumBlockSize) ≤ totalLen (List.replicate 12008 exampleBlock) := by
    rw [exampleFormat_rate, upper_exact (by norm_num), hl]
    show 4 * (192000 + 64) ≤ 768512
    norm_num
  obtain ⟨c', outs, e, hi⟩ := C32_newest_finally_plays hA h hnr hp (List.replicate 12008 exampleBlock) (blocks_fit _) hlen
  obtain ⟨c'', outs', e', _, hd⟩ := C45_converges_to_newest referenceFFT_lawful (hist2_built hv exampleUsable hv) h hnr hp (i := 3) rfl (List.replicate 12008 exampleBlock) (List.replicate 100 exampleBlock) (by
      intro b hb
      rw [List.mem_append] at hb
      rcases hb with hb | hb <;> exact blocks_fit _ b hb) hlen
  refine ⟨v, c, c', outs, c'', outs', h, hsl, e, hi, e', fun o ho t ht h5 => ?_⟩
  have := hd o ho t (by rw [blocks_len]; omega) (by show 5000 ≤ t + 1; omega)
  rw [List.length_replicate, hl] at this
  exact this

/-- **C33**, **C35**, **C38**, **C39**, **C49** in the state in which response 1 plays, 2 is being faded to and 3 waits: the next block is mixed; a reset or clear now leads
to the hard switch; and a block of 65 samples is undefined behaviour. -/
example : ∃ v c, Reaches (convolverOps referenceFFT) 2 (Serves referenceFFT 2) (hist2 v v) c ∧ slotIds c = (some 1, some 2, some 3) ∧
    (∃ a f j, j < 4800 ∧ Crossfades linearFades (convolverOps referenceFFT) 2 64 (Serves referenceFFT 2) 4800 j a f [] c) ∧
    (∃ c1 e1 c2 e2, c.call (convolverOps referenceFFT) [] .reset = some (c1, e1) ∧ slotIds c1 = (some 3, some 2, none) ∧
      c1.call (convolverOps referenceFFT) [] (.process exampleBlock) = some (c2, e2) ∧ slotIds c2 = (some 2, none, none)) ∧
    (∃ c1 e1 c2 e2, c.call (convolverOps referenceFFT) [] .clear = some (c1, e1) ∧ slotIds c1 = (none, some 2, none) ∧
      c1.call (convolverOps referenceFFT) [] (.process exampleBlock) = some (c2, e2) ∧ slotIds c2 = (some 2, none, none) ∧
      ∃ out, e2.out = some out ∧ ∀ ch < 2, ∀ i < 64, out.data ch i = exampleBlock.data ch i) ∧
    c.call (convolverOps referenceFFT) [] (.process ⟨2, 65, fun _ _ => 1⟩) = none := by
  obtain ⟨v, hv, hs⟩ := example_convolver
  obtain ⟨c, h, hq, hp, hsl⟩ := example_queued hs hs
  have hA := accepts_convolver referenceFFT_lawful 2
  have hsl' := hsl
  unfold slotIds at hsl'
  simp only [Prod.mk.injEq] at hsl'
  obtain ⟨_, h2, h3⟩ := hsl'
  obtain ⟨f, hf, hfi⟩ := slot_of h2
  obtain ⟨q, hqd, hqi⟩ := slot_of h3
  have hfx := hist2_fading hv exampleUsable hv h hf hfi
  have hfade : expectedFade 48000 ((convolverOps referenceFFT).numSamples f.obj) ((convolverOps referenceFFT).strategy f.obj) = (.crossfade, ((4800 : ℕ) : ℤ)) := by
    rw [hfx.1, hfx.2]
    exact fade_crossfade
  obtain ⟨a, j, _, hj, hx⟩ := C33_crossfade (ops := convolverOps referenceFFT) rfl hA h hq hp exampleFormat_rate (by norm_num) hf (n := 4800) hfade
  obtain ⟨_, _, _, hst⟩ := fade_position hA h hq hp exampleFormat_rate (by norm_num) hf (n := 4800) hfade
  obtain ⟨c1, e1, c2, e2, out, r1, r2, r3, r4, r5, r6, r7⟩ := C38_reset_while_queued (ops := convolverOps referenceFFT) rfl hA h hp hf hqd (blk := exampleBlock) rfl le_rfl
  obtain ⟨d1, g1, d2, g2, out', s1, s2, s3, s4, s5, s6, s7⟩ := C39_clear_while_queued (ops := convolverOps referenceFFT) rfl hA h hp hf hqd (blk := exampleBlock) rfl le_rfl
  rw [hfi] at r2 r4 s2 s4
  rw [hqi] at r2
  exact ⟨v, c, h, hsl, ⟨a, f, j, hj, hx⟩, ⟨c1, e1, c2, e2, r1, r2, r3, r4⟩, ⟨d1, g1, d2, g2, s1, s2, s3, s4, out', s5, s6 hst⟩,
    C49_large_block_during_crossfade hA h hp hf hst (by show 64 < 65; norm_num)⟩

/-- **C34** in the same state when response 2 is to be faded in after response 1 has been faded out. -/
example : ∃ v w c, Reaches (convolverOps referenceFFT) 2 (Serves referenceFFT 2) (hist2 v w) c ∧ slotIds c = (some 1, some 2, some 3) ∧
    ∃ a f j, c.active = some a ∧ c.fade = some f ∧ j < 19200 ∧ (InOutFades linearFades (convolverOps referenceFFT) 2 64 (Serves referenceFFT 2) 19200 j a f [] c ∨
      SecondHalf linearFades (convolverOps referenceFFT) 2 64 (Serves referenceFFT 2) 19200 j a f c) := by
  obtain ⟨v, hv, hs⟩ := example_convolver
  obtain ⟨w, hw, hws⟩ := example_convolver_inOut
  obtain ⟨c, h, hq, hp, hsl⟩ := example_queued hs hws
  have hA := accepts_convolver referenceFFT_lawful 2
  have hsl' := hsl
  unfold slotIds at hsl'
  simp only [Prod.mk.injEq] at hsl'
  obtain ⟨f, hf, hfi⟩ := slot_of hsl'.2.1
  have hfx := hist2_fading hv exampleUsableInOut hw h hf hfi
  obtain ⟨a, j, ha, hj, hx⟩ := C34_in_out_fade (ops := convolverOps referenceFFT) rfl hA h hq hp exampleFormat_rate (by norm_num) hf (n := 19200) (by
    rw [hfx.1, hfx.2]
    exact fade_in_out)
  exact ⟨v, w, c, h, hsl, a, f, j, ha, hf, hj, hx⟩

/-- **C33** (hard switch), **C35**, **C38**, **C39**, **C45**, **C49** in the state in which response 1 plays alone: a response that arrives now is crossfaded to in 4800
samples; nothing happens to the output otherwise, and blocks of any size are fine; `reset` restarts response 1, whose output is then the convolution with what comes after;
`Clear` makes the engine transparent; and a response picked up by `reset` makes the next one appear without a fade. -/
example : ∃ v c a, Reaches (convolverOps referenceFFT) 2 (Serves referenceFFT 2) (hist1 v) c ∧ c.active = some a ∧ slotIds c = (some 1, none, none) ∧
    Crossfades linearFades (convolverOps referenceFFT) 2 64 (Serves referenceFFT 2) 4800 0 a ⟨2, v⟩ [⟨2, v⟩] c ∧
    (∃ c' a' outs, c.play (convolverOps referenceFFT) (quietly [exampleBlock, exampleBlock]) = some (c', outs) ∧
      Spec.feed (convolverOps referenceFFT).process a.obj [exampleBlock, exampleBlock] = some (a', outs)) ∧
    (∃ r out, c.call (convolverOps referenceFFT) [] (.process ⟨2, 65, fun _ _ => 1⟩) = some r ∧ r.2.out = some out ∧ out.n = 65) ∧
    (∃ c1 c2 outs, Reaches (convolverOps referenceFFT) 2 (Serves referenceFFT 2) (hist1 v ++ [([], .reset)]) c1 ∧ slotIds c1 = (some 1, none, none) ∧
      c1.play (convolverOps referenceFFT) (quietly (List.replicate 100 exampleBlock)) = some (c2, outs) ∧
      ∀ o < 2, ∀ t < 6400, stream outs o t = routedConv exampleIR [0, 1] [1, 0] (stream (List.replicate 100 exampleBlock)) o t) ∧
    (∃ c1, Reaches (convolverOps referenceFFT) 2 (Serves referenceFFT 2) (hist1 v ++ [([], .clear)]) c1 ∧
      ∀ blocks, c1.play (convolverOps referenceFFT) (quietly blocks) = some (c1, blocks)) ∧
    ∃ c1 e1 c2 e2, c.call (convolverOps referenceFFT) [⟨2, v⟩] .reset = some (c1, e1) ∧ slotIds c1 = (some 2, none, none) ∧
      c1.call (convolverOps referenceFFT) [⟨3, v⟩] (.process exampleBlock) = some (c2, e2) ∧ slotIds c2 = (some 3, none, none) := by
  obtain ⟨v, hv, hs⟩ := example_convolver
  obtain ⟨c, a, h, hq, hp, ha, hai, hf, hH⟩ := example_playing hv
  have hA := accepts_convolver referenceFFT_lawful 2
  have hpd : c.pending = none := by
    rcases playing_of_reaches hA h hq hp with ⟨_, hpd, _⟩ | ⟨f, n', j, j', hfa⟩
    · exact hpd
    · rw [hfa.slot] at hf; cases hf
  obtain ⟨e1, e2⟩ := fresh_fixed hv
  have hch := C35_fade_choice (ops := convolverOps referenceFFT) rfl hA h hq hp exampleFormat_rate (by norm_num) hf ha (g := ⟨2, v⟩) hs
  have hfade : expectedFade 48000 ((convolverOps referenceFFT).numSamples v) ((convolverOps referenceFFT).strategy v) = (.crossfade, ((4800 : ℕ) : ℤ)) := by
    have e1 : (convolverOps referenceFFT).numSamples v = 5000 := e1
    have e2 : (convolverOps referenceFFT).strategy v = .crossfade := by
      show v.spec.fadeStrategy = _
      rw [e2]; rfl
    rw [e1, e2]
    exact fade_crossfade
  have hch : FadesAsExpected linearFades (convolverOps referenceFFT) 2 64 (Serves referenceFFT 2)
    (expectedFade 48000 ((convolverOps referenceFFT).numSamples v) ((convolverOps referenceFFT).strategy v)) a ⟨2, v⟩ [⟨2, v⟩] c := hch
  rw [hfade] at hch
  obtain ⟨c', a', outs, p1, p2, _⟩ := C45_steady_state hA h hp hf ha [exampleBlock, exampleBlock] (by simp [exampleBlock])
  obtain ⟨r, out, l1, l2, _, l3⟩ := C49_large_block_otherwise hA h hf (blk := ⟨2, 65, fun _ _ => 1⟩) rfl
  have hw : ∀ k, (k = .reset ∨ k = .clear) → WellFormed 2 (Serves referenceFFT 2) none (hist1 v ++ [([], k)]) := by
    intro k hk
    refine ⟨by simp, fun _ _ => rfl, exampleFormat_valid, ?_⟩
    refine ⟨by simpa using hs, fun h => (by cases h), rfl, fun k hk => (by cases hk; exact le_rfl), ?_⟩
    rcases hk with rfl | rfl <;> exact ⟨by simp, fun h => (by cases h), trivial⟩
  have hqq : ∀ k, QuietResets (convolverOps referenceFFT) {} (hist1 v ++ [([], k)]) := fun k =>
    quiet_append _ _ _ _ hq h.2 ⟨fun _ => ⟨hpd, Or.inl rfl⟩, fun _ _ => trivial⟩
  obtain ⟨c1, r1⟩ := C49_defined hA (hw .reset (Or.inl rfl))
  have n1 := C38_quiet_resets_suffice hA r1.1 (hqq .reset)
  obtain ⟨s1, _⟩ := C38_reset_restarts_newest hA (fun blk => (by simp)) (by simp) r1 n1
  have sp : c1.spec = some exampleFormat := by
    have := r1.2
    rw [calls_append, h.2, Option.bind_some] at this
    have this : (c.call (convolverOps referenceFFT) [] .reset).bind (fun r => some r.1) = some c1 := this
    have e : c.call (convolverOps referenceFFT) [] .reset = some (c.resetFade.resetBody (convolverOps referenceFFT)) := rfl
    rw [e, Option.bind_some, resetBody_plain (c := c.resetFade) hpd hf] at this
    cases this
    exact hp
  have hB : BuiltFor referenceFFT 2 (fun _ => exampleIR) (fun _ => 64) (fun _ => exampleSpec) (hist1 v ++ [([], .reset)]) := by
    intro b hb g hg
    have hb : b ∈ [([], .prepare exampleFormat fun _ _ => 7), ([⟨1, v⟩], .process exampleBlock), ([], .reset)] := hb
    simp only [List.mem_cons, List.not_mem_nil, or_false] at hb
    rcases hb with rfl | rfl | rfl
    · cases hg
    · rw [List.mem_singleton] at hg; rw [hg]; exact ⟨exampleUsable, hv⟩
    · cases hg
  obtain ⟨c2, o2, t1, _, t2⟩ := C38_reset_exact referenceFFT_lawful (fun blk => (by simp)) (by simp) hB r1 n1 sp (i := 1) rfl (List.replicate 100 exampleBlock)
    fun b hb => (blocks_fit _ b hb).1
  obtain ⟨c3, r3⟩ := C49_defined hA (hw .clear (Or.inr rfl))
  obtain ⟨_, t3⟩ := C39_clear_makes_transparent hA r3 (C38_quiet_resets_suffice hA r3.1 (hqq .clear))
  obtain ⟨d1, g1, d2, g2, _, _, _, _, y1, y2, y3, y4, _⟩ := C33_hard_switch_after_reset (ops := convolverOps referenceFFT) rfl hA h hp ha hf (x := ⟨2, v⟩) (g := ⟨3, v⟩) hs hs
    (blk := exampleBlock) rfl le_rfl
  refine ⟨v, c, a, h, ha, ?_, hch, ⟨c', a', outs, p1, p2⟩, ⟨r, out, l1, l2, l3⟩, ⟨c1, c2, o2, r1, s1, t1, fun o ho t ht => t2 o ho t (by rw [blocks_len]; exact ht)⟩,
    ⟨c3, r3, t3⟩, d1, g1, d2, g2, y1, y2, y3, y4⟩
  unfold slotIds
  rw [ha, hf, hpd]
  show (some a.id, none, none) = _
  rw [hai]

/-- A format for blocks longer than a fade. -/
def longFormat : ProcSpec := ⟨48000, 8192, 2⟩

/-- **C35** for a response that has to wait: response 1 plays, 2 is being faded to and 3 waits; a block of 8000 samples ends the fade to 2, and the fade to 3 begins. -/
example : ∃ v c c' e f g, Reaches (convolverOps referenceFFT) 2 (Serves referenceFFT 2)
      [([], .prepare longFormat fun _ _ => 7), ([⟨1, v⟩], .process exampleBlock), ([⟨2, v⟩, ⟨3, v⟩], .process exampleBlock)] c ∧
    c.call (convolverOps referenceFFT) [] (.process ⟨2, 8000, fun _ _ => 1⟩) = some (c', e) ∧ slotIds c' = (some 2, some 3, none) ∧
    c'.active = some f ∧ c'.fade = some g ∧ Crossfades linearFades (convolverOps referenceFFT) 2 8192 (Serves referenceFFT 2) 4800 0 f g [] c' := by
  obtain ⟨v, hv, hs⟩ := example_convolver
  have hA := accepts_convolver referenceFFT_lawful 2
  have hvalid : ValidFormat 2 longFormat := ⟨rfl, by decide, by norm_num [longFormat], by norm_num [longFormat]⟩
  have hrate : longFormat.sampleRate = ((48000 : ℕ) : ℚ) := by norm_num [longFormat]
  obtain ⟨h1, h2⟩ := example_lengths
  obtain ⟨_, c, _, _, _, _, _, h, hq, hp, q9, q10, q11⟩ := reachable_states hA
    (a := ⟨1, v⟩) (f := ⟨2, v⟩) (q := ⟨3, v⟩) hs hs hs hvalid (fun _ _ => 7) (z := exampleBlock) rfl (by decide) h1 h2
  obtain ⟨f, hf, hfi⟩ := slot_of q10
  have hB : BuiltFor referenceFFT 2 (fun _ => exampleIR) (fun _ => 64) (fun _ => exampleSpec)
      [([], .prepare longFormat fun _ _ => 7), ([⟨1, v⟩], .process exampleBlock), ([⟨2, v⟩, ⟨3, v⟩], .process exampleBlock)] := by
    intro b hb g hg
    simp only [List.mem_cons, List.not_mem_nil, or_false] at hb
    rcases hb with rfl | rfl | rfl
    · cases hg
    · rw [List.mem_singleton] at hg; rw [hg]; exact ⟨exampleUsable, hv⟩
    · simp only [List.mem_cons, List.not_mem_nil, or_false] at hg
      rcases hg with rfl | rfl <;> exact ⟨exampleUsable, hv⟩
  have hfade : ∀ g : Held Convolver, (∃ past, Heard referenceFFT exampleIR 64 exampleSpec 2 past g.obj) →
      expectedFade 48000 ((convolverOps referenceFFT).numSamples g.obj) ((convolverOps referenceFFT).strategy g.obj) = (.crossfade, ((4800 : ℕ) : ℤ)) := by
    rintro g ⟨past, hH⟩
    obtain ⟨e1, e2⟩ := heard_fixed hH
    have e1 : (convolverOps referenceFFT).numSamples g.obj = 5000 := e1
    have e2 : (convolverOps referenceFFT).strategy g.obj = .crossfade := by
      show g.obj.spec.fadeStrategy = _
      rw [e2]; rfl
    rw [e1, e2]
    exact fade_crossfade
  have hk := keeps_of_reaches referenceFFT_lawful hB h
  obtain ⟨a, j, ha, hj, hx⟩ := C33_crossfade (ops := convolverOps referenceFFT) rfl hA h hq hp hrate (by norm_num) hf (n := 4800) (hfade f (hk.2.1 f hf).2)
  have hfit : Fits 2 longFormat.maximumBlockSize (Serves referenceFFT 2) [(([] : List (Held Convolver)), ⟨2, 8000, fun _ _ => 1⟩)] := by
    intro b hb
    rw [List.mem_singleton] at hb
    subst hb
    exact ⟨rfl, by show 8000 ≤ 8192; norm_num, fun g hg => (by cases hg)⟩
  obtain ⟨c', outs, a', olds, blocks', f', news, ep, _, _, _, _, _, _, hover⟩ := hx _ hfit (by simp) (by show j + 0 < 4800; omega)
  obtain ⟨o1, o2, o3⟩ := hover (by show 4800 ≤ j + (8000 + 0); omega)
  rw [q11] at o2
  have o2 : c'.fade = some ⟨3, v⟩ := o2
  have ep : (c.call (convolverOps referenceFFT) [] (.process ⟨2, 8000, fun _ _ => 1⟩)).bind
      (fun r => (some (r.1, ([] : List Buf))).map fun s => (s.1, r.2.out.toList ++ s.2)) = some (c', outs) := ep
  cases hc : c.call (convolverOps referenceFFT) [] (.process ⟨2, 8000, fun _ _ => 1⟩) with
  | none => rw [hc] at ep; cases ep
  | some r =>
    obtain ⟨d, e⟩ := r
    rw [hc] at ep
    simp only [Option.bind_some, Option.map_some, Option.some.injEq, Prod.mk.injEq] at ep
    obtain ⟨rfl, _⟩ := ep
    have ai : a.id = 1 := by
      rw [ha] at q9
      exact Option.some.inj q9
    have hn := C35_next_fade (ops := convolverOps referenceFFT) rfl hA h hq hp hrate (by norm_num) ha hf (by rw [ai, hfi]; norm_num) hfit hc o1 rfl o2
    have hn : FadesAsExpected linearFades (convolverOps referenceFFT) 2 8192 (Serves referenceFFT 2)
      (expectedFade 48000 ((convolverOps referenceFFT).numSamples v) ((convolverOps referenceFFT).strategy v)) ⟨f.id, f'⟩ ⟨3, v⟩ [] d := hn
    rw [hfade ⟨3, v⟩ ⟨[], Heard_fresh hv⟩] at hn
    refine ⟨v, c, d, e, _, _, h, hc, ?_, o1, o2, hn⟩
    unfold slotIds
    rw [o1, o2, o3]
    show (some f.id, _, none) = _
    rw [hfi]
    rfl

end Zones.Props
