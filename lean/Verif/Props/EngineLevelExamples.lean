import Verif.Props.EngineLevel
import Verif.Props.FloatEngineExamples

/-!
# C78–C81 at work, and that the bound of C78 cannot be improved
-/

open Zones.Spec Zones.Model Zones.Proofs Zones.Proofs.R Finset

namespace Zones.Props

/-- **C78.** The bound cannot be improved: for every level `X` and gain `G ≥ 1` there is a history meeting the hypotheses of C78
whose output reaches `G · X`. -/
theorem C78_bound_attained {F : RealFFT} (hF : Lawful F) {X G : ℝ} (hX : 0 ≤ X) (hG : 1 ≤ G) :
    ∃ (irs : ℕ → Buf) (maxBs : ℕ → ℕ) (specs : ℕ → ConvolverSpec) (hist : List (List (Held Convolver) × Call)) (batch : List (Held Convolver)) (blk : Buf),
      WellFormed 1 (Serves F 1) none (hist ++ [(batch, .process blk)]) ∧ BuiltFor F 1 irs maxBs specs (hist ++ [(batch, .process blk)]) ∧
      InputAtMost X (hist ++ [(batch, .process blk)]) ∧
      (∀ b ∈ hist ++ [(batch, .process blk)], ∀ g ∈ b.1, ∀ o < 1, responseGain (irs g.id) (specs g.id).outputRouting o ≤ G) ∧
      ∃ c c' e out, ({} : Core Convolver).calls (convolverOps F) hist = some c ∧ c.call (convolverOps F) batch (.process blk) = some (c', e) ∧
        e.out = some out ∧ 0 < blk.n ∧ out.data 0 0 = max 1 G * X := by
  let ir : Buf := ⟨1, 1, fun _ _ => G⟩
  let spec : ConvolverSpec := { inputRouting := [0], outputRouting := [0] }
  let p : ProcSpec := ⟨48000, 16, 1⟩
  let blk : Buf := ⟨1, 1, fun _ _ => X⟩
  have hU : Usable ir 16 spec 1 :=
    ⟨by norm_num [ir], by norm_num [ir], fun c hc => ⟨0, by obtain rfl : c = 0 := Nat.lt_one_iff.1 hc; rfl, by decide, by decide⟩,
      fun c hc => ⟨0, by obtain rfl : c = 0 := Nat.lt_one_iff.1 hc; rfl, by decide, by decide⟩, Or.inl (by norm_num)⟩
  have hp : ValidFormat 1 p := ⟨rfl, by decide, by norm_num [p], by norm_num [p]⟩
  obtain ⟨v, e0, _⟩ := usable_create hF hU junk (fun _ _ => 7)
  have hv : Fresh F ir 16 spec 1 v := ⟨_, _, v, e0, Or.inl rfl⟩
  have hs : Serves F 1 v := ⟨ir, 16, spec, [], hU, Heard_fresh hv⟩
  let hist : List (List (Held Convolver) × Call) := [([], .prepare p fun _ _ => 7)]
  have hw : WellFormed 1 (Serves F 1) none (hist ++ [([⟨0, v⟩], .process blk)]) := by
    refine ⟨fun _ hg => (by cases hg), fun _ h => absurd rfl (h p fun _ _ => 7), hp, ?_, fun h => (by cases h), rfl, fun m hm => ?_, trivial⟩
    · intro g hg
      rw [List.mem_singleton.1 hg]
      exact hs
    · cases hm
      show 1 ≤ 16
      norm_num
  have hB : BuiltFor F 1 (fun _ => ir) (fun _ => 16) (fun _ => spec) (hist ++ [([⟨0, v⟩], .process blk)]) := by
    intro b hb g hg
    rcases List.mem_cons.1 hb with rfl | hb
    · cases hg
    · rw [List.mem_singleton.1 hb] at hg
      rw [List.mem_singleton.1 hg]
      exact ⟨hU, hv⟩
  have hI : InputAtMost X (hist ++ [([⟨0, v⟩], .process blk)]) := by
    intro b hb z hz
    rcases List.mem_cons.1 hb with rfl | hb
    · cases hz
    · rw [List.mem_singleton.1 hb] at hz
      cases hz
      intro ch _ i _
      exact (abs_of_nonneg hX).le
  have hgain : ∀ o < 1, responseGain ir spec.outputRouting o ≤ G := by
    intro o ho
    obtain rfl : o = 0 := Nat.lt_one_iff.1 ho
    show ∑ c ∈ range 1, (if channelAt [0] c = 0 then ∑ k ∈ range 1, |G| else 0) ≤ G
    rw [sum_range_one, sum_range_one, if_pos (by rfl), abs_of_nonneg (by linarith)]
  obtain ⟨c, M, ec, hk, _⟩ := calls_known (accepts_convolver hF 1) hist none {} (start_known 1 (Serves F 1)) ⟨hw.1, hw.2.1, hw.2.2.1, trivial⟩
  have hfirst : c.active = none ∧ c.fade = none ∧ c.spec = some p := by
    cases ec
    exact ⟨rfl, rfl, rfl⟩
  obtain ⟨c', g', outs, e1, e2, sh, _, _⟩ := C42_first_response_plays_at_once (accepts_convolver hF 1) (hist := hist) ⟨⟨hw.1, hw.2.1, hw.2.2.1, trivial⟩, ec⟩ hfirst.2.2
    hfirst.1 hfirst.2.1 (g := ⟨0, v⟩) hs blk [] (by intro x hx; rw [List.mem_singleton.1 hx])
  obtain ⟨v2, outs', e3, _, _, hd⟩ := Heard_feed hF hU (Heard_fresh hv) [blk] (by intro x hx; rw [List.mem_singleton.1 hx])
  have e2' : Spec.feed (Convolver.process F) v [blk] = some (g', outs) := e2
  rw [e3] at e2'
  cases e2'
  have hd0 := hd 0 (by norm_num) 0 (by show 0 < 1 + 0; norm_num)
  have hval : routedConv ir spec.inputRouting spec.outputRouting (stream ([] ++ [blk])) 0 (totalLen [] + 0) = G * X := by
    show ∑ c ∈ range 1, (if channelAt [0] c = 0 then ∑ k ∈ range 1, (if k ≤ 0 + 0 then G * (stream [blk] (channelAt [0] c) (0 + 0 - k)) else 0) else 0) = G * X
    rw [sum_range_one, sum_range_one, if_pos (by rfl), if_pos (by norm_num)]
    congr 1
  rw [hval] at hd0
  refine ⟨fun _ => ir, fun _ => 16, fun _ => spec, hist, [⟨0, v⟩], blk, hw, hB, hI, fun b hb g hg => hgain, ?_⟩
  unfold Core.play at e1
  cases hcall : c.call (convolverOps F) [⟨0, v⟩] (.process blk) with
  | none => rw [hcall] at e1; cases e1
  | some r =>
    rw [hcall] at e1
    simp only [Option.bind_some, List.map_nil, Core.play, Option.map_some, Option.some.injEq, Prod.mk.injEq, List.append_nil] at e1
    obtain ⟨_, e1⟩ := e1
    cases hr : r.2.out with
    | none =>
      rw [hr] at e1
      rw [← e1] at sh
      cases sh
    | some z =>
      rw [hr] at e1
      rw [← e1] at sh hd0
      have hz := (List.forall₂_cons.1 sh).1.2
      refine ⟨c, r.1, r.2, z, ec, hcall, hr, by norm_num [blk], ?_⟩
      rw [max_eq_right hG, ← hd0]
      show _ = (if 0 < z.n then z.data 0 0 else _)
      rw [if_pos (by rw [← hz]; norm_num [blk])]

/-- A history with responses arriving together and in fades, a reset and a clear while one fades in and another waits, and a re-prepare. -/
noncomputable def wildHistory (v : Convolver) : List (List (Held Convolver) × Call) :=
  [([], .prepare exampleFormat fun _ _ => 7), ([⟨1, v⟩], .process exampleBlock), ([⟨2, v⟩, ⟨3, v⟩], .process exampleBlock), ([⟨4, v⟩], .reset),
    ([], .process exampleBlock), ([⟨5, v⟩, ⟨6, v⟩], .process exampleBlock), ([⟨7, v⟩], .clear), ([⟨8, v⟩], .prepare exampleFormat fun _ _ => 7),
    ([], .process exampleBlock)]

theorem wild_wellFormed {Good : Convolver → Prop} {v : Convolver} (h : Good v) : WellFormed 2 Good none (wildHistory v ++ [([⟨9, v⟩], .process exampleBlock)]) := by
  unfold wildHistory
  have hp := exampleFormat_valid
  simp only [List.cons_append, List.nil_append, WellFormed]
  simp [h, hp, exampleBlock, show exampleFormat.maximumBlockSize = 64 from rfl]

theorem wild_level (v : Convolver) : InputAtMost 65 (wildHistory v ++ [([⟨9, v⟩], .process exampleBlock)]) := by
  have key : AtMost 65 exampleBlock := by
    intro ch hc i hi
    have hc : ch < 2 := hc
    have hi : i < 64 := hi
    show |((ch : ℝ) + i)| ≤ 65
    rw [abs_of_nonneg (by positivity)]
    have h1 : (ch : ℝ) ≤ 1 := by exact_mod_cast (by omega : ch ≤ 1)
    have h2 : (i : ℝ) ≤ 63 := by exact_mod_cast (by omega : i ≤ 63)
    linarith
  intro b hb z hz
  unfold wildHistory at hb
  simp only [List.cons_append, List.nil_append, List.mem_cons, List.not_mem_nil, or_false] at hb
  rcases hb with rfl | rfl | rfl | rfl | rfl | rfl | rfl | rfl | rfl | rfl <;> cases hz <;> exact key

/-- C78 applies to it. -/
example : ∃ v c c' e out, ({} : Core Convolver).calls (convolverOps referenceFFT) (wildHistory v) = some c ∧
    c.call (convolverOps referenceFFT) [⟨9, v⟩] (.process exampleBlock) = some (c', e) ∧ e.out = some out ∧ out.ch = 2 ∧ out.n = exampleBlock.n ∧
    AtMost (max 1 (responseGain exampleIR exampleSpec.outputRouting 0 + responseGain exampleIR exampleSpec.outputRouting 1) * 65) out := by
  obtain ⟨v, hv, hs⟩ := example_convolver
  refine ⟨v, C78_level_bounded referenceFFT_lawful (irs := fun _ => exampleIR) (maxBs := fun _ => 64) (specs := fun _ => exampleSpec) (by norm_num)
    (wild_wellFormed hs) ?_ (wild_level v) ?_⟩
  · intro b hb g hg
    have : g.obj = v := by
      unfold wildHistory at hb
      simp only [List.cons_append, List.nil_append, List.mem_cons, List.not_mem_nil, or_false] at hb
      rcases hb with rfl | rfl | rfl | rfl | rfl | rfl | rfl | rfl | rfl | rfl <;> simp at hg <;> (try rcases hg with rfl | rfl) <;> (try rw [hg]) <;> (try rfl)
    rw [this]
    exact ⟨exampleUsable, hv⟩
  · intro b _ g _ o ho
    have h0 : ∀ o, 0 ≤ responseGain exampleIR exampleSpec.outputRouting o := fun o =>
      sum_nonneg fun c _ => by split; exacts [sum_nonneg fun k _ => abs_nonneg _, le_rfl]
    obtain rfl | rfl : o = 0 ∨ o = 1 := by omega
    · linarith [h0 1]
    · linarith [h0 0]

/-- A block of silence, with rubbish outside of it. -/
noncomputable def silentBlock : Buf := ⟨2, 64, fun ch i => if ch < 2 ∧ i < 64 then 0 else 7⟩

/-- Silence, while two further responses fade in. -/
noncomputable def silence (v : Convolver) (k : ℕ) : List (List (Held Convolver) × Call) :=
  ([⟨10, v⟩, ⟨11, v⟩], .process silentBlock) :: List.replicate k ([], .process silentBlock)

theorem silence_level (v : Convolver) (k : ℕ) : InputAtMost 0 (silence v k ++ [([⟨9, v⟩], .process silentBlock)]) := by
  have key : AtMost 0 silentBlock := by
    intro ch hc i hi
    show |(if ch < 2 ∧ i < 64 then (0 : ℝ) else 7)| ≤ 0
    rw [if_pos ⟨hc, hi⟩, abs_zero]
  intro b hb z hz
  unfold silence at hb
  simp only [List.cons_append, List.mem_cons, List.mem_append, List.mem_replicate, List.not_mem_nil, or_false] at hb
  rcases hb with rfl | ⟨_, rfl⟩ | rfl <;> cases hz <;> exact key

theorem samplesIn_silence (v : Convolver) (k : ℕ) : samplesIn (silence v k) = 64 * (k + 1) := by
  have h : ∀ k, samplesIn (List.replicate k (([], .process silentBlock) : List (Held Convolver) × Call)) = 64 * k := by
    intro k
    induction k with
    | zero => rfl
    | succ k ih => rw [List.replicate_succ, samplesIn, ih]; show 64 + 64 * k = _; ring
  rw [silence, samplesIn, h]
  show 64 + 64 * k = _
  ring

theorem silence_wellFormed {Good : Convolver → Prop} {v : Convolver} (h : Good v) (k : ℕ) :
    WellFormed 2 Good none (wildHistory v ++ silence v k ++ [([⟨9, v⟩], .process silentBlock)]) := by
  have hk : ∀ k, WellFormed 2 Good (some 64) (List.replicate k ([], .process silentBlock) ++ [([⟨9, v⟩], .process silentBlock)]) := by
    intro k
    induction k with
    | zero => simp [WellFormed, h, silentBlock]
    | succ k ih =>
      rw [List.replicate_succ, List.cons_append]
      exact ⟨fun _ hg => (by cases hg), fun hc => (by cases hc), rfl, fun m hm => by cases hm; exact le_rfl, ih⟩
  have hp := exampleFormat_valid
  unfold wildHistory silence
  simp only [List.cons_append, List.nil_append, WellFormed]
  simp [h, hp, exampleBlock, show exampleFormat.maximumBlockSize = 64 from rfl, show silentBlock.ch = 2 from rfl, show silentBlock.n = 64 from rfl]
  exact hk k

theorem wild_objects (v : Convolver) (k : ℕ) : ∀ b ∈ wildHistory v ++ silence v k ++ [([⟨9, v⟩], .process silentBlock)], ∀ g ∈ b.1, g.obj = v := by
  intro b hb g hg
  unfold wildHistory silence at hb
  simp only [List.cons_append, List.nil_append, List.mem_cons, List.mem_append, List.mem_replicate, List.not_mem_nil, or_false] at hb
  rcases hb with rfl | rfl | rfl | rfl | rfl | rfl | rfl | rfl | rfl | rfl | ⟨_, rfl⟩ | rfl <;> simp at hg <;> (try rcases hg with rfl | rfl) <;> (try rw [hg]) <;> (try rfl)

/-- C80 applies to the same history, followed by 6464 samples of silence. -/
example : ∃ v c c' e out, ({} : Core Convolver).calls (convolverOps referenceFFT) (wildHistory v ++ silence v 100) = some c ∧
    c.call (convolverOps referenceFFT) [⟨9, v⟩] (.process silentBlock) = some (c', e) ∧ e.out = some out ∧ out.ch = 2 ∧ out.n = silentBlock.n ∧
    ∀ ch < 2, ∀ i < silentBlock.n, out.data ch i = 0 := by
  obtain ⟨v, hv, hs⟩ := example_convolver
  refine ⟨v, C80_tail_ends referenceFFT_lawful (irs := fun _ => exampleIR) (maxBs := fun _ => 64) (specs := fun _ => exampleSpec)
    (silence_wellFormed hs 100) ?_ (silence_level v 100) ?_⟩
  · intro b hb g hg
    rw [wild_objects v 100 b hb g hg]
    exact ⟨exampleUsable, hv⟩
  · intro b _ g _
    rw [samplesIn_silence]
    show 5000 ≤ _
    norm_num

section
noncomputable local instance : Arith := single

/-- C79 applies to it: binary32 at 48 kHz. -/
example : ∃ v G c c' e out, ({} : Core Convolver).calls singleOps (wildHistory v) = some c ∧
    c.call singleOps [⟨9, v⟩] (.process exampleBlock) = some (c', e) ∧ e.out = some out ∧ out.ch = 2 ∧ out.n = exampleBlock.n ∧
    AtMost ((1 + 2⁻¹ ^ 24) ^ (8 * 48000 + 6) * (max 1 G * 65)) out := by
  obtain ⟨v, hv, hs⟩ := example_convolverR
  let q : ℕ → ℝ := fun o => responseGain exampleIR exampleSpec.outputRouting o + errorFactor (√2 * (2 * 2⁻¹ ^ 24 + (2⁻¹ ^ 24) ^ 2)) (2⁻¹ ^ 24) (2⁻¹ ^ 24) 9 18 2 exampleIR.ch *
        outputWeight 64 exampleIR [⟨1, 9⟩, ⟨4, 18⟩] exampleSpec.outputRouting (fun _ => 1) o
  refine ⟨v, max (q 0) (q 1), C79_level_bounded_in_float (single_accurate 9) singleFFT_approx accurateGains_single (R := 48000) (by norm_num)
    (irs := fun _ => exampleIR) (maxBs := fun _ => 64) (specs := fun _ => exampleSpec) (Ks := fun _ => 18) (Bs := fun _ => 64)
    (schs := fun _ => [⟨1, 9⟩, ⟨4, 18⟩]) (by norm_num) (wild_wellFormed hs) ?_ (wild_level v) ?_ ?_⟩
  · intro b hb g hg
    have : g.obj = v := by
      unfold wildHistory at hb
      simp only [List.cons_append, List.nil_append, List.mem_cons, List.not_mem_nil, or_false] at hb
      rcases hb with rfl | rfl | rfl | rfl | rfl | rfl | rfl | rfl | rfl | rfl <;> simp at hg <;> (try rcases hg with rfl | rfl) <;> (try rw [hg]) <;> (try rfl)
    rw [this]
    exact ⟨exampleUsable, example_cut, hv⟩
  · intro b hb p m hm
    have : p = exampleFormat := by
      unfold wildHistory at hb
      simp only [List.mem_cons, List.not_mem_nil, or_false] at hb
      rcases hb with rfl | rfl | rfl | rfl | rfl | rfl | rfl | rfl | rfl <;> cases hm <;> rfl
    rw [this]
    exact ⟨48000, by norm_num [exampleFormat], le_rfl⟩
  · intro b _ g _ o ho
    obtain rfl | rfl : o = 0 ∨ o = 1 := by omega
    · exact le_max_left (q 0) (q 1)
    · exact le_max_right (q 0) (q 1)

/-- C81 applies to the same history, followed by 6464 samples of silence. -/
example : ∃ v c c' e out, ({} : Core Convolver).calls singleOps (wildHistory v ++ silence v 100) = some c ∧
    c.call singleOps [⟨9, v⟩] (.process silentBlock) = some (c', e) ∧ e.out = some out ∧ out.ch = 2 ∧ out.n = silentBlock.n ∧
    ∀ ch < 2, ∀ i < silentBlock.n, out.data ch i = 0 := by
  obtain ⟨v, hv, hs⟩ := example_convolverR
  refine ⟨v, C81_tail_ends_in_float (single_accurate 9) singleFFT_approx accurateGains_single (R := 48000) (by norm_num)
    (irs := fun _ => exampleIR) (maxBs := fun _ => 64) (specs := fun _ => exampleSpec) (Ks := fun _ => 18) (Bs := fun _ => 64)
    (schs := fun _ => [⟨1, 9⟩, ⟨4, 18⟩]) (silence_wellFormed hs 100) ?_ (silence_level v 100) ?_ ?_⟩
  · intro b hb g hg
    rw [wild_objects v 100 b hb g hg]
    exact ⟨exampleUsable, example_cut, hv⟩
  · intro b _ g _
    rw [samplesIn_silence]
    show 5000 + 2 ^ 9 + 64 ≤ _
    norm_num
  · intro b hb p m hm
    have : p = exampleFormat := by
      unfold wildHistory silence at hb
      simp only [List.cons_append, List.nil_append, List.mem_cons, List.mem_replicate] at hb
      rcases hb with rfl | rfl | rfl | rfl | rfl | rfl | rfl | rfl | rfl | rfl | ⟨_, rfl⟩ <;> cases hm <;> rfl
    rw [this]
    exact ⟨48000, by norm_num [exampleFormat], le_rfl⟩

end

end Zones.Props
