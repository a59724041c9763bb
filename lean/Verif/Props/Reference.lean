import Verif.Props.ReferenceProof
import Verif.Props.EngineExamples

/-!
# The engine does what the reference engine does: C85
-/

open Zones.Spec Zones.Model Zones.Proofs

namespace Zones.Props

/-- A convolver for response `i` that has heard `h` (or blocks with the same samples). -/
def HeardAs (F : RealFFT) (N : ℕ) (irs : ℕ → Buf) (maxBs : ℕ → ℕ) (specs : ℕ → ConvolverSpec) (i : ℕ) (h : List Buf) (v : Convolver) : Prop :=
  Usable (irs i) (maxBs i) (specs i) N ∧ ∃ past, Heard F (irs i) (maxBs i) (specs i) N past v ∧ SameSamples N h past

theorem heard_fixed {F : RealFFT} {ir : Buf} {maxB N : ℕ} {spec : ConvolverSpec} {past : List Buf} {v : Convolver} (h : Heard F ir maxB spec N past v) :
    v.numSamples = ir.n ∧ v.spec = spec := by
  obtain ⟨_, c, outs, hf, e⟩ := h
  obtain ⟨h1, h2⟩ := fresh_fixed hf
  obtain ⟨h3, h4⟩ := history_fixed _ (feed_history (reset := Convolver.reset) past c v outs e)
  exact ⟨h3.trans h1, h4.trans h2⟩

theorem sameSamples_append {N : ℕ} {xs ys xs' ys' : List Buf} (h : SameSamples N xs ys) (h' : SameSamples N xs' ys') : SameSamples N (xs ++ xs') (ys ++ ys') :=
  List.rel_append h h'

theorem voices_exact {F : RealFFT} (hF : Lawful F) (N : ℕ) (irs : ℕ → Buf) (maxBs : ℕ → ℕ) (specs : ℕ → ConvolverSpec) :
    Voices (convolverOps F) N (Serves F N) irs specs (HeardAs F N irs maxBs specs) where
  good := fun {i h v} ⟨hU, past, hH, _⟩ => ⟨_, _, _, past, hU, hH⟩
  fixed := fun {i h v} ⟨_, past, hH, _⟩ => by
    obtain ⟨h1, h2⟩ := heard_fixed hH
    exact ⟨h1, by show v.spec.fadeStrategy = _; rw [h2]⟩
  hears := fun {i h v blk blk' v' out} ⟨hU, past, hH, hs⟩ hb e => by
    have e : Convolver.process F v blk' = some (v', out) := e
    obtain ⟨v2, outs, e2, _, hh, _⟩ := Heard_feed hF hU hH [blk'] (by simpa using hb.2.1)
    rw [Spec.feed, e, Option.bind_some, Spec.feed] at e2
    cases e2
    exact ⟨hU, past ++ [blk'], hh, sameSamples_append hs (.cons hb .nil)⟩
  reset := fun {i h v} ⟨hU, past, hH, _⟩ => ⟨hU, [], Heard_fresh (Heard_reset hH), .nil⟩

/-- What a voice makes is the convolution. -/
theorem makes_exact {F : RealFFT} (hF : Lawful F) {N : ℕ} {irs : ℕ → Buf} {maxBs : ℕ → ℕ} {specs : ℕ → ConvolverSpec} {a : Voice} {blk out : Buf}
    (h : Makes (convolverOps F) N (HeardAs F N irs maxBs specs) a blk out) : ∀ o < N, ∀ i < blk.n, out.data o i = a.sound irs specs blk o i := by
  intro o ho i hi
  obtain ⟨v, blk', v', ⟨hU, past, hH, hs⟩, hb, e⟩ := h
  have e : Convolver.process F v blk' = some (v', out) := e
  obtain ⟨v2, outs, e2, sh, _, hd⟩ := Heard_feed hF hU hH [blk'] (by simpa using hb.2.1)
  rw [Spec.feed, e, Option.bind_some, Spec.feed] at e2
  cases e2
  have hn : out.n = blk'.n := by cases sh with | cons h _ => exact h.2.symm
  have hi' : i < blk'.n := by rw [← hb.2.2.1]; exact hi
  have := hd o ho i (by simpa [totalLen] using hi')
  have hst : stream [out] o i = out.data o i := by
    simp only [stream]
    rw [if_pos (by omega)]
  have e3 : stream ([out] ++ []) o i = out.data o i := by simpa using hst
  have hall := sameSamples_append hs (.cons hb .nil : SameSamples N [blk] [blk'])
  rw [← hst]
  refine this.trans ?_
  unfold Voice.sound
  rw [Proofs.SameSamples.totalLen hs]
  refine routedConv_congr fun c hc _ m hm => ?_
  refine Proofs.SameSamples.stream hall _ (route_of_valid hU.inputs c hc).2 m ?_
  rw [totalLen_append]
  simp only [totalLen]
  omega

theorem makesOf_exact {F : RealFFT} (hF : Lawful F) {N : ℕ} {irs : ℕ → Buf} {maxBs : ℕ → ℕ} {specs : ℕ → ConvolverSpec} {a : Option Voice} {blk out : Buf}
    (h : MakesOf (convolverOps F) N (HeardAs F N irs maxBs specs) blk out a) : ∀ o < N, ∀ i < blk.n, out.data o i = soundOf irs specs blk o i a := by
  cases a with
  | none => rw [show out = blk from h]; exact fun _ _ _ _ => rfl
  | some a => exact makes_exact hF h

theorem emits_exact {F : RealFFT} (hF : Lawful F) {N : ℕ} {irs : ℕ → Buf} {maxBs : ℕ → ℕ} {specs : ℕ → ConvolverSpec} {s : Stage} {blk out : Buf}
    (h : Emits linearFades (convolverOps F) N (HeardAs F N irs maxBs specs) blk out s) : ∀ o < N, ∀ i < blk.n, out.data o i = s.sound irs specs blk o i := by
  intro o ho i hi
  cases s with
  | steady a _ => exact makesOf_exact hF h o ho i hi
  | fading a f w p =>
    obtain ⟨old, new, h1, h2, h3⟩ := h
    have h3 := h3 o ho i hi
    show _ = p.mix i (soundOf irs specs blk o i a) (f.sound irs specs blk o i)
    rw [← makesOf_exact hF h1 o ho i hi, ← makes_exact hF h2 o ho i hi]
    cases p with
    | crossfade n j => exact h3
    | fadeOut n j => exact h3
    | fadeIn n j => exact h3
    | stuck k =>
      cases k with
      | crossfade =>
        rw [show out.data o i = old.data o i * 1 + new.data o i * 0 from h3]
        show _ = old.data o i
        ring
      | inOut =>
        rw [show out.data o i = new.data o i * 0 from h3]
        show _ = (0 : ℝ)
        ring
    | jump k =>
      cases k with
      | crossfade =>
        rw [show out.data o i = old.data o i * 0 + new.data o i * 1 from h3]
        show _ = new.data o i
        ring
      | inOut =>
        rw [show out.data o i = new.data o i * 1 from h3]
        show _ = new.data o i
        ring

/-- **C85.** The engine does, sample for sample, what the reference engine does: for every history of calls a host may make, resets, clears and arrivals in any order,
the blocks `process` leaves behind contain the samples the reference engine renders, and the same responses are playing, being faded to and waiting afterwards. -/
theorem C85_reference {F : RealFFT} (hF : Lawful F) {N : ℕ} {irs : ℕ → Buf} {maxBs : ℕ → ℕ} {specs : ℕ → ConvolverSpec}
    {hist : List (List (Held Convolver) × Call)} (hB : BuiltFor F N irs maxBs specs hist) (hw : WellFormed N (Serves F N) none hist) (hr : WholeRates hist) :
    ∃ c outs, perform (convolverOps F) {} hist = some (c, outs) ∧ slotIds c = (Reference.run irs specs {} (numbered hist)).1.stage.ids ∧
      SameSamples N outs (rendered irs specs (Reference.run irs specs {} (numbered hist)).2) := by
  obtain ⟨c, outs, M, ep, hk, ha, he⟩ := agrees_run (K := linearFades) (ops := convolverOps F) implements_exact (accepts_convolver hF N) (voices_exact hF N irs maxBs specs) hist
    (start_known N _) hw (fun b hb g hg => ⟨(hB b hb g hg).1, [], Heard_fresh (hB b hb g hg).2, .nil⟩) hr (r := {}) ⟨false, rfl⟩
  refine ⟨c, outs, ep, ?_, ?_⟩
  · cases M with
    | none =>
      obtain ⟨h, ha⟩ := ha
      obtain ⟨⟨h1, h2, h3⟩, _⟩ := hk
      rw [ha]
      unfold slotIds
      rw [h1, h2, h3]; rfl
    | some m => exact follows_ids ha.1
  · clear ep ha hk
    generalize (Reference.run irs specs {} (numbered hist)).2 = tr at he
    unfold rendered
    induction he with
    | nil => exact .nil
    | cons h _ ih =>
      refine .cons ⟨h.1, h.2.1, h.2.2.1, fun o ho i hi => ?_⟩ ih
      exact emits_exact hF h.2.2.2 o ho i (by rw [← h.2.2.1]; exact hi)

theorem numbered_zip {V : Type} (hist : List (List (Held V) × Call)) :
    numbered hist = (hist.map fun b => b.1.map Held.id).zip (hist.map Prod.snd) := by
  unfold numbered
  rw [List.zip_map', List.map_congr_left]
  exact fun _ _ => rfl

/-- The sequential history of a concurrent execution, and that it is about convolvers made as requested. -/
theorem concurrent_built {F : RealFFT} {N e : ℕ} {build : Buf × ConvolverSpec → ProcSpec → Convolver} (hB : Constructs F N build)
    {ls : List (Label (Buf × ConvolverSpec))} {s : Sys Convolver (Buf × ConvolverSpec)}
    (h : Exec (convolverOps F) build ls s) (ha : (s.engs e).status = .alive) (hi : (s.engs e).pc = .idle)
    (hH : HostBehaves N none (callsIn e ls)) (hU : UsableLoads N e ls) :
    ∃ hist m, hist.map Prod.snd = callsIn e ls ∧ hist.flatMap Prod.fst ++ (s.engs e).cmd = (s.engs e).delivered ∧ hist.map (fun b => b.1.length) = takenBy e ls ∧
      perform (convolverOps F) {} hist = some ((s.engs e).core, (s.engs e).outs) ∧ BuiltFor F N (requestedIR ls) m (requestedSpec ls) hist ∧
      WellFormed N (Serves F N) none hist := by
  obtain ⟨hist, h1, h2, ht, h3, h4⟩ := C52_sequential h ha hi
  have hReach := h4 N (Serves F N) hH (usable_good hB hU)
  have hgot := (exec_known h).origins.got e
  have hsorted := (exec_inv h).order.sorted e
  have huniq : ∀ d ∈ (s.engs e).delivered, ∀ d' ∈ (s.engs e).delivered, d.id = d'.id → d = d' := by
    intro d hd d' hd' hid
    rw [List.pairwise_iff_getElem] at hsorted
    obtain ⟨a, ha, rfl⟩ := List.getElem_of_mem hd
    obtain ⟨b, hb, rfl⟩ := List.getElem_of_mem hd'
    rcases Nat.lt_trichotomy a b with hab | hab | hab
    · have := hsorted a b ha hb hab; omega
    · subst hab; rfl
    · have := hsorted b a hb ha hab; omega
  have hex : ∀ k : ℕ, ∃ m : ℕ, ∀ d ∈ (s.engs e).delivered, d.id = k →
      Usable (requestedIR ls k) m (requestedSpec ls k) N ∧ Fresh F (requestedIR ls k) m (requestedSpec ls k) N d.obj := by
    intro k
    by_cases hk : ∃ d ∈ (s.engs e).delivered, d.id = k
    · obtain ⟨d, hdm, hdk⟩ := hk
      obtain ⟨⟨ir, cs⟩, q, g1, g2, g3⟩ := hgot d hdm
      refine ⟨q.maximumBlockSize, fun d' hd' hk' => ?_⟩
      have : d' = d := huniq d' hd' d hdm (hk'.trans hdk.symm)
      subst this
      have hu := hU _ _ _ g1 q g2
      rw [hdk] at g1
      have e1 : requestedIR ls k = ir := by unfold requestedIR; rw [g1]
      have e2 : requestedSpec ls k = cs := by unfold requestedSpec; rw [g1]
      rw [e1, e2, g3]
      exact ⟨hu, hB ir cs q hu⟩
    · exact ⟨0, fun d hd hk' => absurd ⟨d, hd, hk'⟩ hk⟩
  choose m hm using hex
  have hBuilt : BuiltFor F N (requestedIR ls) m (requestedSpec ls) hist := by
    intro b hb g hg
    have hmem : g ∈ (s.engs e).delivered := by
      rw [← h2]
      exact List.mem_append_left _ (List.mem_flatMap.mpr ⟨b, hb, hg⟩)
    exact hm g.id g hmem rfl
  exact ⟨hist, m, h1, h2, ht, h3, hBuilt, hReach.1⟩

/-- The sequential history of a concurrent execution, and that `C85_reference` is about it. -/
theorem concurrent_history {F : RealFFT} {N e : ℕ} {build : Buf × ConvolverSpec → ProcSpec → Convolver} (hB : Constructs F N build)
    {ls : List (Label (Buf × ConvolverSpec))} {s : Sys Convolver (Buf × ConvolverSpec)}
    (h : Exec (convolverOps F) build ls s) (ha : (s.engs e).status = .alive) (hi : (s.engs e).pc = .idle)
    (hH : HostBehaves N none (callsIn e ls)) (hU : UsableLoads N e ls) (hr : ∀ p ∈ formatsIn e ls, ∃ r : ℕ, p.sampleRate = r ∧ r ≤ 200000) :
    ∃ hist m, hist.map Prod.snd = callsIn e ls ∧ hist.flatMap Prod.fst ++ (s.engs e).cmd = (s.engs e).delivered ∧ hist.map (fun b => b.1.length) = takenBy e ls ∧
      perform (convolverOps F) {} hist = some ((s.engs e).core, (s.engs e).outs) ∧ BuiltFor F N (requestedIR ls) m (requestedSpec ls) hist ∧
      WellFormed N (Serves F N) none hist ∧ WholeRates hist := by
  obtain ⟨hist, m, h1, h2, ht, h3, hBuilt, hw⟩ := concurrent_built hB h ha hi hH hU
  have hrates : WholeRates hist := by
    intro b hb p g hk
    refine hr p ?_
    unfold formatsIn
    rw [List.mem_filterMap]
    exact ⟨b.2, by rw [← h1]; exact List.mem_map_of_mem hb, by rw [hk]⟩
  exact ⟨hist, m, h1, h2, ht, h3, hBuilt, hw, hrates⟩

/-- **C85.** The same in the concurrent system. Whatever the threads do, whenever an engine is between two audio-side calls everything it has output is what the reference engine
renders for the audio-side calls made to it and the `LoadIR` calls of the execution; `found` are the loads each call finds, together with those in the queue the ones delivered, in order. -/
theorem C85_concurrent {F : RealFFT} (hF : Lawful F) {N e : ℕ} {build : Buf × ConvolverSpec → ProcSpec → Convolver} (hB : Constructs F N build)
    {ls : List (Label (Buf × ConvolverSpec))} {s : Sys Convolver (Buf × ConvolverSpec)}
    (h : Exec (convolverOps F) build ls s) (ha : (s.engs e).status = .alive) (hi : (s.engs e).pc = .idle)
    (hH : HostBehaves N none (callsIn e ls)) (hU : UsableLoads N e ls) (hr : ∀ p ∈ formatsIn e ls, ∃ r : ℕ, p.sampleRate = r ∧ r ≤ 200000) :
    ∃ found : List (List ℕ), found.length = (callsIn e ls).length ∧ found.map List.length = takenBy e ls ∧ found.flatten ++ (s.engs e).cmd.map Held.id = (s.engs e).delivered.map Held.id ∧
      slotIds (s.engs e).core = (Reference.run (requestedIR ls) (requestedSpec ls) {} (found.zip (callsIn e ls))).1.stage.ids ∧
      SameSamples N (s.engs e).outs (rendered (requestedIR ls) (requestedSpec ls) (Reference.run (requestedIR ls) (requestedSpec ls) {} (found.zip (callsIn e ls))).2) := by
  obtain ⟨hist, m, h1, h2, ht, h3, hBuilt, hw, hrates⟩ := concurrent_history hB h ha hi hH hU hr
  obtain ⟨c, outs, ep, hids, hsame⟩ := C85_reference hF hBuilt hw hrates
  rw [h3] at ep
  cases ep
  rw [numbered_zip, h1] at hids hsame
  refine ⟨hist.map fun b => b.1.map Held.id, ?_, ?_, ?_, hids, hsame⟩
  · rw [List.length_map, ← h1, List.length_map]
  · rw [← ht, List.map_map]
    exact List.map_congr_left fun b _ => List.length_map _
  · rw [← h2, List.map_append, ← List.flatMap_def, List.map_flatMap]

/-! ## Concrete cases -/

theorem example_phase : firstPhase (fun _ => exampleIR) (fun _ => exampleSpec) 48000 2 = .crossfade 4800 0 := by
  unfold firstPhase
  have : expectedFade 48000 exampleIR.n exampleSpec.fadeStrategy = (.crossfade, 4800) := by
    unfold expectedFade
    rw [if_pos ⟨rfl, by norm_num [exampleIR]⟩]
    have h1 : ⌈((48000 : ℕ) : ℚ) / 10⌉ = 4800 := by rw [Int.ceil_eq_iff]; norm_num
    have h2 : ⌈(14 * (exampleIR.n : ℚ)) / 100⌉ = 700 := by rw [Int.ceil_eq_iff]; norm_num [exampleIR]
    rw [h1, h2]; norm_num
  rw [this]; rfl

/-- A history for which the hypotheses of `C85_reference` hold: responses 1, 2 and 3 arrive one after another; the engine is fading from 1 to 2 while 3 waits; then `reset` makes 3 the playing
response and leaves the fade to 2 in place. -/
example : ∃ v, let hist : List (List (Held Convolver) × Call) := [([], .prepare exampleFormat fun _ _ => 7), ([⟨1, v⟩], .process exampleBlock),
      ([⟨2, v⟩], .process exampleBlock), ([⟨3, v⟩], .process exampleBlock)]
    Lawful referenceFFT ∧ BuiltFor referenceFFT 2 (fun _ => exampleIR) (fun _ => 64) (fun _ => exampleSpec) (hist ++ [([], .reset)]) ∧
      WellFormed 2 (Serves referenceFFT 2) none (hist ++ [([], .reset)]) ∧ WholeRates (hist ++ [([], .reset)]) ∧
      (Reference.run (fun _ => exampleIR) (fun _ => exampleSpec) {} (numbered hist)).1.stage =
        .fading (some ⟨1, [exampleBlock, exampleBlock, exampleBlock]⟩) ⟨2, [exampleBlock, exampleBlock]⟩ (some 3) (.crossfade 4800 128) ∧
      (Reference.run (fun _ => exampleIR) (fun _ => exampleSpec) {} (numbered (hist ++ [([], .reset)]))).1.stage =
        .fading (some ⟨3, []⟩) ⟨2, [exampleBlock, exampleBlock]⟩ none (.stuck .crossfade) := by
  obtain ⟨v, hv, hs⟩ := example_convolver
  have hfl : ⌊exampleFormat.sampleRate⌋₊ = 48000 := by
    have : exampleFormat.sampleRate = ((48000 : ℕ) : ℚ) := by norm_num [exampleFormat]
    rw [this, Nat.floor_natCast]
  have key : (Reference.run (fun _ => exampleIR) (fun _ => exampleSpec) {} (numbered ([([], .prepare exampleFormat fun _ _ => 7), ([⟨1, v⟩], .process exampleBlock),
      ([⟨2, v⟩], .process exampleBlock), ([⟨3, v⟩], .process exampleBlock)] : List (List (Held Convolver) × Call)))).1.stage =
        .fading (some ⟨1, [exampleBlock, exampleBlock, exampleBlock]⟩) ⟨2, [exampleBlock, exampleBlock]⟩ (some 3) (.crossfade 4800 128) := by
    simp only [numbered, List.map_cons, List.map_nil, Reference.run, Reference.call, hfl, List.foldl_cons, List.foldl_nil, Stage.reset, Stage.calm, Stage.restart, Option.map_none,
      Stage.arrive, Stage.after, Option.map_some, Voice.hear, List.nil_append, List.cons_append, example_phase]
    have h1 : (Phase.crossfade 4800 0).after exampleBlock.n = some (.crossfade 4800 64) := if_pos (e := none) (show 0 + 64 < 4800 by norm_num)
    have h2 : (Phase.crossfade 4800 64).after exampleBlock.n = some (.crossfade 4800 128) := if_pos (e := none) (show 64 + 64 < 4800 by norm_num)
    simp only [h1, Stage.arrive, h2, Phase.oldHears, Phase.newHears, if_true]
    rfl
  refine ⟨v, referenceFFT_lawful, ?_, ?_, ?_, key, ?_⟩
  · intro b hb g hg
    have : g.obj = v := by
      simp only [List.cons_append, List.nil_append, List.mem_cons, List.not_mem_nil, or_false] at hb
      rcases hb with rfl | rfl | rfl | rfl | rfl <;> simp at hg <;> rw [hg]
    rw [this]
    exact ⟨exampleUsable, hv⟩
  · refine ⟨by simp, fun _ _ => rfl, exampleFormat_valid, by simpa using hs, fun h => (by cases h), rfl, fun k hk => (by cases hk; exact le_rfl), ?_⟩
    refine ⟨by simpa using hs, fun h => (by cases h), rfl, fun k hk => (by cases hk; exact le_rfl), ?_⟩
    exact ⟨by simpa using hs, fun h => (by cases h), rfl, fun k hk => (by cases hk; exact le_rfl), by simp, fun h => (by cases h), trivial⟩
  · intro b hb p g hk
    simp only [List.cons_append, List.nil_append, List.mem_cons, List.not_mem_nil, or_false] at hb
    rcases hb with rfl | rfl | rfl | rfl | rfl
    · cases hk
      exact ⟨48000, by norm_num [exampleFormat], by norm_num⟩
    all_goals cases hk
  · have hrun : ∀ (xs ys : List (List ℕ × Call)) (r : Reference), (Reference.run (fun _ => exampleIR) (fun _ => exampleSpec) r (xs ++ ys)).1 =
        (Reference.run (fun _ => exampleIR) (fun _ => exampleSpec) (Reference.run (fun _ => exampleIR) (fun _ => exampleSpec) r xs).1 ys).1 := by
      intro xs
      induction xs with
      | nil => intro ys r; rfl
      | cons x xs ih => intro ys r; exact ih ys _
    unfold numbered at key ⊢
    rw [List.map_append, hrun]
    show Stage.reset _ _ _ (Reference.stage _) _ = _
    rw [key]
    rfl

/-- An execution for which the hypotheses of `C85_concurrent` hold: an engine is created and prepared, a response is loaded and delivered, and ten blocks are processed. -/
example : ∃ (build : Buf × ConvolverSpec → ProcSpec → Convolver) (ls : List (Label (Buf × ConvolverSpec))) (s : Sys Convolver (Buf × ConvolverSpec)),
    Lawful referenceFFT ∧ Constructs referenceFFT 2 build ∧ Exec (convolverOps referenceFFT) build ls s ∧ (s.engs 0).status = .alive ∧ (s.engs 0).pc = .idle ∧
    HostBehaves 2 none (callsIn 0 ls) ∧ UsableLoads 2 0 ls ∧ (∀ p ∈ formatsIn 0 ls, ∃ r : ℕ, p.sampleRate = r ∧ r ≤ 200000) ∧
    loadsIn ls = [(0, (exampleIR, exampleSpec))] ∧ (s.engs 0).delivered.map Held.id = [0] ∧ (s.engs 0).cmd = [] ∧ (callsIn 0 ls).length = 11 := by
  obtain ⟨v0, _⟩ := example_convolver
  obtain ⟨build, hB⟩ := constructs_exists referenceFFT_lawful 2 v0
  let ops := convolverOps referenceFFT
  let req : Buf × ConvolverSpec := (exampleIR, exampleSpec)
  let pl : List (Label (Buf × ConvolverSpec)) := emptyCall 0 (.prepare exampleFormat fun _ _ => 0)
  obtain ⟨s1, h1, g1, g2, g3, s2, h2, k1, k2, k3⟩ : ∃ s1, Exec ops build ([.create 0] ++ pl) s1 ∧ (s1.engs 0).pc = .idle ∧ (s1.engs 0).status = .alive ∧ (s1.engs 0).delivered = [] ∧
      ∃ s2, Run ops build s1 (loadCall 0 req ++ jobRun 0) s2 ∧ (s2.engs 0).pc = .idle ∧ (s2.engs 0).status = .alive ∧ (s2.engs 0).delivered = [⟨0, build req exampleFormat⟩] := by
    refine ⟨_, .cons (.create rfl) (.cons (.call rfl rfl) (.cons (.service rfl) (.cons (.serviced rfl) (.cons (.body rfl rfl) (.nil _))))), rfl, rfl, rfl, _,
      (.cons (.loadLock rfl ⟨rfl, rfl⟩) (.cons (.loadRemove rfl) (.cons (.loadFlag rfl (by exact Option.some_ne_none exampleFormat)) (.cons (.loadAdd rfl rfl)
    (.cons (.pick rfl) (.cons (.build (j := ⟨0, 0, req, exampleFormat, false, .building⟩) ?_ rfl)
    (.cons (.jobLock (j := ⟨0, 0, req, exampleFormat, false, .built (build req exampleFormat)⟩) ?_ rfl rfl ⟨rfl, rfl⟩)
    (.cons (.jobPush (j := ⟨0, 0, req, exampleFormat, false, .locked (build req exampleFormat)⟩) ?_ rfl rfl rfl ?_)
    (.cons (.jobDone (j := ⟨0, 0, req, exampleFormat, false, .pushed⟩) ?_ rfl rfl) (.nil _)))))))))), ?_, ?_, ?_⟩
    · exact List.Mem.head _
    · exact List.Mem.head _
    · exact List.Mem.head _
    · show (0 : ℕ) < _
      decide
    · exact List.Mem.head _
    · rfl
    · rfl
    · rfl
  have hx := exec_append h1 h2
  have hcalls : callsIn 0 ([.create 0] ++ pl ++ (loadCall 0 req ++ jobRun 0)) = [.prepare exampleFormat fun _ _ => 0] := rfl
  have hloads : loadsIn ([.create 0] ++ pl ++ (loadCall 0 req ++ jobRun 0)) = [(0, req)] := rfl
  have hU : UsableLoads 2 0 ([.create 0] ++ pl ++ (loadCall 0 req ++ jobRun 0)) := by
    intro i ir cs hi p hp
    unfold formatsIn at hp
    rw [hcalls] at hp
    rw [hloads] at hi
    have hp : p ∈ [exampleFormat] := hp
    rw [List.mem_singleton] at hp
    have := List.mem_of_getElem? hi
    rw [List.mem_singleton] at this
    have : (ir, cs) = (exampleIR, exampleSpec) := congrArg Prod.snd this
    cases this
    subst hp
    exact exampleUsable
  have hbeh : ∀ n, HostBehaves 2 none ([.prepare exampleFormat fun _ _ => 0] ++ (List.replicate n exampleBlock).map Call.process) := by
    intro n
    refine ⟨exampleFormat_valid, ?_⟩
    show HostBehaves 2 (some 64) ((List.replicate n exampleBlock).map Call.process)
    induction n with
    | zero => trivial
    | succ n ih => exact ⟨rfl, fun m hm => (by cases hm; exact le_rfl), ih⟩
  obtain ⟨la, s2', q1, q2, q3, q4, q5, q6, q7⟩ := can_process (accepts_convolver referenceFFT_lawful 2) (List.replicate 10 exampleBlock) hx k2 k1 (by rw [hcalls]; exact hbeh 10)
    (usable_good hB hU)
  have hx2 := exec_append hx q1
  have hcalls2 : callsIn 0 ([.create 0] ++ pl ++ (loadCall 0 req ++ jobRun 0) ++ la) = [.prepare exampleFormat fun _ _ => 0] ++ (List.replicate 10 exampleBlock).map Call.process := by
    rw [callsIn_append, q2, hcalls]
  refine ⟨build, _, s2', referenceFFT_lawful, hB, hx2, q4, q5, by rw [hcalls2]; exact hbeh 10, ?_, ?_, ?_, ?_, q7 (Or.inr (by simp)), ?_⟩
  · intro i ir cs hi p hp
    refine hU i ir cs ?_ p ?_
    · rw [loadsIn_append, q3, List.append_nil] at hi; exact hi
    · unfold formatsIn at hp ⊢
      rw [hcalls2] at hp
      rw [hcalls]
      exact hp
  · intro p hp
    unfold formatsIn at hp
    rw [hcalls2] at hp
    have hp : p ∈ [exampleFormat] := hp
    rw [List.mem_singleton] at hp
    subst hp
    exact ⟨48000, by norm_num [exampleFormat], by norm_num⟩
  · rw [loadsIn_append, q3, List.append_nil, hloads]
  · rw [q6, k3]; rfl
  · rw [hcalls2]; rfl

end Zones.Props
