import Verif.Proofs.ChannelCounts
import Verif.Proofs.ArithExact
import Verif.Props.Reference
import Verif.Props.ReferenceFloat

/-!
# Hosts that change the number of channels: C107
-/

open Zones.Spec Zones.Model Zones.Proofs Zones.Proofs.R

namespace Zones.Props

/-- Every response of a history is a newly constructed convolver for the impulse response and specification `irs` and `specs` assign to it, and its routing stays within `N` channels. -/
def BuiltWithin (F : RealFFT) (N : ℕ) (irs : ℕ → Buf) (maxBs : ℕ → ℕ) (specs : ℕ → ConvolverSpec) (hist : List (List (Held Convolver) × Call)) : Prop :=
  ∀ b ∈ hist, ∀ g ∈ b.1, Usable (irs g.id) (maxBs g.id) (specs g.id) N ∧
    ∃ gar r0, Convolver.create F (irs g.id) (maxBs g.id) (specs g.id) gar r0 = some g.obj

/-- The same in any arithmetic, the response being cut into the partitions `schs` assigns to it (C71). -/
def BuiltWithinR [Arith] (F : RealFFT) (N L : ℕ) (irs : ℕ → Buf) (maxBs : ℕ → ℕ) (specs : ℕ → ConvolverSpec) (Ks Bs : ℕ → ℕ) (schs : ℕ → List Layout)
    (hist : List (List (Held Convolver) × Call)) : Prop :=
  ∀ b ∈ hist, ∀ g ∈ b.1, Usable (irs g.id) (maxBs g.id) (specs g.id) N ∧ Cut (irs g.id) (maxBs g.id) (specs g.id) L (Ks g.id) (Bs g.id) (schs g.id) ∧
    ∃ gar r0, Convolver.createR F (irs g.id) (maxBs g.id) (specs g.id) gar r0 = some g.obj

theorem usable_more {ir : Buf} {maxB : ℕ} {spec : ConvolverSpec} {N M : ℕ} (h : N ≤ M) (hU : Usable ir maxB spec N) : Usable ir maxB spec M := by
  refine ⟨hU.nonempty, hU.size, fun c hc => ?_, fun c hc => ?_, hU.blockSize⟩
  · obtain ⟨z, h1, h2, h3⟩ := hU.inputs c hc
    exact ⟨z, h1, h2, by omega⟩
  · obtain ⟨z, h1, h2, h3⟩ := hU.outputs c hc
    exact ⟨z, h1, h2, by omega⟩

theorem routed_of_createR [Arith] {F : RealFFT} {ir : Buf} {maxB : ℕ} {spec : ConvolverSpec} {N : ℕ} (hU : Usable ir maxB spec N) {gar : Garbage} {r0 : ℕ → ℕ → ℝ} {v : Convolver}
    (h : Convolver.createR F ir maxB spec gar r0 = some v) : RoutedWithin N v := by
  unfold Convolver.createR at h
  simp only [Option.bind_eq_bind, Option.bind_eq_some_iff] at h
  obtain ⟨_, _, _, _, h⟩ := h
  cases h
  exact ⟨hU.inputs, hU.outputs⟩

theorem routed_of_create {F : RealFFT} {ir : Buf} {maxB : ℕ} {spec : ConvolverSpec} {N : ℕ} (hU : Usable ir maxB spec N) {gar : Garbage} {r0 : ℕ → ℕ → ℝ} {v : Convolver}
    (h : Convolver.create F ir maxB spec gar r0 = some v) : RoutedWithin N v := by
  unfold Convolver.create at h
  simp only [Option.bind_eq_bind, Option.bind_eq_some_iff] at h
  obtain ⟨_, _, _, _, h⟩ := h
  cases h
  exact ⟨hU.inputs, hU.outputs⟩

theorem opsR_exact (F : RealFFT) : @convolverOpsR Arith.exact F .exact = convolverOps F := by
  unfold convolverOpsR convolverOps
  rw [Convolver.processR_exact]

/-- **C107.** A host may change the number of channels with `prepare`, as long as it never falls below the `N` channels that the responses are routed to. Whatever the arithmetic rounds to, the engine
then does, bit for bit, what it would do if it had been used for `M` channels all the time: every block keeps its size and contains the first channels of what that engine outputs, the same responses are playing,
being faded to and waiting, and one is undefined if and only if the other is. -/
theorem C107_first_channels [Arith] (F : RealFFT) (A : GainArith) {N M : ℕ} {hist : List (List (Held Convolver) × Call)} (hw : ChangesChannels N M (RoutedWithin N) none hist) :
    (perform (convolverOpsR F A) {} hist = none ↔ perform (convolverOpsR F A) {} (widened M hist) = none) ∧
    ∀ c outs c' outs', perform (convolverOpsR F A) {} hist = some (c, outs) → perform (convolverOpsR F A) {} (widened M hist) = some (c', outs') →
      slotIds c = slotIds c' ∧ SameShape (blocksIn hist) outs ∧ List.Forall₂ FirstChannels outs outs' := by
  have key := perform_part (narrow_convolver F A N M) hist (tracks_start (Good := RoutedWithin N) (M := M)) hw
  constructor
  · cases hx : perform (convolverOpsR F A) {} hist <;> cases hy : perform (convolverOpsR F A) {} (widened M hist) <;> rw [hx, hy] at key <;> cases key <;> simp
  · intro c outs c' outs' h h'
    rw [h, h'] at key
    cases key with
    | both k =>
      obtain ⟨⟨S, hS⟩, h1, h2⟩ := k
      exact ⟨(tracks_ids hS).symm, h2, h1⟩

/-- What C85 needs of the history for `M` channels. -/
theorem widened_rates {M : ℕ} {hist : List (List (Held Convolver) × Call)} (hr : WholeRates hist) : WholeRates (widened M hist) := by
  intro b hb p g hk
  obtain ⟨b', hb', rfl⟩ := List.mem_map.mp hb
  obtain ⟨batch, k⟩ := b'
  cases k with
  | prepare q g' =>
    cases hk
    exact hr _ hb' q g rfl
  | process _ => cases hk
  | reset => cases hk
  | clear => cases hk

/-- **C107.** In exact arithmetic: the blocks of an engine whose host changes the number of channels contain the first channels of what the reference engine renders for `M` channels, for every history of calls. -/
theorem C107_reference {F : RealFFT} (hF : Lawful F) {N M : ℕ} (hNM : N ≤ M) {irs : ℕ → Buf} {maxBs : ℕ → ℕ} {specs : ℕ → ConvolverSpec}
    {hist : List (List (Held Convolver) × Call)} (hB : BuiltWithin F N irs maxBs specs hist) (hw : ChangesChannels N M (fun _ => True) none hist) (hr : WholeRates hist) :
    ∃ c outs, perform (convolverOps F) {} hist = some (c, outs) ∧ slotIds c = (Reference.run irs specs {} (numbered (widened M hist))).1.stage.ids ∧
      SameShape (blocksIn hist) outs ∧ List.Forall₂ FirstChannels outs (rendered irs specs (Reference.run irs specs {} (numbered (widened M hist))).2) := by
  have hmem : ∀ b ∈ widened M hist, ∃ b' ∈ hist, b.1 = b'.1 := by
    intro b hb
    obtain ⟨b', hb', rfl⟩ := List.mem_map.mp hb
    exact ⟨b', hb', rfl⟩
  have hBM : BuiltFor F M irs maxBs specs (widened M hist) := by
    intro b hb g hg
    obtain ⟨b', hb', e⟩ := hmem b hb
    obtain ⟨hU, gar, r0, ec⟩ := hB b' hb' g (e ▸ hg)
    exact ⟨usable_more hNM hU, gar, r0, g.obj, ec, Or.inl rfl⟩
  have hS : ∀ b ∈ hist, ∀ g ∈ b.1, Serves F M g.obj := by
    intro b hb g hg
    obtain ⟨hU, gar, r0, ec⟩ := hB b hb g hg
    exact ⟨_, _, _, [], usable_more hNM hU, Heard_fresh ⟨gar, r0, g.obj, ec, Or.inl rfl⟩⟩
  obtain ⟨c', outs', ep, hids, hsame⟩ := C85_reference hF hBM (wellFormed_widened hist hw hS) (widened_rates hr)
  have hw' : ChangesChannels N M (RoutedWithin N) none hist := changes_good hist hw fun b hb g hg => by
    obtain ⟨hU, gar, r0, ec⟩ := hB b hb g hg
    exact routed_of_create hU ec
  let _ : Arith := Arith.exact
  obtain ⟨hdef, hall⟩ := C107_first_channels F .exact hw'
  rw [opsR_exact] at hdef hall
  cases ec : perform (convolverOps F) {} hist with
  | none => rw [hdef.mp ec] at ep; cases ep
  | some q =>
    obtain ⟨c, outs⟩ := q
    obtain ⟨h1, h2, h3⟩ := hall c outs c' outs' ec ep
    refine ⟨c, outs, rfl, h1.trans hids, h2, ?_⟩
    exact firstChannels_trans h3 hsame

/-- **C107.** In floating point: the blocks contain the first channels of blocks that differ from what the reference engine renders for `M` channels by no more than the bounds of C86. -/
theorem C107_rounded [Arith] {u τ ε w : ℝ} {L : ℕ} (hA : Accurate u τ L) {F : RealFFT} (hF : Approx F ε) {G : GainArith} (hG : AccurateGains G w) {N M : ℕ} (hNM : N ≤ M) {irs : ℕ → Buf} {maxBs : ℕ → ℕ}
    {specs : ℕ → ConvolverSpec} {Ks Bs : ℕ → ℕ} {schs : ℕ → List Layout} {hist : List (List (Held Convolver) × Call)}
    (hB : BuiltWithinR F N L irs maxBs specs Ks Bs schs hist) (hw : ChangesChannels N M (fun _ => True) none hist) (hr : WholeRates hist) :
    ∃ c outs all, perform (convolverOpsR F G) {} hist = some (c, outs) ∧ slotIds c = (Reference.run irs specs {} (numbered (widened M hist))).1.stage.ids ∧
      SameShape (blocksIn hist) outs ∧ List.Forall₂ FirstChannels outs all ∧
      RenderedWithin u τ ε w M L irs specs Ks Bs schs all (Reference.run irs specs {} (numbered (widened M hist))).2 := by
  have hmem : ∀ b ∈ widened M hist, ∃ b' ∈ hist, b.1 = b'.1 := by
    intro b hb
    obtain ⟨b', hb', rfl⟩ := List.mem_map.mp hb
    exact ⟨b', hb', rfl⟩
  have hBM : BuiltForR F M L irs maxBs specs Ks Bs schs (widened M hist) := by
    intro b hb g hg
    obtain ⟨b', hb', e⟩ := hmem b hb
    obtain ⟨hU, hC, gar, r0, ec⟩ := hB b' hb' g (e ▸ hg)
    exact ⟨usable_more hNM hU, hC, gar, r0, g.obj, ec, Or.inl rfl⟩
  have hS : ∀ b ∈ hist, ∀ g ∈ b.1, ServesR F M L g.obj := by
    intro b hb g hg
    obtain ⟨hU, hC, gar, r0, ec⟩ := hB b hb g hg
    exact ⟨_, _, _, _, _, _, [], usable_more hNM hU, hC, HeardR_fresh ⟨gar, r0, g.obj, ec, Or.inl rfl⟩⟩
  obtain ⟨c', outs', ep, hids, hsame⟩ := C86_reference hA hF hG hBM (wellFormed_widened hist hw hS) (widened_rates hr)
  have hw' : ChangesChannels N M (RoutedWithin N) none hist := changes_good hist hw fun b hb g hg => by
    obtain ⟨hU, _, gar, r0, ec⟩ := hB b hb g hg
    exact routed_of_createR hU ec
  obtain ⟨hdef, hall⟩ := C107_first_channels F G hw'
  cases ec : perform (convolverOpsR F G) {} hist with
  | none => rw [hdef.mp ec] at ep; cases ep
  | some q =>
    obtain ⟨c, outs⟩ := q
    obtain ⟨h1, h2, h3⟩ := hall c outs c' outs' ec ep
    exact ⟨c, outs, outs', rfl, h1.trans hids, h2, h3, hsame⟩

/-- A constructor of convolvers: for requests usable with `N` channels it returns what `Convolver`'s constructor returns. -/
def Creates (F : RealFFT) (N : ℕ) (build : Buf × ConvolverSpec → ProcSpec → Convolver) : Prop :=
  ∀ ir cs p, Usable ir p.maximumBlockSize cs N → ∃ gar r0, Convolver.create F ir p.maximumBlockSize cs gar r0 = some (build (ir, cs) p)

/-- **C107.** The same in the concurrent system, while `LoadIR` is called from other threads: whenever an engine is between two audio-side calls, everything it has output are the first channels of what the reference engine renders
for `M` channels. -/
theorem C107_concurrent {F : RealFFT} (hF : Lawful F) {N M e : ℕ} (hNM : N ≤ M) {build : Buf × ConvolverSpec → ProcSpec → Convolver} (hB : Creates F N build)
    {ls : List (Label (Buf × ConvolverSpec))} {s : Sys Convolver (Buf × ConvolverSpec)}
    (h : Exec (convolverOps F) build ls s) (ha : (s.engs e).status = .alive) (hi : (s.engs e).pc = .idle)
    (hH : HostChanges N M none (callsIn e ls)) (hU : UsableLoads N e ls) (hr : ∀ p ∈ formatsIn e ls, ∃ r : ℕ, p.sampleRate = r ∧ r ≤ 200000) :
    ∃ found : List (List ℕ), found.length = (callsIn e ls).length ∧ found.flatten ++ (s.engs e).cmd.map Held.id = (s.engs e).delivered.map Held.id ∧
      slotIds (s.engs e).core = (Reference.run (requestedIR ls) (requestedSpec ls) {} (found.zip ((callsIn e ls).map (widenCall M)))).1.stage.ids ∧
      List.Forall₂ FirstChannels (s.engs e).outs
        (rendered (requestedIR ls) (requestedSpec ls) (Reference.run (requestedIR ls) (requestedSpec ls) {} (found.zip ((callsIn e ls).map (widenCall M)))).2) := by
  have hk := exec_known h
  have hd : (s.engs e).status ≠ .dead := by rw [ha]; simp
  have hc := (hk.traced e).calls
  have hf := (hk.inv.flow e).flow hd
  obtain ⟨c0, k1, k2⟩ := (hk.inv.flow e).refines hd
  rw [hi] at hc hf k2
  have k2 : (s.engs e).core = c0 := k2
  obtain ⟨c1, h3⟩ := exec_outs h e hd
  have h4 : c1 = (s.engs e).core := by
    have := perform_calls (convolverOps F) (s.engs e).hist {}
    rw [h3, k1] at this
    rw [k2]
    simpa using this
  subst h4
  have h1 : (s.engs e).hist.map Prod.snd = callsIn e ls := by simpa [APc.calling] using hc
  have h2 : (s.engs e).hist.flatMap Prod.fst ++ (s.engs e).cmd = (s.engs e).delivered := by simpa [APc.visited] using hf
  have hearly := hk.early e
  have hgot := hk.origins.got e
  have hsorted := hk.inv.order.sorted e
  have huniq : ∀ d ∈ (s.engs e).delivered, ∀ d' ∈ (s.engs e).delivered, d.id = d'.id → d = d' := by
    intro d hd d' hd' hid
    rw [List.pairwise_iff_getElem] at hsorted
    obtain ⟨a, ha, rfl⟩ := List.getElem_of_mem hd
    obtain ⟨b, hb, rfl⟩ := List.getElem_of_mem hd'
    rcases Nat.lt_trichotomy a b with hab | hab | hab
    · have := hsorted a b ha hb hab; omega
    · subst hab; rfl
    · have := hsorted b a hb ha hab; omega
  have hex : ∀ k : ℕ, ∃ m : ℕ, ∀ d ∈ (s.engs e).delivered, d.id = k →
      Usable (requestedIR ls k) m (requestedSpec ls k) N ∧ ∃ gar r0, Convolver.create F (requestedIR ls k) m (requestedSpec ls k) gar r0 = some d.obj := by
    intro k
    by_cases hk : ∃ d ∈ (s.engs e).delivered, d.id = k
    · obtain ⟨d, hdm, hdk⟩ := hk
      obtain ⟨⟨ir, cs⟩, q, g1, g2, g3⟩ := hgot d hdm
      refine ⟨q.maximumBlockSize, fun d' hd' hk' => ?_⟩
      have : d' = d := huniq d' hd' d hdm (hk'.trans hdk.symm)
      subst this
      have hu := hU _ _ _ g1 q g2
      rw [hdk] at g1
      have e1 : requestedIR ls k = ir := by unfold requestedIR; rw [g1]
      have e2 : requestedSpec ls k = cs := by unfold requestedSpec; rw [g1]
      rw [e1, e2, g3]
      exact ⟨hu, hB ir cs q hu⟩
    · exact ⟨0, fun d hd hk' => absurd ⟨d, hd, hk'⟩ hk⟩
  choose m hm using hex
  have hBuilt : BuiltWithin F N (requestedIR ls) m (requestedSpec ls) (s.engs e).hist := by
    intro b hb g hg
    have hmem : g ∈ (s.engs e).delivered := by
      rw [← h2]
      exact List.mem_append_left _ (List.mem_flatMap.mpr ⟨b, hb, hg⟩)
    exact hm g.id g hmem rfl
  have hrates : WholeRates (s.engs e).hist := by
    intro b hb p g hk
    refine hr p ?_
    unfold formatsIn
    rw [List.mem_filterMap]
    exact ⟨b.2, by rw [← h1]; exact List.mem_map_of_mem hb, by rw [hk]⟩
  have hch : ChangesChannels N M (fun _ => True) none (s.engs e).hist := changes_of _ none (by rw [h1]; exact hH) (fun _ _ _ _ => trivial) fun _ => hearly
  obtain ⟨c, outs, ep, hids, _, hsame⟩ := C107_reference hF hNM hBuilt hch hrates
  rw [h3] at ep
  cases ep
  have hz : numbered (widened M (s.engs e).hist) = ((s.engs e).hist.map fun b => b.1.map Held.id).zip ((callsIn e ls).map (widenCall M)) := by
    rw [numbered_zip, ← h1]
    unfold widened
    rw [List.map_map, List.map_map, List.map_map]
    rfl
  rw [hz] at hids hsame
  refine ⟨(s.engs e).hist.map fun b => b.1.map Held.id, ?_, ?_, hids, hsame⟩
  · rw [List.length_map, ← h1, List.length_map]
  · rw [← h2, List.map_append, ← List.flatMap_def, List.map_flatMap]

/-- **C107.** That the channels suffice is necessary: a `prepare` for fewer channels than the playing response is routed to does not replace the response, and the next `process` of a non-empty block is undefined. -/
theorem C107_too_few [Arith] (F : RealFFT) (A : GainArith) {hist : List (List (Held Convolver) × Call)} {c : Core Convolver} {outs : List Buf}
    (hp : perform (convolverOpsR F A) {} hist = some (c, outs)) {h : Held Convolver} (ha : c.active = some h) (hf : c.fade = none) (hq : c.pending = none)
    {p : ProcSpec} (hr : ¬ RoutedWithin p.numChannels h.obj) (g : ℕ → ℕ → ℝ) {blk : Buf} (hb : blk.ch = p.numChannels) (hn : 0 < blk.n) :
    perform (convolverOpsR F A) {} (hist ++ [([], .prepare p g)]) ≠ none ∧ perform (convolverOpsR F A) {} (hist ++ [([], .prepare p g), ([], .process blk)]) = none := by
  have happ : ∀ (xs ys : List (List (Held Convolver) × Call)) (c0 : Core Convolver), perform (convolverOpsR F A) c0 (xs ++ ys) =
      (perform (convolverOpsR F A) c0 xs).bind fun r => (perform (convolverOpsR F A) r.1 ys).map fun q => (q.1, r.2 ++ q.2) := by
    intro xs ys
    induction xs with
    | nil => intro c0; simp [perform]
    | cons x xs ih =>
      intro c0
      simp only [List.cons_append, perform]
      cases c0.call (convolverOpsR F A) x.1 x.2 with
      | none => rfl
      | some r =>
        simp only [Option.bind_some]
        rw [ih]
        cases perform (convolverOpsR F A) r.1 xs with
        | none => rfl
        | some q =>
          simp only [Option.bind_some, Option.map_some]
          cases perform (convolverOpsR F A) q.1 ys with
          | none => rfl
          | some t => simp
  obtain ⟨c2, e2, e3, e4⟩ : ∃ r : Core Convolver × Core.Effects Convolver, c.call (convolverOpsR F A) [] (.prepare p g) = some r ∧
      r.1.active = some ⟨h.id, h.obj.reset⟩ ∧ r.1.fade = none := by
    refine ⟨_, rfl, ?_, ?_⟩
    · show (((c.prepareHead p g).resetFade).resetBody (convolverOpsR F A)).1.active = _
      unfold Core.resetBody Core.resetFade Core.prepareHead
      simp only [hq, hf, ha]
      rfl
    · show (((c.prepareHead p g).resetFade).resetBody (convolverOpsR F A)).1.fade = _
      unfold Core.resetBody Core.resetFade Core.prepareHead
      simp only [hq, hf]
  rw [happ, happ, hp]
  simp only [Option.bind_some, perform, e2, Option.map_some]
  refine ⟨by simp, ?_⟩
  have e5 : c2.1.call (convolverOpsR F A) [] (.process blk) = none := by
    show c2.1.processBody (convolverOpsR F A) blk = none
    unfold Core.processBody
    rw [e4]
    simp only
    rw [e3]
    show Option.map _ (Option.map _ (Option.map _ (Convolver.processR F h.obj.reset blk))) = none
    rw [process_missing F (s := h.obj.reset) hr hb hn]
    rfl
  rw [e5]
  rfl

/-! ## Concrete cases -/

/-- A quadraphonic format, and a block for it. -/
def quadFormat : ProcSpec := ⟨48000, 32, 4⟩
def quadBlock : Buf := ⟨4, 32, fun ch i => (ch * i : ℝ)⟩

/-- The track is stereo, then quadraphonic (a response arrives, and another one to fade to), then stereo again. -/
noncomputable def changingHistory (v : Convolver) : List (List (Held Convolver) × Call) :=
  [([], .process quadBlock), ([], .prepare exampleFormat fun _ _ => 7), ([⟨1, v⟩], .process exampleBlock), ([], .prepare quadFormat fun _ _ => 9), ([], .process quadBlock), ([⟨2, v⟩], .process quadBlock),
    ([], .prepare exampleFormat fun _ _ => 7), ([], .process exampleBlock)]

theorem changing_changes (v : Convolver) {Good : Convolver → Prop} (hv : Good v) : ChangesChannels 2 4 Good none (changingHistory v) := by
  have hq : ValidFormat 4 quadFormat := ⟨rfl, by decide, by norm_num [quadFormat], by norm_num [quadFormat]⟩
  refine ⟨by simp, fun _ _ => rfl, ⟨by decide, by decide⟩, nofun, ?_⟩
  refine ⟨by simp, fun _ _ => rfl, ⟨by decide, by decide, exampleFormat_valid⟩, ?_⟩
  refine ⟨by simpa using hv, nofun, ⟨by show 2 ≤ 2; decide, by show 2 ≤ 4; decide⟩, fun K m e => (by cases e; exact ⟨rfl, le_rfl⟩), ?_⟩
  refine ⟨by simp, nofun, ⟨by decide, by decide, hq⟩, ?_⟩
  refine ⟨by simp, nofun, ⟨by decide, by decide⟩, fun K m e => (by cases e; exact ⟨rfl, le_rfl⟩), ?_⟩
  refine ⟨by simpa using hv, nofun, ⟨by decide, by decide⟩, fun K m e => (by cases e; exact ⟨rfl, le_rfl⟩), ?_⟩
  refine ⟨by simp, nofun, ⟨by decide, by decide, exampleFormat_valid⟩, ?_⟩
  exact ⟨by simp, nofun, ⟨by show 2 ≤ 2; decide, by show 2 ≤ 4; decide⟩, fun K m e => (by cases e; exact ⟨rfl, le_rfl⟩), trivial⟩

theorem changing_held (v : Convolver) : ∀ b ∈ changingHistory v, ∀ g ∈ b.1, g.obj = v := by
  intro b hb g hg
  simp only [changingHistory, List.mem_cons, List.not_mem_nil, or_false] at hb
  rcases hb with rfl | rfl | rfl | rfl | rfl | rfl | rfl | rfl <;> simp at hg <;> rw [hg]

theorem changing_rates (v : Convolver) : WholeRates (changingHistory v) := by
  intro b hb p g hk
  simp only [changingHistory, List.mem_cons, List.not_mem_nil, or_false] at hb
  rcases hb with rfl | rfl | rfl | rfl | rfl | rfl | rfl | rfl <;> cases hk
  · exact ⟨48000, by norm_num [exampleFormat], by norm_num⟩
  · exact ⟨48000, by norm_num [quadFormat], by norm_num⟩
  · exact ⟨48000, by norm_num [exampleFormat], by norm_num⟩

/-- A history that meets the hypotheses of `C107_first_channels` and `C107_reference`. -/
example : ∃ v, Lawful referenceFFT ∧ BuiltWithin referenceFFT 2 (fun _ => exampleIR) (fun _ => 64) (fun _ => exampleSpec) (changingHistory v) ∧
    ChangesChannels 2 4 (RoutedWithin 2) none (changingHistory v) ∧ WholeRates (changingHistory v) ∧
    (blocksIn (changingHistory v)).map Buf.ch = [4, 2, 4, 4, 2] := by
  obtain ⟨v, e, _⟩ := usable_create referenceFFT_lawful exampleUsable ⟨fun _ _ => 7, fun _ _ _ _ => 7, fun _ _ => 7, fun _ _ => 7, fun _ _ => 7⟩ fun _ _ => 7
  refine ⟨v, referenceFFT_lawful, fun b hb g hg => ⟨exampleUsable, _, _, (by rw [changing_held v b hb g hg]; exact e)⟩, changing_changes v (routed_of_create exampleUsable e), changing_rates v, rfl⟩

/-- A mono format. -/
def monoFormat : ProcSpec := ⟨48000, 64, 1⟩

/-- A stereo response plays; the host switches to mono: `prepare` succeeds, the next `process` is undefined. -/
example : ∃ v, Convolver.create referenceFFT exampleIR 64 exampleSpec ⟨fun _ _ => 7, fun _ _ _ _ => 7, fun _ _ => 7, fun _ _ => 7, fun _ _ => 7⟩ (fun _ _ => 7) = some v ∧
    perform (convolverOps referenceFFT) {} [([⟨1, v⟩], .prepare exampleFormat fun _ _ => 7), ([], .prepare monoFormat fun _ _ => 7)] ≠ none ∧
    perform (convolverOps referenceFFT) {} [([⟨1, v⟩], .prepare exampleFormat fun _ _ => 7), ([], .prepare monoFormat fun _ _ => 7), ([], .process ⟨1, 64, fun _ _ => 1⟩)] = none := by
  obtain ⟨v, e, _⟩ := usable_create referenceFFT_lawful exampleUsable ⟨fun _ _ => 7, fun _ _ _ _ => 7, fun _ _ => 7, fun _ _ => 7, fun _ _ => 7⟩ fun _ _ => 7
  refine ⟨v, e, ?_⟩
  let _ : Arith := Arith.exact
  have key := C107_too_few referenceFFT .exact (hist := [([⟨1, v⟩], .prepare exampleFormat fun _ _ => 7)]) (h := ⟨1, v.reset⟩) rfl rfl rfl rfl (p := monoFormat)
    (fun hr => ?_) (fun _ _ => 7) (blk := ⟨1, 64, fun _ _ => 1⟩) rfl (by decide)
  · rw [opsR_exact] at key
    exact key
  · have hs : v.spec = exampleSpec ∧ v.numConv = 2 := by
      unfold Convolver.create at e
      simp only [Option.bind_eq_bind, Option.bind_eq_some_iff] at e
      obtain ⟨_, _, _, _, h⟩ := e
      cases h
      exact ⟨rfl, rfl⟩
    have h1 : ValidRouting v.spec.inputRouting v.numConv 1 := hr.1
    rw [hs.1, hs.2] at h1
    obtain ⟨z, hz, h0, h2⟩ := h1 1 (by decide)
    cases hz
    exact absurd h2 (by decide)

theorem creates_exists {F : RealFFT} (hF : Lawful F) (N : ℕ) (v0 : Convolver) : ∃ build, Creates F N build := by
  classical
  refine ⟨fun r p => if h : Usable r.1 p.maximumBlockSize r.2 N then
      (usable_create hF h ⟨fun _ _ => 7, fun _ _ _ _ => 7, fun _ _ => 7, fun _ _ => 7, fun _ _ => 7⟩ fun _ _ => 7).choose else v0, fun ir cs p h => ?_⟩
  simp only [dif_pos h]
  exact ⟨_, _, (usable_create hF h _ _).choose_spec.1⟩

theorem example_short : Usable exampleIR quadFormat.maximumBlockSize exampleSpec 2 :=
  ⟨exampleUsable.nonempty, exampleUsable.size, exampleUsable.inputs, exampleUsable.outputs, by left; norm_num [quadFormat]⟩

/-- An execution that meets the hypotheses of `C107_concurrent`: a quadraphonic block before the first `prepare`, a stereo `prepare`, a load, and a quadraphonic `prepare` that finds it. -/
example : ∃ (build : Buf × ConvolverSpec → ProcSpec → Convolver) (ls : List (Label (Buf × ConvolverSpec))) (s : Sys Convolver (Buf × ConvolverSpec)),
    Lawful referenceFFT ∧ Creates referenceFFT 2 build ∧ Exec (convolverOps referenceFFT) build ls s ∧ (s.engs 0).status = .alive ∧ (s.engs 0).pc = .idle ∧
    HostChanges 2 4 none (callsIn 0 ls) ∧ UsableLoads 2 0 ls ∧ (∀ p ∈ formatsIn 0 ls, ∃ r : ℕ, p.sampleRate = r ∧ r ≤ 200000) ∧
    (s.engs 0).delivered.map Held.id = [0] ∧ (s.engs 0).outs = [quadBlock] ∧ (formatsIn 0 ls).map ProcSpec.numChannels = [2, 4] := by
  obtain ⟨v0, _⟩ := example_convolver
  obtain ⟨build, hB⟩ := creates_exists referenceFFT_lawful 2 v0
  let ops := convolverOps referenceFFT
  let req : Buf × ConvolverSpec := (exampleIR, exampleSpec)
  let pl : List (Label (Buf × ConvolverSpec)) := emptyCall 0 (.process quadBlock) ++ emptyCall 0 (.prepare exampleFormat fun _ _ => 0)
  let ql : List (Label (Buf × ConvolverSpec)) := [.call 0 (.prepare quadFormat fun _ _ => 0), .service 0, .visit 0, .serviced 0, .body 0]
  obtain ⟨s1, h1, s2, h2, s3, h3, k1, k2, k3, k4⟩ : ∃ s1, Exec ops build ([.create 0] ++ pl) s1 ∧
      ∃ s2, Run ops build s1 (loadCall 0 req ++ jobRun 0) s2 ∧ ∃ s3, Run ops build s2 ql s3 ∧
      (s3.engs 0).pc = .idle ∧ (s3.engs 0).status = .alive ∧ (s3.engs 0).delivered = [⟨0, build req exampleFormat⟩] ∧ (s3.engs 0).outs = [quadBlock] := by
    refine ⟨_, .cons (.create rfl) (.cons (.call rfl rfl) (.cons (.service rfl) (.cons (.serviced rfl) (.cons (.body rfl rfl)
        (.cons (.call rfl rfl) (.cons (.service rfl) (.cons (.serviced rfl) (.cons (.body rfl rfl) (.nil _))))))))), _,
      (.cons (.loadLock rfl ⟨rfl, rfl⟩) (.cons (.loadRemove rfl) (.cons (.loadFlag rfl (by exact Option.some_ne_none exampleFormat)) (.cons (.loadAdd rfl rfl)
    (.cons (.pick rfl) (.cons (.build (j := ⟨0, 0, req, exampleFormat, false, .building⟩) ?_ rfl)
    (.cons (.jobLock (j := ⟨0, 0, req, exampleFormat, false, .built (build req exampleFormat)⟩) ?_ rfl rfl ⟨rfl, rfl⟩)
    (.cons (.jobPush (j := ⟨0, 0, req, exampleFormat, false, .locked (build req exampleFormat)⟩) ?_ rfl rfl rfl ?_)
    (.cons (.jobDone (j := ⟨0, 0, req, exampleFormat, false, .pushed⟩) ?_ rfl rfl) (.nil _)))))))))), _,
      (.cons (.call rfl rfl) (.cons (.service rfl) (.cons (.visit (n := 0) rfl rfl) (.cons (.serviced rfl) (.cons (.body rfl rfl) (.nil _)))))), ?_, ?_, ?_, ?_⟩
    · exact List.Mem.head _
    · exact List.Mem.head _
    · exact List.Mem.head _
    · show (0 : ℕ) < _
      decide
    · exact List.Mem.head _
    · rfl
    · rfl
    · rfl
    · rfl
  have hx := exec_append (exec_append h1 h2) h3
  have hcalls : callsIn 0 ([.create 0] ++ pl ++ (loadCall 0 req ++ jobRun 0) ++ ql) = [.process quadBlock, .prepare exampleFormat fun _ _ => 0, .prepare quadFormat fun _ _ => 0] := rfl
  have hloads : loadsIn ([.create 0] ++ pl ++ (loadCall 0 req ++ jobRun 0) ++ ql) = [(0, req)] := rfl
  have hformats : formatsIn 0 ([.create 0] ++ pl ++ (loadCall 0 req ++ jobRun 0) ++ ql) = [exampleFormat, quadFormat] := rfl
  refine ⟨build, _, s3, referenceFFT_lawful, hB, hx, k2, k1, ?_, ?_, ?_, by rw [k3]; rfl, k4, by rw [hformats]; rfl⟩
  · rw [hcalls]
    exact ⟨⟨by decide, by decide⟩, nofun, ⟨by decide, by decide, exampleFormat_valid⟩, ⟨by decide, by decide, rfl, by decide, by norm_num [quadFormat], by norm_num [quadFormat]⟩, trivial⟩
  · intro i ir cs hi p hp
    rw [hformats] at hp
    rw [hloads] at hi
    have := List.mem_of_getElem? hi
    rw [List.mem_singleton] at this
    have : (ir, cs) = (exampleIR, exampleSpec) := congrArg Prod.snd this
    cases this
    rcases List.mem_cons.mp hp with rfl | hp
    · exact exampleUsable
    · rw [List.mem_singleton.mp hp]
      exact example_short
  · intro p hp
    rw [hformats] at hp
    rcases List.mem_cons.mp hp with rfl | hp
    · exact ⟨48000, by norm_num [exampleFormat], by norm_num⟩
    · rw [List.mem_singleton.mp hp]
      exact ⟨48000, by norm_num [quadFormat], by norm_num⟩

end Zones.Props
