import Verif.Props.EngineThreads

/-!
# From `LoadIR` to the samples: C42, C52, C56 in the concurrent system
-/

open Zones.Spec Zones.Model Zones.Proofs

namespace Zones.Props

variable {V R : Type} {ops : ConvOps V} {build : R → ProcSpec → V} {ls ls' : List (Label R)} {s s' : Sys V R}

/-- The completed calls only grow. -/
theorem hist_grows (h : Run ops build s ls' s') (e : ℕ) : ∃ new, (s'.engs e).hist = (s.engs e).hist ++ new := by
  induction h with
  | nil s => exact ⟨[], by simp⟩
  | cons h t ih =>
    obtain ⟨n, h2⟩ := ih
    rcases outs_step h e with ⟨h1, _⟩ | ⟨k, d, r, _, _, _, h1, _⟩
    · exact ⟨n, by rw [h2, h1]⟩
    · exact ⟨(d, k) :: n, by rw [h2, h1, List.append_assoc]; rfl⟩

/-- The blocks of the `process` calls among `ks`. -/
def processBlocks (ks : List Call) : List Buf :=
  ks.filterMap fun k => match k with
    | .process b => some b
    | _ => none

/-- **C42.** In the concurrent system: as long as no convolver has been delivered, whatever else happens, every block passes unchanged. -/
theorem C42_transparent_concurrent (h : Exec ops build ls s) {e : ℕ} (ha : (s.engs e).status = .alive) (hi : (s.engs e).pc = .idle)
    (hd : (s.engs e).delivered = []) : (s.engs e).outs = processBlocks (callsIn e ls) := by
  obtain ⟨hist, h1, h2, _, h3, _⟩ := C52_sequential h ha hi
  rw [hd, List.append_eq_nil_iff, List.flatMap_eq_nil_iff] at h2
  have key : ∀ (hist : List (List (Held V) × Call)) (c : Core V), c.active = none ∧ c.fade = none ∧ c.pending = none → (∀ b ∈ hist, b.1 = []) →
      ∀ c' outs, perform ops c hist = some (c', outs) → outs = processBlocks (hist.map Prod.snd) := by
    intro hist
    induction hist with
    | nil => intro c _ _ c' outs e; cases e; rfl
    | cons b bs ih =>
      intro c hc hb c' outs e
      have hb1 : b.1 = [] := hb b (List.mem_cons_self ..)
      rw [perform, hb1] at e
      cases hr : c.call ops [] b.2 with
      | none => rw [hr] at e; cases e
      | some r =>
        rw [hr, Option.bind_some, Option.map_eq_some_iff] at e
        obtain ⟨⟨c2, o2⟩, e2, e3⟩ := e
        have := ih r.1 (empty_call hc b.2 hr) (fun x hx => hb x (List.mem_cons_of_mem _ hx)) c2 o2 e2
        cases e3
        show r.2.out.toList ++ o2 = _
        rw [this, List.map_cons]
        cases hk : b.2 with
        | process blk =>
          rw [hk] at hr
          have : c.processBody ops blk = some r := hr
          rw [processBody_none hc.2.1, hc.1] at this
          cases this
          rfl
        | reset => rw [hk] at hr; cases hr; rfl
        | clear => rw [hk] at hr; cases hr; rfl
        | prepare p g => rw [hk] at hr; cases hr; rfl
  rw [key hist {} ⟨rfl, rfl, rfl⟩ h2.1 _ _ h3, h1]

/-- **C41.** In particular if `LoadIR` has only been called before the first `prepare`: these calls have no effect, the engine stays transparent. -/
theorem C41_engine_stays_transparent {e : ℕ} (h : Exec ops build ls s) (hf : formatsIn e ls = []) (hl : (s.engs e).loader = none)
    (hr : Run ops build s ls' s') (hno : ∀ req, .loadLock e req ∉ ls') (ha : (s'.engs e).status = .alive) (hi : (s'.engs e).pc = .idle) :
    (s'.engs e).outs = processBlocks (callsIn e (ls ++ ls')) := by
  have hx := exec_append h hr
  refine C42_transparent_concurrent hx ha hi ?_
  refine List.eq_nil_iff_forall_not_mem.mpr fun d hd => ?_
  obtain ⟨req, p, h1, h2, h3⟩ := (exec_known hx).origins.got e d hd
  rw [loadsIn_append] at h1
  by_cases hlt : d.id < (loadsIn ls).length
  · rw [List.getElem?_append_left hlt] at h1
    exact (C41_load_before_prepare_ignored h hf hl h1 hr).1 (List.mem_map.mpr ⟨d, hd, rfl⟩)
  · rw [List.getElem?_append_right (by omega)] at h1
    have := List.mem_of_getElem? h1
    unfold loadsIn at this
    rw [List.mem_filterMap] at this
    obtain ⟨l, hl, heq⟩ := this
    cases l with
    | loadLock e' req' =>
      simp only [Option.some.injEq, Prod.mk.injEq] at heq
      exact hno req' (by rw [← heq.1]; exact hl)
    | _ => cases heq

/-- No load of engine `e`, nothing delivered to it. -/
theorem nothing_delivered {e : ℕ} (h : Exec ops build ls s) (hno : ∀ req, .loadLock e req ∉ ls) : (s.engs e).delivered = [] := by
  refine List.eq_nil_iff_forall_not_mem.mpr fun d hd => ?_
  obtain ⟨req, p, h1, h2, h3⟩ := (exec_known h).origins.got e d hd
  have := List.mem_of_getElem? h1
  unfold loadsIn at this
  rw [List.mem_filterMap] at this
  obtain ⟨l, hl, heq⟩ := this
  cases l with
  | loadLock e' req' =>
    simp only [Option.some.injEq, Prod.mk.injEq] at heq
    exact hno req' (by rw [← heq.1]; exact hl)
  | _ => cases heq

theorem head_pending (c : Core V) (k : Call) : (c.callHead k).pending = c.pending := by
  cases k <;> rfl

/-- If responses arrive only through `process`, no reset meets a queued one. -/
theorem noReset_of (new : List (List (Held V) × Call)) (hn : ∀ b ∈ new, ∃ blk, b.2 = .process blk) :
    ∀ (hist : List (List (Held V) × Call)) (c : Core V), c.active = none ∧ c.fade = none ∧ c.pending = none → (∀ b ∈ hist, b.1 = []) →
      NoResetWhileQueued ops c (hist ++ new)
  | [], c, _, _ => by
    rw [List.nil_append]
    have : ∀ (new : List (List (Held V) × Call)) (c : Core V), (∀ b ∈ new, ∃ blk, b.2 = .process blk) → NoResetWhileQueued ops c new := by
      intro new
      induction new with
      | nil => intro _ _; trivial
      | cons b bs ih =>
        intro c hn
        refine ⟨fun h => ?_, fun r _ => ih r.1 fun x hx => hn x (List.mem_cons_of_mem _ hx)⟩
        obtain ⟨blk, hb⟩ := hn b (List.mem_cons_self ..)
        exact absurd hb (h blk)
    exact this new c hn
  | b :: bs, c, hc, hb => by
    have hb1 : b.1 = [] := hb b (List.mem_cons_self ..)
    refine ⟨fun _ => ?_, fun r hr => ?_⟩
    · rw [hb1]
      show (c.callHead b.2).pending = none
      rw [head_pending]; exact hc.2.2
    · rw [hb1] at hr
      exact noReset_of new hn bs r.1 (empty_call hc b.2 hr) fun x hx => hb x (List.mem_cons_of_mem _ hx)

theorem lastDelivered_of (new : List (List (Held V) × Call)) (hn : ∀ b ∈ new, ∃ blk, b.2 = .process blk) :
    ∀ (hist : List (List (Held V) × Call)), (∀ b ∈ hist, b.1 = []) → lastDelivered none (hist ++ new) = ((new.flatMap Prod.fst).getLast?).map Held.id
  | [], _ => by
    rw [List.nil_append]
    have : ∀ (new : List (List (Held V) × Call)) (last : Option ℕ), (∀ b ∈ new, ∃ blk, b.2 = .process blk) →
        lastDelivered last new = (((new.flatMap Prod.fst).getLast?).map Held.id <|> last) := by
      intro new
      induction new with
      | nil => intro last _; cases last <;> rfl
      | cons b bs ih =>
        intro last hn
        obtain ⟨batch, k⟩ := b
        obtain ⟨blk, hb⟩ := hn _ (List.mem_cons_self ..)
        simp only at hb
        subst hb
        rw [lastDelivered, ih _ fun x hx => hn x (List.mem_cons_of_mem _ hx), List.flatMap_cons, List.getLast?_append]
        · cases (bs.flatMap Prod.fst).getLast? <;> cases batch.getLast? <;> rfl
        · intro h; cases h
    rw [this new none hn]
    cases (new.flatMap Prod.fst).getLast? <;> rfl
  | (batch, k) :: bs, hb => by
    have hb1 : batch = [] := hb _ (List.mem_cons_self ..)
    subst hb1
    have ih := lastDelivered_of new hn bs fun x hx => hb x (List.mem_cons_of_mem _ hx)
    rw [List.cons_append]
    cases k <;> exact ih

theorem not_dead_before (h : Run ops build s ls' s') {e : ℕ} (hd : (s'.engs e).status ≠ .dead) : (s.engs e).status ≠ .dead := by
  induction h with
  | nil s => exact hd
  | cons h t ih =>
    rcases outs_step h e with ⟨_, _, h1⟩ | ⟨k, d, r, _, _, h1, _⟩
    · exact h1 (ih hd)
    · rw [← h1]; exact ih hd

theorem hostBehaves_prefix {N : ℕ} : ∀ (xs ys : List Call) (M : Option ℕ), HostBehaves N M (xs ++ ys) → HostBehaves N M xs
  | [], _, _, _ => trivial
  | .process blk :: xs, ys, M, h => ⟨h.1, h.2.1, hostBehaves_prefix xs ys M h.2.2⟩
  | .reset :: xs, ys, M, h => hostBehaves_prefix xs ys M h
  | .clear :: xs, ys, M, h => hostBehaves_prefix xs ys M h
  | .prepare p g :: xs, ys, M, h => ⟨h.1, hostBehaves_prefix xs ys _ h.2⟩

theorem hostBehaves_blocks {N : ℕ} (bl : List Buf) : ∀ (xs : List Call) (M : Option ℕ), HostBehaves N M (xs ++ bl.map Call.process) → ∀ m,
    (((xs.filterMap fun k => match k with
    | .prepare p _ => some p
    | _ => none).getLast?.map ProcSpec.maximumBlockSize) <|> M) = some m → ∀ b ∈ bl, b.ch = N ∧ b.n ≤ m
  | [], M, h, m, hm => by
    have hm : M = some m := hm
    subst hm
    induction bl with
    | nil => intro b hb; cases hb
    | cons x bl ih =>
      intro b hb
      have h : x.ch = N ∧ (∀ k, some m = some k → x.n ≤ k) ∧ HostBehaves N (some m) (bl.map Call.process) := h
      rcases List.mem_cons.mp hb with rfl | hb
      · exact ⟨h.1, h.2.1 m rfl⟩
      · exact ih h.2.2 b hb
  | .process blk :: xs, M, h, m, hm => hostBehaves_blocks bl xs M h.2.2 m hm
  | .reset :: xs, M, h, m, hm => hostBehaves_blocks bl xs M h m hm
  | .clear :: xs, M, h, m, hm => hostBehaves_blocks bl xs M h m hm
  | .prepare p g :: xs, M, h, m, hm => by
    refine hostBehaves_blocks bl xs (some p.maximumBlockSize) h.2 m ?_
    rw [List.filterMap_cons] at hm
    simp only [List.getLast?_cons] at hm
    cases hx : (xs.filterMap fun k => match k with
      | .prepare p _ => some p
      | _ => none).getLast? with
    | none => rw [hx] at hm; simpa using hm
    | some q => rw [hx] at hm; simpa using hm

/-- The part of a history between two states in which the engine is idle and has an empty queue, if nothing was delivered meanwhile: just the calls. -/
theorem quiet_history {e : ℕ} (h : Exec ops build ls s) (hi : (s.engs e).pc = .idle) (hc : (s.engs e).cmd = []) (hr : Run ops build s ls' s')
    (hd : (s'.engs e).status ≠ .dead) (hi' : (s'.engs e).pc = .idle) (hd' : (s'.engs e).delivered = (s.engs e).delivered) :
    (s'.engs e).hist = (s.engs e).hist ++ (callsIn e ls').map fun k => ([], k) := by
  have hx := exec_append h hr
  have hd0 := not_dead_before hr hd
  obtain ⟨new, hn⟩ := hist_grows hr e
  have c1 := ((exec_known h).traced e).calls
  have c2 := ((exec_known hx).traced e).calls
  have f1 := ((exec_inv h).flow e).flow hd0
  have f2 := ((exec_inv hx).flow e).flow hd
  rw [hi] at c1 f1
  rw [hi'] at c2 f2
  simp only [APc.calling, APc.visited, Option.toList_none, List.append_nil] at c1 c2 f1 f2
  rw [hn, List.map_append, c1, callsIn_append, List.append_cancel_left_eq] at c2
  rw [hn, List.flatMap_append, hd', ← f1, hc, List.append_assoc, List.append_cancel_left_eq, List.append_eq_nil_iff, List.flatMap_eq_nil_iff] at f2
  rw [hn, List.append_cancel_left_eq, ← c2, List.map_map]
  refine (List.map_id new).symm.trans (List.map_congr_left fun b hb => ?_)
  show b = ([], b.2)
  rw [← f2.1 b hb]

/-! ## C56 -/

/-- A constructor of convolvers: for usable requests it returns what `Convolver`'s constructor returns. -/
def Constructs (F : RealFFT) (N : ℕ) (build : Buf × ConvolverSpec → ProcSpec → Convolver) : Prop :=
  ∀ ir cs p, Usable ir p.maximumBlockSize cs N → Fresh F ir p.maximumBlockSize cs N (build (ir, cs) p)

/-- All requests for engine `e` are usable with all its formats. -/
def UsableLoads (N e : ℕ) (ls : List (Label (Buf × ConvolverSpec))) : Prop :=
  ∀ (i : ℕ) (ir : Buf) (cs : ConvolverSpec), (loadsIn ls)[i]? = some (e, (ir, cs)) → ∀ p ∈ formatsIn e ls, Usable ir p.maximumBlockSize cs N

theorem usable_good {F : RealFFT} {N e : ℕ} {build : Buf × ConvolverSpec → ProcSpec → Convolver} {ls : List (Label (Buf × ConvolverSpec))} (hb : Constructs F N build)
    (hU : UsableLoads N e ls) : GoodLoads build (Serves F N) e ls := by
  rintro i ⟨ir, cs⟩ p hi hp
  have := hU i ir cs hi p hp
  exact ⟨ir, p.maximumBlockSize, cs, [], this, Heard_fresh (hb ir cs p this)⟩

/-- **C56.** The end-to-end guarantee of the concurrent system. Consider any execution up to a state `s` in which engine `e` is between calls and
has picked up everything delivered so far, load `i` being the last one it has picked up since the last `Clear`, and no reset, prepare or clear having come between the
arrival of a response during a fade and the end of that fade. If nothing more is delivered then, `blocks` (long enough for the fades) and `more` are processed —
whatever other calls, threads and engines do meanwhile — the output for `more` is exactly the convolution of the input with the impulse response of the `LoadIR` call
number `i` (for the samples for which the response only reaches back to `blocks`). -/
theorem C56_output_is_convolution_with_load {F : RealFFT} (hF : Lawful F) {N e : ℕ} {build : Buf × ConvolverSpec → ProcSpec → Convolver} (hB : Constructs F N build)
    {ls ls' : List (Label (Buf × ConvolverSpec))} {s s' : Sys Convolver (Buf × ConvolverSpec)}
    (h : Exec (convolverOps F) build ls s) (hi : (s.engs e).pc = .idle) (hc : (s.engs e).cmd = [])
    (hU : UsableLoads N e ls) (hq : NoResetWhileQueued (convolverOps F) {} (s.engs e).hist) {i : ℕ} (hlast : lastDelivered none (s.engs e).hist = some i)
    {p : ProcSpec} (hp : (formatsIn e ls).getLast? = some p)
    (hr : Run (convolverOps F) build s ls' s') (ha' : (s'.engs e).status = .alive) (hi' : (s'.engs e).pc = .idle)
    (hd' : (s'.engs e).delivered = (s.engs e).delivered)
    (hH : HostBehaves N none (callsIn e (ls ++ ls'))) {blocks more : List Buf} (hcalls : callsIn e ls' = (blocks ++ more).map Call.process)
    (hlen : 4 * ((ceilTimes kUpperFadeTimeS p.sampleRate).toNat + p.maximumBlockSize) ≤ totalLen blocks) :
    ∃ ir cs outs, (loadsIn ls)[i]? = some (e, (ir, cs)) ∧ (s'.engs e).outs = (s.engs e).outs ++ outs ∧ SameShape more (outs.drop blocks.length) ∧
      ∀ o < N, ∀ t, t < totalLen more → ir.n ≤ t + 1 →
        stream (outs.drop blocks.length) o t = routedConv ir cs.inputRouting cs.outputRouting (stream (blocks ++ more)) o (totalLen blocks + t) := by
  have hx := exec_append h hr
  have hd : (s'.engs e).status ≠ .dead := by rw [ha']; simp
  have hd0 := not_dead_before hr hd
  have hT := (exec_known h).traced e
  have ha : (s.engs e).status = .alive := by
    cases hst : (s.engs e).status with
    | alive => rfl
    | dead => exact absurd hst hd0
    | unborn =>
      have := (hT.unborn hst).2
      rw [this] at hlast; cases hlast
  have hc1 : (s.engs e).hist.map Prod.snd = callsIn e ls := by
    have := hT.calls
    rw [hi] at this
    simpa [APc.calling] using this
  have hf1 : (s.engs e).hist.flatMap Prod.fst = (s.engs e).delivered := by
    have := ((exec_inv h).flow e).flow hd0
    rw [hi, hc] at this
    simpa [APc.visited] using this
  have hHist := quiet_history h hi hc hr hd hi' hd'
  rw [hcalls, List.map_map] at hHist
  obtain ⟨c0, hcl, hco⟩ := ((exec_inv h).flow e).refines hd0
  rw [hi] at hco
  have hco : (s.engs e).core = c0 := hco
  obtain ⟨c1, hp1⟩ := exec_outs h e hd0
  obtain ⟨c2, hp2⟩ := exec_outs hx e hd
  have hc01 : c1 = c0 := by
    have := perform_calls (convolverOps F) (s.engs e).hist {}
    rw [hp1, hcl] at this
    simpa using this
  subst hc01
  -- the history is a good one
  have hH1 : HostBehaves N none (callsIn e ls) := by
    rw [callsIn_append] at hH
    exact hostBehaves_prefix _ _ none hH
  have hWF := history_fits h ha hH1 (usable_good hB hU)
  rw [hi] at hWF
  have hWF : WellFormed N (Serves F N) none (s.engs e).hist := by simpa [APc.calling] using hWF
  have hReach : Reaches (convolverOps F) N (Serves F N) (s.engs e).hist c1 := ⟨hWF, hcl⟩
  have hspec : c1.spec = some p := by rw [← hco, hT.spec hd0, hp]
  -- what was requested
  have hgot := (exec_known h).origins.got e
  have hsorted := (exec_inv h).order.sorted e
  have huniq : ∀ d ∈ (s.engs e).delivered, ∀ d' ∈ (s.engs e).delivered, d.id = d'.id → d = d' := by
    intro d hd d' hd' hid
    rw [List.pairwise_iff_getElem] at hsorted
    obtain ⟨a, ha, rfl⟩ := List.getElem_of_mem hd
    obtain ⟨b, hb, rfl⟩ := List.getElem_of_mem hd'
    rcases Nat.lt_trichotomy a b with hab | hab | hab
    · have := hsorted a b ha hb hab; omega
    · subst hab; rfl
    · have := hsorted b a hb ha hab; omega
  have hex : ∀ k : ℕ, ∃ r : Buf × ℕ × ConvolverSpec, ∀ d ∈ (s.engs e).delivered, d.id = k →
      (loadsIn ls)[k]? = some (e, (r.1, r.2.2)) ∧ Usable r.1 r.2.1 r.2.2 N ∧ Fresh F r.1 r.2.1 r.2.2 N d.obj := by
    intro k
    by_cases hk : ∃ d ∈ (s.engs e).delivered, d.id = k
    · obtain ⟨d, hdm, hdk⟩ := hk
      obtain ⟨⟨ir, cs⟩, q, g1, g2, g3⟩ := hgot d hdm
      refine ⟨(ir, q.maximumBlockSize, cs), fun d' hd' hk' => ?_⟩
      have : d' = d := huniq d' hd' d hdm (hk'.trans hdk.symm)
      subst this
      have hu := hU _ _ _ g1 q g2
      refine ⟨by rw [← hdk]; exact g1, hu, ?_⟩
      rw [g3]
      exact hB ir cs q hu
    · exact ⟨(⟨0, 0, fun _ _ => 0⟩, 0, exampleSpec), fun d hd hk' => absurd ⟨d, hd, hk'⟩ hk⟩
  choose r hrr using hex
  have hBuilt : BuiltFor F N (fun k => (r k).1) (fun k => (r k).2.1) (fun k => (r k).2.2) (s.engs e).hist := by
    intro b hb g hg
    have hm : g ∈ (s.engs e).delivered := by rw [← hf1]; exact List.mem_flatMap.mpr ⟨b, hb, hg⟩
    exact (hrr g.id g hm rfl).2
  have hblocks : ∀ b ∈ blocks ++ more, b.ch = N ∧ b.n ≤ p.maximumBlockSize := by
    rw [callsIn_append, hcalls] at hH
    refine hostBehaves_blocks (blocks ++ more) (callsIn e ls) none hH p.maximumBlockSize ?_
    show (Option.map ProcSpec.maximumBlockSize (formatsIn e ls).getLast? <|> none) = _
    rw [hp]; rfl
  obtain ⟨c', outs, hplay, hshape, hout⟩ := C45_converges_to_newest hF hBuilt hReach hq hspec hlast blocks more hblocks hlen
  have hmem : ∃ d ∈ (s.engs e).delivered, d.id = i := by
    have : ∀ (hist : List (List (Held Convolver) × Call)) (last : Option ℕ), lastDelivered last hist = some i → last = some i ∨ ∃ d ∈ hist.flatMap Prod.fst, d.id = i := by
      intro hist
      induction hist with
      | nil => intro last hl; exact Or.inl hl
      | cons b bs ih =>
        intro last hl
        obtain ⟨batch, k⟩ := b
        have step : lastDelivered (batch.getLast?.map Held.id <|> last) bs = some i → last = some i ∨ ∃ d ∈ ((batch, k) :: bs).flatMap Prod.fst, d.id = i := by
          intro hl
          rcases ih _ hl with h1 | ⟨d, h1, h2⟩
          · cases hb : batch.getLast? with
            | none => rw [hb] at h1; exact Or.inl h1
            | some g =>
              rw [hb] at h1
              right
              refine ⟨g, ?_, by simpa using h1⟩
              rw [List.flatMap_cons]
              exact List.mem_append_left _ (List.mem_of_getLast? hb)
          · right
            exact ⟨d, by rw [List.flatMap_cons]; exact List.mem_append_right _ h1, h2⟩
        cases k with
        | clear =>
          rcases ih none hl with h1 | ⟨d, h1, h2⟩
          · cases h1
          · right
            exact ⟨d, by rw [List.flatMap_cons]; exact List.mem_append_right _ h1, h2⟩
        | process blk => exact step hl
        | reset => exact step hl
        | prepare q g => exact step hl
    rcases this _ none hlast with h1 | h1
    · cases h1
    · rw [hf1] at h1; exact h1
  obtain ⟨d, hdm, hdi⟩ := hmem
  refine ⟨(r i).1, (r i).2.2, outs, (hrr i d hdm hdi).1, ?_, hshape, hout⟩
  rw [hHist, perform_append, hp1] at hp2
  have he : ((blocks ++ more).map ((fun k => (([] : List (Held Convolver)), k)) ∘ Call.process)) =
      (quietly (blocks ++ more)).map fun b => (b.1, Call.process b.2) := by
    unfold quietly
    rw [List.map_map]; rfl
  rw [he] at hp2
  simp only [Option.bind_some] at hp2
  rw [perform_play, hplay] at hp2
  simp only [Option.map_some, Option.some.injEq, Prod.mk.injEq] at hp2
  exact hp2.2.symm

/-- **C56.** The usual case: nothing is loaded before the engine has been prepared for the last time, and then it is not reset, prepared or cleared any
more, while any number of `LoadIR` calls come at any time. When nothing more is delivered, the output is, after the fades, exactly the convolution of the input with the impulse
response of the load delivered last. -/
theorem C56_end_to_end {F : RealFFT} (hF : Lawful F) {N e : ℕ} {build : Buf × ConvolverSpec → ProcSpec → Convolver} (hB : Constructs F N build)
    {ls1 ls2 ls3 : List (Label (Buf × ConvolverSpec))} {s1 s2 s3 : Sys Convolver (Buf × ConvolverSpec)}
    -- up to the last `prepare`
    (h1 : Exec (convolverOps F) build ls1 s1) (hi1 : (s1.engs e).pc = .idle) (hno : ∀ req, .loadLock e req ∉ ls1) {p : ProcSpec} (hp : (formatsIn e ls1).getLast? = some p)
    -- loads and blocks
    (h2 : Run (convolverOps F) build s1 ls2 s2) (hproc : ∀ k ∈ callsIn e ls2, ∃ blk, k = .process blk) (hi2 : (s2.engs e).pc = .idle) (hc2 : (s2.engs e).cmd = [])
    {d : Held Convolver} (hlast : (s2.engs e).delivered.getLast? = some d)
    -- blocks only
    (h3 : Run (convolverOps F) build s2 ls3 s3) (ha3 : (s3.engs e).status = .alive) (hi3 : (s3.engs e).pc = .idle) (hd3 : (s3.engs e).delivered = (s2.engs e).delivered)
    {blocks more : List Buf} (hcalls : callsIn e ls3 = (blocks ++ more).map Call.process)
    -- the host and the requests are reasonable
    (hH : HostBehaves N none (callsIn e (ls1 ++ ls2 ++ ls3))) (hU : UsableLoads N e (ls1 ++ ls2))
    (hlen : 4 * ((ceilTimes kUpperFadeTimeS p.sampleRate).toNat + p.maximumBlockSize) ≤ totalLen blocks) :
    ∃ ir cs outs, (loadsIn (ls1 ++ ls2))[d.id]? = some (e, (ir, cs)) ∧ (s3.engs e).outs = (s2.engs e).outs ++ outs ∧ SameShape more (outs.drop blocks.length) ∧
      ∀ o < N, ∀ t, t < totalLen more → ir.n ≤ t + 1 →
        stream (outs.drop blocks.length) o t = routedConv ir cs.inputRouting cs.outputRouting (stream (blocks ++ more)) o (totalLen blocks + t) := by
  have hx := exec_append h1 h2
  have hd2 := not_dead_before h3 (e := e) (by rw [ha3]; simp)
  have hd1 := not_dead_before h2 hd2
  obtain ⟨new, hn⟩ := hist_grows h2 e
  have c1 := ((exec_known h1).traced e).calls
  have c2 := ((exec_known hx).traced e).calls
  have f1 := ((exec_inv h1).flow e).flow hd1
  have f2 := ((exec_inv hx).flow e).flow hd2
  rw [hi1] at c1 f1
  rw [hi2] at c2 f2
  simp only [APc.calling, APc.visited, Option.toList_none, List.append_nil] at c1 c2 f1 f2
  rw [hn, List.map_append, c1, callsIn_append, List.append_cancel_left_eq] at c2
  rw [nothing_delivered h1 hno, List.append_eq_nil_iff, List.flatMap_eq_nil_iff] at f1
  have hnew : ∀ b ∈ new, ∃ blk, b.2 = .process blk := fun b hb => hproc b.2 (by rw [← c2]; exact List.mem_map.mpr ⟨b, hb, rfl⟩)
  have hfl : new.flatMap Prod.fst = (s2.engs e).delivered := by
    rw [hc2, List.append_nil, hn, List.flatMap_append, List.flatMap_eq_nil_iff.mpr f1.1, List.nil_append] at f2
    exact f2
  have hform : formatsIn e (ls1 ++ ls2) = formatsIn e ls1 := by
    rw [formatsIn_append]
    have : formatsIn e ls2 = [] := by
      unfold formatsIn
      rw [List.filterMap_eq_nil_iff]
      intro k hk
      obtain ⟨blk, rfl⟩ := hproc k hk
      rfl
    rw [this, List.append_nil]
  refine C56_output_is_convolution_with_load hF hB hx hi2 hc2 hU ?_ ?_ (by rw [hform]; exact hp) h3 ha3 hi3 hd3 hH hcalls hlen
  · rw [hn]; exact noReset_of new hnew _ _ ⟨rfl, rfl, rfl⟩ f1.1
  · rw [hn, lastDelivered_of new hnew _ f1.1, hfl, hlast]; rfl

end Zones.Props
