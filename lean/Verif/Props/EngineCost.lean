import Verif.Spec.EngineCost
import Verif.Proofs.CostSame
import Verif.Props.CostModel
import Verif.Props.EngineWork
import Verif.Props.EngineReset
import Verif.Props.EngineExact
import Mathlib.Tactic.Abel

/-!
# C104: how much work a call of the engine's `process` is
-/

open Zones.Spec Zones.Model Zones.Proofs

namespace Zones.Props

section tally
variable {F : RealFFT} {N : ℕ}

theorem counted_nil : counted [] = 0 := rfl
theorem counted_cons (h : Held (Convolver × Cost)) (hs : List (Held (Convolver × Cost))) : counted (h :: hs) = h.obj.2 + counted hs := rfl
theorem counted_append (hs gs : List (Held (Convolver × Cost))) : counted (hs ++ gs) = counted hs + counted gs := by
  induction hs with
  | nil => rw [List.nil_append, counted_nil, zero_add]
  | cons h hs ih => rw [List.cons_append, counted_cons, counted_cons, ih, add_assoc]

/-- What one run of a convolver adds to its counters. -/
def Adds (F : RealFFT) (N : ℕ) (P : ℕ → Convolver × Cost → Prop) (Q : ℕ → ℕ → Cost → Prop) : Prop :=
  ∀ i v blk v' o, P i v → blk.ch = N → (countedOps F).process v blk = some (v', o) → ∃ κ, Q i blk.n κ ∧ v'.2 = v.2 + κ

variable {P : ℕ → Convolver × Cost → Prop} {Q : ℕ → ℕ → Cost → Prop}

theorem runHeld_counted (hQ : Adds F N P Q) {h h' : Held (Convolver × Cost)} {b b' : Buf} (hP : P h.id h.obj) (hb : b.ch = N)
    (e : Core.runHeld (countedOps F) h b = some (h', b')) : ∃ κ, Q h.id b.n κ ∧ h'.obj.2 = h.obj.2 + κ := by
  unfold Core.runHeld at e
  obtain ⟨r, e1, e2⟩ := Option.map_eq_some_iff.mp e
  cases e2
  exact hQ _ _ _ _ r.2 hP hb e1

theorem runSlot_counted (hQ : Adds F N P Q) {h h' : Option (Held (Convolver × Cost))} {b b' : Buf} (hP : ∀ x, h = some x → P x.id x.obj) (hb : b.ch = N)
    (e : Core.runSlot (countedOps F) h b = some (h', b')) :
    ∃ κs, List.Forall₂ (fun x κ => Q x.id b.n κ) h.toList κs ∧ counted h'.toList = counted h.toList + κs.sum := by
  cases h with
  | none => cases e; exact ⟨[], .nil, by simp [counted_nil]⟩
  | some h =>
    obtain ⟨r, e1, e2⟩ := Option.map_eq_some_iff.mp (show (Core.runHeld (countedOps F) h b).map _ = _ from e)
    cases e2
    obtain ⟨κ, k1, k2⟩ := runHeld_counted hQ (h' := r.1) (b' := r.2) (hP h rfl) hb e1
    exact ⟨[κ], .cons k1 .nil, by simp [counted_cons, counted_nil, k2]⟩

theorem endFade_counted (c : Core (Convolver × Cost)) :
    counted (heldBy (c.endFade (countedOps F)).1) + counted ((c.endFade (countedOps F)).2.flatMap Option.toList) = counted (heldBy c) := by
  unfold Core.endFade
  by_cases h : c.sIn.isSmoothing = true
  · rw [if_pos h]; simp [counted_nil]
  · rw [if_neg h]
    cases hp : c.pending with
    | none => simp [heldBy, Core.resetFade, counted_append, counted_nil, hp]; abel
    | some p => simp [heldBy, Core.resetFade, Core.beginFade, Core.setFadeTime, counted_append, counted_nil, counted_cons, hp]; abel

theorem fadeStep_counted (hQ : Adds F N P Q) {c c' : Core (Convolver × Cost)} (hP : Keeps P c) (hbuf : c.fadeBuf.ch = N) {f : Held (Convolver × Cost)} (hf : c.fade = some f)
    {b b' : Buf} (hb : b.ch = N) (e : c.fadeStep (countedOps F) f b = some (c', b')) :
    ∃ κs, List.Forall₂ (fun x κ => Q x.id b.n κ) (heardBy c) κs ∧ counted (heldBy c') = counted (heldBy c) + κs.sum := by
  unfold Core.fadeStep at e
  cases hs : c.strategy with
  | crossfade =>
    rw [hs] at e
    have hh : heardBy c = c.active.toList ++ [f] := by unfold heardBy; simp only [hf]; exact if_pos hs
    unfold Core.crossfadeStep at e
    obtain ⟨fb, e1, e⟩ := Option.bind_eq_some_iff.mp e
    obtain ⟨a, e2, e⟩ := Option.bind_eq_some_iff.mp e
    obtain ⟨g, e3, e⟩ := Option.bind_eq_some_iff.mp e
    obtain ⟨o, e4, e⟩ := Option.bind_eq_some_iff.mp e
    cases e
    have hn : (fb.copyFrom b).n = b.n ∧ (fb.copyFrom b).ch = N := by
      unfold Buf.sub at e1
      split at e1
      · cases e1; exact ⟨rfl, hbuf⟩
      · cases e1
    obtain ⟨κs, k1, k2⟩ := runSlot_counted hQ (h' := a.1) (b' := a.2) hP.1 hb e2
    obtain ⟨κ, k3, k4⟩ := runHeld_counted hQ (h' := g.1) (b' := g.2) (hP.2.1 f hf) hn.2 e3
    rw [hn.1] at k3
    refine ⟨κs ++ [κ], by rw [hh]; exact List.rel_append k1 (.cons k3 .nil), ?_⟩
    simp only [heldBy, counted_append, hf, Option.toList_some, counted_cons, counted_nil, k2, k4, List.sum_append, List.sum_cons, List.sum_nil]
    abel
  | inOut =>
    rw [hs] at e
    unfold Core.inOutStep at e
    by_cases h : c.sOut.isSmoothing = true
    · rw [if_pos h] at e
      have hh : heardBy c = c.active.toList := by unfold heardBy; simp only [hf, hs]; exact if_pos h
      obtain ⟨a, e2, e⟩ := Option.bind_eq_some_iff.mp e
      cases e
      obtain ⟨κs, k1, k2⟩ := runSlot_counted hQ (h' := a.1) (b' := a.2) hP.1 hb e2
      refine ⟨κs, by rw [hh]; exact k1, ?_⟩
      simp only [heldBy, counted_append, k2]
      abel
    · rw [if_neg h] at e
      have hh : heardBy c = [f] := by unfold heardBy; simp only [hf, hs]; exact if_neg h
      obtain ⟨g, e3, e⟩ := Option.bind_eq_some_iff.mp e
      cases e
      obtain ⟨κ, k3, k4⟩ := runHeld_counted hQ (h' := g.1) (b' := g.2) (hP.2.1 f hf) hb e3
      refine ⟨[κ], by rw [hh]; exact .cons k3 .nil, ?_⟩
      simp only [heldBy, counted_append, hf, Option.toList_some, counted_cons, counted_nil, k4, List.sum_cons, List.sum_nil]
      abel

theorem process_counted (hQ : Adds F N P Q) {c c' : Core (Convolver × Cost)} (hP : Keeps P c) (hbuf : c.fade ≠ none → c.fadeBuf.ch = N) {b : Buf} (hb : b.ch = N)
    {e : Core.Effects (Convolver × Cost)} (h : c.processBody (countedOps F) b = some (c', e)) :
    ∃ κs, List.Forall₂ (fun x κ => Q x.id b.n κ) (heardBy c) κs ∧ counted (heldBy c' ++ leaving e) = counted (heldBy c) + κs.sum := by
  unfold Core.processBody at h
  cases hf : c.fade with
  | none =>
    rw [hf] at h
    obtain ⟨r, e1, e2⟩ := Option.map_eq_some_iff.mp h
    cases e2
    obtain ⟨κs, k1, k2⟩ := runSlot_counted hQ (h' := r.1) (b' := r.2) hP.1 hb e1
    have hh : heardBy c = c.active.toList := by unfold heardBy; rw [hf]
    refine ⟨κs, by rw [hh]; exact k1, ?_⟩
    simp only [heldBy, leaving, counted_append, counted_nil, k2, hf, List.flatMap_nil, Option.toList_none]
    abel
  | some f =>
    rw [hf] at h
    obtain ⟨r, e1, e2⟩ := Option.map_eq_some_iff.mp h
    cases e2
    obtain ⟨κs, k1, k2⟩ := fadeStep_counted hQ hP (hbuf (by rw [hf]; simp)) hf (b' := r.2) hb e1
    refine ⟨κs, k1, ?_⟩
    have := endFade_counted (F := F) r.1
    simp only [counted_append, leaving, List.append_nil, counted_nil]
    rw [this, k2]

theorem heardBy_le {W : Type} (c : Core W) : (heardBy c).length ≤ 2 := by
  unfold heardBy
  cases c.fade <;> cases c.active <;> simp <;> split_ifs <;> simp

end tally

/-- The convolver that is built for response `i`, and its partition scheme. -/
structure Planned (F : RealFFT) (N : ℕ) (irs : ℕ → Buf) (maxBs : ℕ → ℕ) (specs : ℕ → ConvolverSpec) (Bs : ℕ → ℕ) (firsts : ℕ → Layout) (rests : ℕ → List Layout) (i : ℕ)
    (v : Convolver) : Prop where
  usable : Usable (irs i) (maxBs i) (specs i) N
  fresh : Fresh F (irs i) (maxBs i) (specs i) N v
  block : internalBlockSize 64 (maxBs i) (specs i).internalBlockSize = some (Bs i)
  scheme : getPartitionScheme kGarciaResults (Bs i) (irs i).n = some (firsts i :: rests i)

section cost
variable {F : RealFFT} {N : ℕ} {irs : ℕ → Buf} {maxBs : ℕ → ℕ} {specs : ℕ → ConvolverSpec} {Bs : ℕ → ℕ} {firsts : ℕ → Layout} {rests : ℕ → List Layout}

/-- Such a convolver in use, with counters. -/
def InPlan (F : RealFFT) (N : ℕ) (irs : ℕ → Buf) (maxBs : ℕ → ℕ) (specs : ℕ → ConvolverSpec) (Bs : ℕ → ℕ) (firsts : ℕ → Layout) (rests : ℕ → List Layout) (i : ℕ)
    (v : Convolver × Cost) : Prop :=
  InUse F N irs maxBs specs i v.1 ∧ internalBlockSize 64 (maxBs i) (specs i).internalBlockSize = some (Bs i) ∧
    getPartitionScheme kGarciaResults (Bs i) (irs i).n = some (firsts i :: rests i)

theorem heard_history {ir : Buf} {maxB : ℕ} {spec : ConvolverSpec} {past : List Buf} {v : Convolver} (h : Heard F ir maxB spec N past v) :
    ∃ g r0 c0 ops, Convolver.create F ir maxB spec g r0 = some c0 ∧ (∀ b, Op.process b ∈ ops → b.ch = N) ∧ history (Convolver.process F) Convolver.reset c0 ops = some v := by
  obtain ⟨hp, c, outs, hf, e⟩ := h
  obtain ⟨g, r0, c0, e0, hc⟩ := hf
  have hh := feed_history (reset := Convolver.reset) past c v outs e
  have hpm : ∀ b, Op.process b ∈ past.map Op.process → b.ch = N := by
    intro b hb
    rw [List.mem_map] at hb
    obtain ⟨b', hb', e⟩ := hb
    cases e
    exact hp b hb'
  rcases hc with rfl | ⟨ops, s, hops, hs, rfl⟩
  · exact ⟨g, r0, c, past.map Op.process, e0, hpm, hh⟩
  · refine ⟨g, r0, c0, ops ++ .reset :: past.map Op.process, e0, ?_, ?_⟩
    · intro b hb
      rcases List.mem_append.mp hb with h | h
      · exact hops b h
      · rcases List.mem_cons.mp h with h | h
        · cases h
        · exact hpm b h
    · rw [history_append, hs]
      exact hh

/-- What a run of the convolver of response `i` costs, for a block of `n` samples. -/
def RunCost (irs : ℕ → Buf) (Bs : ℕ → ℕ) (firsts : ℕ → Layout) (rests : ℕ → List Layout) (i n : ℕ) (κ : Cost) : Prop :=
  ∃ j t, CallCost (Bs i) (irs i).ch (partitionsNeeded (Bs i) (min ((firsts i).np * Bs i) (irs i).n)) (stagesOf (Bs i) (irs i).n ((firsts i).np * Bs i) (rests i)) j t n κ ∧
    κ.butterflies ≤ (t % Bs i + n) / Bs i * ((rests i).map fun l => stagePeak (Bs i) l.psb (irs i).ch).sum ∧ t % Bs i < Bs i

theorem inPlan_run (hF : Lawful F) {i : ℕ} {v : Convolver × Cost} (h : InPlan F N irs maxBs specs Bs firsts rests i v) {blk : Buf} (hb : blk.ch = N) :
    ∃ r κ, Convolver.process F v.1 blk = some r ∧ (countedOps F).process v blk = some ((r.1, v.2 + κ), r.2) ∧ RunCost irs Bs firsts rests i blk.n κ := by
  obtain ⟨⟨hU, past, hH⟩, hB, hS⟩ := h
  obtain ⟨g, r0, c0, ops, e0, hops, eh⟩ := heard_history hH
  obtain ⟨b, c, eB, _, hpow, e, hh⟩ := counted_history hF hU g r0 hB hS
  rw [e0] at e
  cases e
  obtain ⟨used, e1, hdef, hs⟩ := hh ops hops
  rw [eh] at e1
  cases e1
  obtain ⟨r, e2⟩ := hdef blk hb
  have k := (process_costs (F := F) hs blk).1
  obtain ⟨c1, e3, h1⟩ := C87_exact hF hU g r0 hB hS
  obtain ⟨c2, e4, h2⟩ := C87_worst_block hF hU g r0 hB hS
  rw [e0] at e3 e4
  cases e3; cases e4
  obtain ⟨used, r', κ, f1, f2, f3, f4⟩ := h1 ops blk hops hb
  rw [eh] at f1
  cases f1
  rw [e2] at f2
  cases f2
  obtain ⟨used, r', κ', g1, g2, g3, g4, _⟩ := h2 ops blk hops hb
  rw [eh] at g1
  cases g1
  rw [e2] at g2
  cases g2
  have f3' := f3
  rw [g3] at f3
  cases f3
  rw [k 0, e2] at f3'
  simp only [Option.map_some, Option.some.injEq, Prod.mk.injEq, zero_add, true_and] at f3'
  refine ⟨r, κ, e2, ?_, _, _, f4, g4, Nat.mod_lt _ (by rw [eB]; positivity)⟩
  show (Convolver.processC F v.1 blk v.2).map _ = _
  rw [k v.2, e2, f3']
  rfl

theorem inPlan_accepts (hF : Lawful F) : Accepts (countedOps F) N (fun v => ∃ i, InPlan F N irs maxBs specs Bs firsts rests i v) := by
  constructor
  · rintro v blk ⟨i, h⟩ hb
    obtain ⟨r, κ, e1, e2, _⟩ := inPlan_run hF h hb
    have hU := h.1.1
    obtain ⟨past, hH⟩ := h.1.2
    obtain ⟨v', o, e3, k1, k2, _, k3, k4⟩ := (accepts_convolver hF N).process v.1 blk ⟨_, _, _, past, hU, hH⟩ hb
    have e3' : Convolver.process F v.1 blk = some (v', o) := e3
    rw [e1] at e3'
    cases e3'
    exact ⟨_, _, e2, k1, k2, ⟨i, (inUse_lasting hF N irs maxBs specs).process i v.1 blk _ _ h.1 hb e3, h.2⟩, k3, k4⟩
  · rintro v ⟨i, h⟩
    exact ⟨⟨i, (inUse_lasting hF N irs maxBs specs).reset i v.1 h.1, h.2⟩, rfl, rfl⟩

theorem inPlan_lasting (hF : Lawful F) : Lasting (countedOps F) N (InPlan F N irs maxBs specs Bs firsts rests) := by
  constructor
  · intro i v blk v' o h hb e
    obtain ⟨r, κ, e1, e2, _⟩ := inPlan_run hF h hb
    rw [e] at e2
    cases e2
    exact ⟨(inUse_lasting hF N irs maxBs specs).process i v.1 blk _ _ h.1 hb e1, h.2⟩
  · intro i v h
    exact ⟨(inUse_lasting hF N irs maxBs specs).reset i v.1 h.1, h.2⟩

theorem inPlan_adds (hF : Lawful F) : Adds F N (InPlan F N irs maxBs specs Bs firsts rests) (RunCost irs Bs firsts rests) := by
  intro i v blk v' o h hb e
  obtain ⟨r, κ, e1, e2, k⟩ := inPlan_run hF h hb
  rw [e] at e2
  cases e2
  exact ⟨κ, k, rfl⟩

theorem wellFormed_good {V : Type} {N : ℕ} {Good : V → Prop} : ∀ (hist : List (List (Held V) × Call)) (M : Option ℕ), (∀ b ∈ hist, ∀ g ∈ b.1, Good g.obj) →
    WellFormed N (fun _ => True) M hist → WellFormed N Good M hist
  | [], _, _, _ => trivial
  | (batch, k) :: rest, M, h, w => by
    have ih := fun M => wellFormed_good (N := N) (Good := Good) rest M fun b hb => h b (by simp [hb])
    cases k with
    | process blk => exact ⟨h _ List.mem_cons_self, w.2.1, w.2.2.1, w.2.2.2.1, ih _ w.2.2.2.2⟩
    | reset => exact ⟨h _ List.mem_cons_self, w.2.1, ih _ w.2.2⟩
    | clear => exact ⟨h _ List.mem_cons_self, w.2.1, ih _ w.2.2⟩
    | prepare p g => exact ⟨h _ List.mem_cons_self, w.2.1, w.2.2.1, ih _ w.2.2.2⟩

theorem calls_known {V : Type} {N : ℕ} {Good : V → Prop} {ops : ConvOps V} (hA : Accepts ops N Good) {rest : List (List (Held V) × Call)} :
    ∀ (hist : List (List (Held V) × Call)) (M : Option ℕ) (c : Core V), Known N Good M c → WellFormed N Good M (hist ++ rest) →
      ∃ c' M', c.calls ops hist = some c' ∧ Known N Good M' c' ∧ WellFormed N Good M' rest
  | [], M, c, hk, hw => ⟨c, M, rfl, hk, hw⟩
  | (batch, k) :: hist, M, c, hk, hw => by
    obtain ⟨r, M', e, hk', hw', _⟩ := call_known hA hk hw
    obtain ⟨c', M'', e', h⟩ := calls_known hA hist M' r.1 hk' hw'
    refine ⟨c', M'', ?_, h⟩
    unfold Core.calls
    simp only [e, Option.bind_some]
    exact e'

/-- **C104.** What a call of the engine's `process` executes, after any history of calls that a host may make and any arrivals: exactly one run of each convolver that can be heard (at most two; `s` is the
engine when it has taken in what arrived), and each run executes the operations C87 says, for the number of samples of the host's block. The rest of the call executes none. -/
theorem C104_engine_cost (hF : Lawful F) {hist : List (List (Held (Convolver × Cost)) × Call)} {batch : List (Held (Convolver × Cost))} {blk : Buf}
    (hB : ∀ b ∈ hist ++ [(batch, .process blk)], ∀ g ∈ b.1, Planned F N irs maxBs specs Bs firsts rests g.id g.obj.1)
    (hw : WellFormed N (fun _ => True) none (hist ++ [(batch, .process blk)])) :
    ∃ c c' e κs, Core.calls (countedOps F) {} hist = some c ∧ c.call (countedOps F) batch (.process blk) = some (c', e) ∧ ∃ s, s = c.service (countedOps F) batch ∧
      (heardBy s).length ≤ 2 ∧
      List.Forall₂ (fun h κ => ∃ j t, CallCost (Bs h.id) (irs h.id).ch (partitionsNeeded (Bs h.id) (min ((firsts h.id).np * Bs h.id) (irs h.id).n))
        (stagesOf (Bs h.id) (irs h.id).n ((firsts h.id).np * Bs h.id) (rests h.id)) j t blk.n κ) (heardBy s) κs ∧
      counted (heldBy c' ++ leaving e) = counted (heldBy s) + κs.sum ∧
      κs.sum.butterflies ≤ ((heardBy s).map fun h => (Bs h.id - 1 + blk.n) / Bs h.id * ((rests h.id).map fun l => stagePeak (Bs h.id) l.psb (irs h.id).ch).sum).sum := by
  have hP : ∀ b ∈ hist ++ [(batch, .process blk)], ∀ g ∈ b.1, InPlan F N irs maxBs specs Bs firsts rests g.id g.obj := fun b hb g hg =>
    ⟨⟨(hB b hb g hg).usable, [], Heard_fresh (hB b hb g hg).fresh⟩, (hB b hb g hg).block, (hB b hb g hg).scheme⟩
  have hA := inPlan_accepts (N := N) (irs := irs) (maxBs := maxBs) (specs := specs) (Bs := Bs) (firsts := firsts) (rests := rests) hF
  have hw := wellFormed_good (Good := fun v => ∃ i, InPlan F N irs maxBs specs Bs firsts rests i v) _ _ (fun b hb g hg => ⟨_, hP b hb g hg⟩) hw
  obtain ⟨c, M, e1, hk, hw2⟩ := calls_known hA hist none {} (start_known N _) hw
  have hkeep := calls_keeps hA (inPlan_lasting hF) hist none {} c (start_known N _) (wellFormed_prefix hist _ none hw)
    ⟨fun x hx => (by cases hx), fun x hx => (by cases hx), fun x hx => (by cases hx)⟩ (fun b hb g hg => hP b (by simp [hb]) g hg) e1
  obtain ⟨r, M', e2, _⟩ := call_known hA hk hw2
  have hkeep' := hkeep.service (ops := countedOps F) batch (fun g hg => hP (batch, .process blk) (by simp) g hg)
  have hbuf : (c.service (countedOps F) batch).fade ≠ none → (c.service (countedOps F) batch).fadeBuf.ch = N := by
    intro hne
    cases M with
    | none =>
      have : batch = [] := hw2.2.1 rfl nofun
      subst this
      exact absurd hk.1.2.1 hne
    | some m => exact (hk.service hw2.1).2.1.bufCh
  obtain ⟨κs, k1, k2⟩ := process_counted (inPlan_adds hF) hkeep' hbuf hw2.2.2.1 (show (c.service (countedOps F) batch).processBody (countedOps F) blk = some (r.1, r.2) from e2)
  refine ⟨c, r.1, r.2, κs, e1, e2, _, rfl, heardBy_le _, k1.imp fun x κ ⟨j, t, h, _⟩ => ⟨j, t, h⟩, k2, ?_⟩
  clear k2 hkeep' hbuf
  generalize heardBy (c.service (countedOps F) batch) = hs at k1
  induction k1 with
  | nil => exact le_rfl
  | @cons x κ hs κs h _ ih =>
    obtain ⟨j, t, _, h1, h2⟩ := h
    rw [List.sum_cons, List.map_cons, List.sum_cons]
    refine Nat.add_le_add (h1.trans (Nat.mul_le_mul_right _ (Nat.div_le_div_right ?_))) ih
    omega

/-- **C104.** Counting changes nothing, whatever state the convolvers and the engine are in: without the counters, a call does what it does to ordinary convolvers. -/
theorem C104_counters_are_only_written (c : Core (Convolver × Cost)) (batch : List (Held (Convolver × Cost))) (k : Call) :
    (c.call (countedOps F) batch k).map (fun r => (plainCore r.1, plainEffects r.2)) = (plainCore c).call (convolverOps F) (batch.map plainHeld) k := by
  have : countedOps F = noted (convolverOps F) fun v blk => ((Convolver.processC F v.1 blk v.2).map Prod.snd).getD 0 := by
    unfold countedOps noted
    congr 1
    funext v blk
    show _ = (Convolver.process F v.1 blk).map _
    have h := convolver_process_same F v.1 blk v.2
    rw [← h]
    simp only []
    cases Convolver.processC F v.1 blk v.2 <;> rfl
  rw [this]
  exact noted_are_only_written c batch k

end cost

/-! ## A concrete case -/

/-- A crossfade between two convolvers of three channels and 2048 samples: both run, and 64 samples complete one block in each, at any position in the schedule. -/
example (g : Garbage) : ∃ v c c' e, ∃ κs : List Cost, Convolver.create referenceFFT tabledIR 64 tabledSpec g (fun _ _ => 7) = some v ∧
    Core.calls (countedOps referenceFFT) {} [([], .prepare ⟨48000, 64, 2⟩ fun _ _ => 0), ([⟨0, (v, 0)⟩], .process ⟨2, 64, fun _ i => i⟩)] = some c ∧
    c.call (countedOps referenceFFT) [⟨1, (v, 0)⟩] (.process ⟨2, 64, fun _ i => i⟩) = some (c', e) ∧
    counted (heldBy c' ++ leaving e) = counted (heldBy (c.service (countedOps referenceFFT) [⟨1, (v, 0)⟩])) + κs.sum ∧ κs.sum.butterflies ≤ 6912 := by
  obtain ⟨v, ev, _⟩ := C87_exact referenceFFT_lawful tabledUsable g (fun _ _ => 7) (B := 64) (by decide) tabledScheme
  have hp : ∀ i, Planned referenceFFT 2 (fun _ => tabledIR) (fun _ => 64) (fun _ => tabledSpec) (fun _ => 64) (fun _ => ⟨1, 9⟩) (fun _ => [⟨4, 6⟩]) i v :=
    fun i => ⟨tabledUsable, ⟨g, _, v, ev, Or.inl rfl⟩, by decide, tabledScheme⟩
  have := C104_engine_cost referenceFFT_lawful (N := 2) (irs := fun _ => tabledIR) (maxBs := fun _ => 64) (specs := fun _ => tabledSpec) (Bs := fun _ => 64)
    (firsts := fun _ => ⟨1, 9⟩) (rests := fun _ => [⟨4, 6⟩]) (hist := [([], .prepare ⟨48000, 64, 2⟩ fun _ _ => 0), ([⟨0, (v, 0)⟩], .process ⟨2, 64, fun _ i => i⟩)])
    (batch := [⟨1, (v, 0)⟩]) (blk := ⟨2, 64, fun _ i => i⟩) ?_ ?_
  · obtain ⟨c, c', e, κs, e1, e2, s, rfl, h2, k1, k2, k3⟩ := this
    refine ⟨v, c, c', e, κs, ev, e1, e2, k2, ?_⟩
    have hl : ∀ hs : List (Held (Convolver × Cost)), (hs.map fun _ => (64 - 1 + 64) / 64 * (([⟨4, 6⟩] : List Layout).map fun l => stagePeak 64 l.psb tabledIR.ch).sum).sum =
        hs.length * 3456 := by
      intro hs
      have : (64 - 1 + 64) / 64 * (([⟨4, 6⟩] : List Layout).map fun l => stagePeak 64 l.psb 3).sum = 3456 := by decide +kernel
      have this' : (64 - 1 + 64) / 64 * (([⟨4, 6⟩] : List Layout).map fun l => stagePeak 64 l.psb tabledIR.ch).sum = 3456 := this
      rw [this', List.map_const', List.sum_replicate, smul_eq_mul]
    rw [hl] at k3
    omega
  · intro b hb x hx
    simp only [List.cons_append, List.nil_append, List.mem_cons, List.not_mem_nil, or_false] at hb
    rcases hb with rfl | rfl | rfl
    · cases hx
    · simp only [List.mem_cons, List.not_mem_nil, or_false] at hx
      subst hx; exact hp _
    · simp only [List.mem_cons, List.not_mem_nil, or_false] at hx
      subst hx; exact hp _
  · refine ⟨fun _ _ => trivial, fun _ _ => rfl, ⟨rfl, by norm_num, by norm_num, by norm_num⟩, ?_⟩
    refine ⟨fun _ _ => trivial, fun h => (by cases h), rfl, fun m hm => (by cases hm; exact le_refl 64), ?_⟩
    exact ⟨fun _ _ => trivial, fun h => (by cases h), rfl, fun m hm => (by cases hm; exact le_refl 64), trivial⟩

end Zones.Props
