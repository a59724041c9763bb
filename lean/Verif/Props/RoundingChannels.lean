import Verif.Proofs.RRelConvolver
import Verif.Props.Rounding

/-!
# Channels do not interact, not even through rounding (C68)

Equality of samples here is equality of their values: in floating point, bit for bit, except that `0.0` and `-0.0` are the same.
-/

open Finset Zones.Spec Zones.Model Zones.Proofs Zones.Proofs.R

namespace Zones.Props

variable [Arith] {u τ ε : ℝ} {L : ℕ}

theorem KRel_history [ZeroLaws] {F : RealFFT} (hP : InPlace F) {S : Setup} {ops ops' : List Op} (ha : List.Forall₂ (AgreeOp S.ips) ops ops') :
    ∀ {s s' : Convolver}, KRel S s s' → (∀ b, Op.process b ∈ ops → b.ch = S.N) → (∀ b, Op.process b ∈ ops' → b.ch = S.N') →
    OR (KRel S) (history (Convolver.processR F) Convolver.reset s ops) (history (Convolver.processR F) Convolver.reset s' ops') := by
  induction ha with
  | nil => intro s s' h _ _; exact OR.some h
  | cons hop hrest ih =>
    intro s s' h h1 h2
    cases hop with
    | process hb =>
      exact OR.bind (h.processR hP (h1 _ (by simp)) (h2 _ (by simp)) hb) fun x y hxy =>
        ih hxy.1 (fun b hb => h1 b (by simp [hb])) (fun b hb => h2 b (by simp [hb]))
    | reset =>
      exact ih h.reset (fun b hb => h1 b (by simp [hb])) (fun b hb => h2 b (by simp [hb]))

theorem KRel_feed {F : RealFFT} (hP : InPlace F) {S : Setup} {bs bs' : List Buf} (ha : List.Forall₂ (AgreeOn S.ips) bs bs') :
    ∀ {s s' : Convolver}, KRel S s s' → (∀ b ∈ bs, b.ch = S.N) → (∀ b ∈ bs', b.ch = S.N') →
    OR (fun x y => ∀ n < totalLen bs, stream x.2 S.o n = stream y.2 S.o' n)
      (feed (Convolver.processR F) s bs) (feed (Convolver.processR F) s' bs') := by
  induction ha with
  | nil => intro s s' h _ _; exact OR.some fun n hn => by simp [totalLen] at hn
  | @cons b b' l l' hb hrest ih =>
    intro s s' h h1 h2
    unfold feed
    refine OR.bind (h.processR hP (h1 _ (by simp)) (h2 _ (by simp)) hb) fun x y ⟨k1, k2, k3, k4⟩ => ?_
    intro z hz w hw
    obtain ⟨q, hq, rfl⟩ := Option.map_eq_some_iff.mp hz
    obtain ⟨q', hq', rfl⟩ := Option.map_eq_some_iff.mp hw
    intro n hn
    unfold totalLen at hn
    have := ih k1 (fun b hb => h1 b (by simp [hb])) (fun b hb => h2 b (by simp [hb])) q hq q' hq'
    simp only [stream]
    rw [k2, k3]
    split
    · next hlt => exact k4 n hlt
    · exact this _ (by omega)

theorem feed_of_history {σ : Type} {process : σ → Buf → Option (σ × Buf)} {reset : σ → σ} (blocks : List Buf) :
    ∀ {s s' : σ}, history process reset s (blocks.map .process) = some s' → ∃ outs, feed process s blocks = some (s', outs) := by
  induction blocks with
  | nil => intro s s' h; cases h; exact ⟨[], rfl⟩
  | cons b bs ih =>
    intro s s' h
    obtain ⟨r, hr, h⟩ := Option.bind_eq_some_iff.mp h
    obtain ⟨outs, e⟩ := ih h
    exact ⟨r.2 :: outs, by unfold feed; rw [hr]; simp [e]⟩

theorem history_append {σ : Type} {process : σ → Buf → Option (σ × Buf)} {reset : σ → σ} (a b : List Op) :
    ∀ s, history process reset s (a ++ b) = (history process reset s a).bind fun s => history process reset s b := by
  induction a with
  | nil => intro s; rfl
  | cons o a ih =>
    intro s
    cases o with
    | process blk =>
      simp only [List.cons_append, history, Option.bind_assoc, ih]
    | reset => simp only [List.cons_append, history, ih]

/-- every history of a usable convolver is defined, and so is everything that follows it -/
theorem usable_runs (hA : Accurate u τ L) {F : RealFFT} (hF : Approx F ε) {ir : Buf} {maxB N : ℕ}
    {spec : ConvolverSpec} (h : Usable ir maxB spec N) {B : ℕ} {sch : List Layout}
    (hB : internalBlockSize Convolver.po2Fuel maxB spec.internalBlockSize = some B)
    (hsch : getPartitionScheme kGarciaResults B ir.n = some sch)
    (hL : ∀ l ∈ sch, 2 * (l.psb * B) ≤ 2^L) (g : Garbage) (r0 : ℕ → ℕ → ℝ) :
    ∃ c, Convolver.createR F ir maxB spec g r0 = some c ∧
      ∀ ops : List Op, (∀ b, Op.process b ∈ ops → b.ch = N) →
        ∃ used, history (Convolver.processR F) Convolver.reset c ops = some used ∧
          ∀ blocks : List Buf, (∀ b ∈ blocks, b.ch = N) →
            ∃ c' outs, feed (Convolver.processR F) used blocks = some (c', outs) := by
  obtain ⟨K, hK⟩ : ∃ K, ∀ l ∈ sch, l.np ≤ K := by
    clear hsch hL
    induction sch with
    | nil => exact ⟨0, by simp⟩
    | cons l sch ih =>
      obtain ⟨K, hK⟩ := ih
      refine ⟨max l.np K, fun m hm => ?_⟩
      rcases List.mem_cons.mp hm with rfl | hm
      · exact le_max_left _ _
      · exact (hK m hm).trans (le_max_right _ _)
  obtain ⟨c, n0, rest, e, _, _, _, hk, hc⟩ := usable_createR hA hF h hB hsch (fun l hl => ⟨hL l hl, hK l hl⟩) g r0
  refine ⟨c, e, fun ops hops => ?_⟩
  obtain ⟨used, e1, _⟩ := historyR_good h hk hc ops hops
  refine ⟨used, e1, fun blocks hb => ?_⟩
  obtain ⟨c', e2, _⟩ := historyR_good h hk hc (ops ++ blocks.map .process) (by
    intro b hb'
    rcases List.mem_append.mp hb' with hb' | hb'
    · exact hops b hb'
    · obtain ⟨b', h1, h2⟩ := List.mem_map.mp hb'
      cases h2
      exact hb _ h1)
  rw [history_append, e1] at e2
  obtain ⟨outs, e3⟩ := feed_of_history blocks e2
  exact ⟨c', outs, e3⟩

/-- **C68.** Take two convolvers with the same internal block size and impulse responses of the same length, and an output of each.
If the IR channels that are routed to the two outputs, taken in order, hold the same samples and get the same input, then the two
outputs are equal, sample for sample, whatever the rounding: they depend neither on the other channels, nor on how many of them
there are, nor on the uninitialised memory that the objects were constructed in. -/
theorem C68_equal_channels_give_equal_outputs (hA : Accurate u τ L) {F : RealFFT} (hF : Approx F ε) (hP : InPlace F)
    {ir ir' : Buf} {maxB maxB' N N' : ℕ} {spec spec' : ConvolverSpec} (h : Usable ir maxB spec N) (h' : Usable ir' maxB' spec' N')
    {B : ℕ} {sch : List Layout} (hB : internalBlockSize Convolver.po2Fuel maxB spec.internalBlockSize = some B)
    (hB' : internalBlockSize Convolver.po2Fuel maxB' spec'.internalBlockSize = some B) (hn : ir.n = ir'.n)
    (hsch : getPartitionScheme kGarciaResults B ir.n = some sch) (hL : ∀ l ∈ sch, 2 * (l.psb * B) ≤ 2^L)
    {o o' : ℕ} (ho : o < N) (ho' : o' < N') {ps : List (ℕ × ℕ)} (hps : ps.map Prod.fst = channelsTo spec.outputRouting ir.ch o)
    (hps' : ps.map Prod.snd = channelsTo spec'.outputRouting ir'.ch o')
    (hir : ∀ p ∈ ps, ∀ i < ir.n, ir.data p.1 i = ir'.data p.2 i) (g g' : Garbage) (r0 r0' : ℕ → ℕ → ℝ) :
    ∃ c c', Convolver.createR F ir maxB spec g r0 = some c ∧ Convolver.createR F ir' maxB' spec' g' r0' = some c' ∧
      ∀ ops ops', List.Forall₂ (AgreeOp (ps.map fun p => (channelAt spec.inputRouting p.1, channelAt spec'.inputRouting p.2))) ops ops' →
        (∀ b, Op.process b ∈ ops → b.ch = N) → (∀ b, Op.process b ∈ ops' → b.ch = N') →
        ∃ used used', history (Convolver.processR F) Convolver.reset c ops = some used ∧
          history (Convolver.processR F) Convolver.reset c' ops' = some used' ∧
          ∀ blocks blocks',
            List.Forall₂ (AgreeOn (ps.map fun p => (channelAt spec.inputRouting p.1, channelAt spec'.inputRouting p.2))) blocks blocks' →
            (∀ b ∈ blocks, b.ch = N) → (∀ b ∈ blocks', b.ch = N') →
            ∃ e e' outs outs', feed (Convolver.processR F) used blocks = some (e, outs) ∧
              feed (Convolver.processR F) used' blocks' = some (e', outs') ∧
              ∀ n < totalLen blocks, stream outs o n = stream outs' o' n := by
  haveI := zeroLaws hA
  obtain ⟨c, hc, hc1⟩ := usable_runs hA hF h hB hsch hL g r0
  obtain ⟨c', hc', hc1'⟩ := usable_runs hA hF h' hB' (by rw [← hn]; exact hsch) hL g' r0'
  let S : Setup := ⟨spec, spec', ir.ch, ir'.ch, N, N', o, o', ps, h.inputs, h'.inputs, h.outputs, h'.outputs, ho, ho', hps, hps'⟩
  obtain ⟨b, _, hb, e, _, _⟩ := internalBlockSize_eq (fuel := Convolver.po2Fuel) (by unfold Convolver.po2Fuel; omega)
    (requested_le h.blockSize)
  rw [hB] at e
  have hBb := Option.some.inj e
  have hrel : KRel S c c' := by
    refine KRel.createR (S := S) hP (ir := ir) (ir' := ir') rfl rfl ?_ ?_ hB hB' h.nonempty h.size (fun p hp => ?_) g g' r0 r0' c hc c' hc'
    · rw [hBb]; positivity
    · rw [hBb]; exact Nat.pow_le_pow_right (by norm_num) (by omega)
    · exact ⟨hn, fun _ => S.lt hp, hir p hp⟩
  refine ⟨c, c', hc, hc', fun ops ops' ha hch hch' => ?_⟩
  obtain ⟨used, e1, h1⟩ := hc1 ops hch
  obtain ⟨used', e1', h1'⟩ := hc1' ops' hch'
  have hrel' := KRel_history (S := S) hP ha hrel hch hch' used e1 used' e1'
  refine ⟨used, used', e1, e1', fun blocks blocks' hb hbc hbc' => ?_⟩
  obtain ⟨e, outs, e2⟩ := h1 blocks hbc
  obtain ⟨e', outs', e2'⟩ := h1' blocks' hbc'
  exact ⟨e, e', outs, outs', e2, e2', KRel_feed (S := S) hP hb hrel' hbc hbc' _ e2 _ e2'⟩

/-- **C68**, one convolver: two sequences of blocks that agree on the input channels that are routed to output `o` leave the same samples
there, whatever else is sent to the other inputs. -/
theorem C68_other_channels_do_not_matter (hA : Accurate u τ L) {F : RealFFT} (hF : Approx F ε) (hP : InPlace F)
    {ir : Buf} {maxB N : ℕ} {spec : ConvolverSpec} (h : Usable ir maxB spec N)
    {B : ℕ} {sch : List Layout} (hB : internalBlockSize Convolver.po2Fuel maxB spec.internalBlockSize = some B)
    (hsch : getPartitionScheme kGarciaResults B ir.n = some sch) (hL : ∀ l ∈ sch, 2 * (l.psb * B) ≤ 2^L)
    {o : ℕ} (ho : o < N) (g : Garbage) (r0 : ℕ → ℕ → ℝ) :
    ∃ c, Convolver.createR F ir maxB spec g r0 = some c ∧
      ∀ blocks blocks' : List Buf, (∀ b ∈ blocks, b.ch = N) → (∀ b ∈ blocks', b.ch = N) →
        List.Forall₂ (fun b b' => b.n = b'.n ∧ ∀ c < ir.ch, channelAt spec.outputRouting c = o → ∀ i < b.n,
          b.data (channelAt spec.inputRouting c) i = b'.data (channelAt spec.inputRouting c) i) blocks blocks' →
        ∃ e e' outs outs', feed (Convolver.processR F) c blocks = some (e, outs) ∧
          feed (Convolver.processR F) c blocks' = some (e', outs') ∧
          ∀ n < totalLen blocks, stream outs o n = stream outs' o n := by
  obtain ⟨c, c', hc, hc', hrun⟩ := C68_equal_channels_give_equal_outputs hA hF hP h h hB hB rfl hsch hL ho ho
    (ps := (channelsTo spec.outputRouting ir.ch o).map fun c => (c, c)) (by rw [List.map_map]; exact List.map_id _) (by rw [List.map_map]; exact List.map_id _)
    (by
      intro p hp i _
      obtain ⟨c, _, rfl⟩ := List.mem_map.mp hp
      rfl) g g r0 r0
  rw [hc] at hc'
  cases hc'
  refine ⟨c, hc, fun blocks blocks' hb hb' hag => ?_⟩
  obtain ⟨used, used', e1, e1', hf⟩ := hrun [] [] .nil (by simp) (by simp)
  cases e1; cases e1'
  refine hf blocks blocks' (hag.imp ?_) hb hb'
  rintro b b' ⟨h1, h2⟩
  refine ⟨h1, fun p hp i hi => ?_⟩
  obtain ⟨q, hq, rfl⟩ := List.mem_map.mp hp
  obtain ⟨c, hc, rfl⟩ := List.mem_map.mp hq
  unfold channelsTo at hc
  rw [List.mem_filter, List.mem_range] at hc
  exact h2 c hc.1 (of_decide_eq_true hc.2) i hi

end Zones.Props
