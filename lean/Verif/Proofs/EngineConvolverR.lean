import Verif.Proofs.EngineConvolver
import Verif.Props.Rounding
import Verif.Spec.FloatEngine

/-! The real `Convolver` in the engine, in floating point. -/

open Zones.Model Zones.Spec Zones.Props

namespace Zones.Proofs.R

variable [Arith] {u τ ε : ℝ} {L K : ℕ}

/-- A convolver for some usable impulse response and specification, with transforms of at most `2^L` points, in any state of use. -/
def ServesR (F : RealFFT) (N L : ℕ) (v : Convolver) : Prop :=
  ∃ ir maxB spec K B sch past, Usable ir maxB spec N ∧ Cut ir maxB spec L K B sch ∧ HeardR F ir maxB spec N past v

/-- `Process` does not change the specification or the length. -/
theorem loopR_fixed {F : RealFFT} : ∀ (fuel : ℕ) {s s' : Convolver} {blk blk' : Buf} {done : ℕ}, Convolver.loopR F fuel s blk done = some (s', blk') →
    s'.spec = s.spec ∧ s'.numSamples = s.numSamples
  | 0, s, s', blk, blk', done, h => by
    unfold Convolver.loopR at h
    split at h
    · cases h
    · cases h; exact ⟨rfl, rfl⟩
  | fuel + 1, s, s', blk, blk', done, h => by
    unfold Convolver.loopR at h
    split at h
    · simp only [Option.bind_eq_bind] at h
      cases hb : s.bodyR F blk done (min (blk.n - done) s.blockSize) with
      | none => rw [hb] at h; cases h
      | some r =>
        rw [hb, Option.bind_some] at h
        obtain ⟨h1, h2⟩ := loopR_fixed fuel h
        have : r.1.spec = s.spec ∧ r.1.numSamples = s.numSamples := by
          unfold Convolver.bodyR at hb
          simp only [Option.bind_eq_bind, Option.bind_eq_some_iff] at hb
          obtain ⟨_, _, _, _, _, _, r', _, _, _, hb⟩ := hb
          cases hb
          exact ⟨rfl, rfl⟩
        exact ⟨h1.trans this.1, h2.trans this.2⟩
    · cases h; exact ⟨rfl, rfl⟩

theorem processR_fixed {F : RealFFT} {s s' : Convolver} {blk blk' : Buf} (h : s.processR F blk = some (s', blk')) :
    s'.spec = s.spec ∧ s'.numSamples = s.numSamples := by
  unfold Convolver.processR at h
  have := loopR_fixed _ h
  exact this

theorem HeardR_fresh {F : RealFFT} {ir : Buf} {maxB N : ℕ} {spec : ConvolverSpec} {c : Convolver} (h : FreshR F ir maxB spec N c) :
    HeardR F ir maxB spec N [] c := ⟨by simp, c, [], h, rfl⟩

/-- What a new or reset convolver makes of `blocks`. -/
theorem FreshR_feed (hA : Accurate u τ L) {F : RealFFT} (hF : Approx F ε) {ir : Buf} {maxB N : ℕ} {spec : ConvolverSpec}
    (hU : Usable ir maxB spec N) {B : ℕ} {sch : List Layout} (hC : Cut ir maxB spec L K B sch) {c : Convolver} (h : FreshR F ir maxB spec N c)
    (blocks : List Buf) (hb : ∀ b ∈ blocks, b.ch = N) :
    ∃ c' outs, Spec.feed (Convolver.processR F) c blocks = some (c', outs) ∧ SameShape blocks outs ∧
      ∀ o < N, ∀ n < totalLen blocks, ∀ e, ErrorBound u τ ε L K B sch ir spec (stream blocks) o n e →
        |stream outs o n - routedConv ir spec.inputRouting spec.outputRouting (stream blocks) o n| ≤ e := by
  obtain ⟨g, r0, c0, e0, hc⟩ := h
  obtain ⟨c1, e1, hall⟩ := boundR hA hF hU hC.block hC.scheme hC.sizes g r0
  rw [e0] at e1
  cases e1
  obtain ⟨c', outs, e2, sh, hd⟩ := hall c hc blocks hb
  refine ⟨c', outs, e2, sh, fun o ho n hn e he => ?_⟩
  obtain ⟨X, hX, rfl⟩ := he
  exact hd o ho n hn X hX

/-- What a convolver that has heard `past` makes of `blocks`. -/
theorem HeardR_feed (hA : Accurate u τ L) {F : RealFFT} (hF : Approx F ε) {ir : Buf} {maxB N : ℕ} {spec : ConvolverSpec}
    (hU : Usable ir maxB spec N) {B : ℕ} {sch : List Layout} (hC : Cut ir maxB spec L K B sch) {past : List Buf}
    {v : Convolver} (h : HeardR F ir maxB spec N past v) (blocks : List Buf) (hb : ∀ b ∈ blocks, b.ch = N) :
    ∃ v' outs, Spec.feed (Convolver.processR F) v blocks = some (v', outs) ∧ SameShape blocks outs ∧ HeardR F ir maxB spec N (past ++ blocks) v' ∧
      ∀ o < N, ∀ t < totalLen blocks, ∀ e, ErrorBound u τ ε L K B sch ir spec (stream (past ++ blocks)) o (totalLen past + t) e →
        |stream outs o t - routedConv ir spec.inputRouting spec.outputRouting (stream (past ++ blocks)) o (totalLen past + t)| ≤ e := by
  obtain ⟨hp, c, o1, hf, e1⟩ := h
  have hall : ∀ b ∈ past ++ blocks, b.ch = N := by
    intro b hb'
    rcases List.mem_append.mp hb' with h | h
    · exact hp b h
    · exact hb b h
  obtain ⟨c', o2, e2, sh2, d2⟩ := FreshR_feed hA hF hU hC hf (past ++ blocks) hall
  obtain ⟨c1, o1', e1', sh1, _⟩ := FreshR_feed hA hF hU hC hf past hp
  rw [e1] at e1'
  cases e1'
  have e3 := e2
  rw [feed_append, e1, Option.bind_some] at e3
  cases hv : Spec.feed (Convolver.processR F) v blocks with
  | none => simp only [hv] at e3; cases e3
  | some q =>
    simp only [hv, Option.map_some, Option.some.injEq, Prod.mk.injEq] at e3
    obtain ⟨e4, e5⟩ := e3
    have hlen : past.length = o1.length := sh1.length_eq
    have sh3 : SameShape blocks q.2 := by
      have := sh2
      rw [← e5] at this
      have h2 := List.forall₂_drop past.length this
      rw [List.drop_left, hlen, List.drop_left] at h2
      exact h2
    have hst : ∀ (xs ys zs : List Buf), SameShape xs ys → ∀ ch t, stream (ys ++ zs) ch (totalLen xs + t) = stream zs ch t := by
      intro xs ys zs hxy ch t
      induction hxy with
      | nil => simp [totalLen]
      | @cons x y xs ys h _ ih =>
        simp only [List.cons_append, stream, totalLen, ← h.2]
        rw [if_neg (by omega), show x.n + totalLen xs + t - x.n = totalLen xs + t by omega]
        exact ih
    have htl : ∀ (xs ys : List Buf), totalLen (xs ++ ys) = totalLen xs + totalLen ys := by
      intro xs ys
      induction xs with
      | nil => simp [totalLen]
      | cons x xs ih => simp only [List.cons_append, totalLen, ih]; omega
    refine ⟨q.1, q.2, rfl, sh3, ⟨hall, c, o2, hf, by rw [e2, e4]⟩, fun o ho t ht e he => ?_⟩
    have := d2 o ho (totalLen past + t) (by rw [htl]; omega) e he
    rwa [← e5, hst past o1 q.2 sh1] at this

theorem HeardR_reset {F : RealFFT} {ir : Buf} {maxB N : ℕ} {spec : ConvolverSpec} {past : List Buf}
    {v : Convolver} (h : HeardR F ir maxB spec N past v) : FreshR F ir maxB spec N v.reset := by
  obtain ⟨hp, c, outs, hf, e⟩ := h
  obtain ⟨g, r0, c0, e0, hc⟩ := hf
  have hh := feed_history (reset := Convolver.reset) past c v outs e
  refine ⟨g, r0, c0, e0, Or.inr ?_⟩
  have hpm : ∀ b, Op.process b ∈ past.map Op.process → b.ch = N := by
    intro b hb
    rw [List.mem_map] at hb
    obtain ⟨b', hb', e⟩ := hb
    cases e
    exact hp b hb'
  rcases hc with rfl | ⟨ops, s, hops, hs, rfl⟩
  · exact ⟨past.map Op.process, v, hpm, hh, rfl⟩
  · refine ⟨ops ++ .reset :: past.map Op.process, v, ?_, ?_, rfl⟩
    · intro b hb
      rcases List.mem_append.mp hb with h | h
      · exact hops b h
      · rcases List.mem_cons.mp h with h | h
        · cases h
        · exact hpm b h
    · rw [history_append, hs]
      exact hh

/-- The real convolver satisfies what the engine needs, in floating point. -/
theorem accepts_convolverR (hA : Accurate u τ L) {F : RealFFT} (hF : Approx F ε) (g : GainArith) (N : ℕ) :
    Accepts (convolverOpsR F g) N (ServesR F N L) := by
  constructor
  · rintro v blk ⟨ir, maxB, spec, K, B, sch, past, hU, hC, hH⟩ hb
    obtain ⟨v', outs, e, sh, hh, _⟩ := HeardR_feed hA hF hU hC hH [blk] (by simpa using hb)
    rw [Spec.feed] at e
    cases hp : Convolver.processR F v blk with
    | none => rw [hp] at e; cases e
    | some r =>
      rw [hp, Option.bind_some, Spec.feed] at e
      simp only [Option.map_some, Option.some.injEq, Prod.mk.injEq] at e
      obtain ⟨e1, e2⟩ := e
      subst e1
      rw [← e2] at sh
      have hs := (List.forall₂_cons.mp sh).1
      obtain ⟨f1, f2⟩ := processR_fixed hp
      exact ⟨r.1, r.2, hp, by rw [← hs.1, hb], hs.2.symm, ⟨ir, maxB, spec, K, B, sch, _, hU, hC, hh⟩, f2,
        by show r.1.spec.fadeStrategy = _; rw [f1]; rfl⟩
  · rintro v ⟨ir, maxB, spec, K, B, sch, past, hU, hC, hH⟩
    exact ⟨⟨ir, maxB, spec, K, B, sch, [], hU, hC, HeardR_fresh (HeardR_reset hH)⟩, rfl, rfl⟩

end Zones.Proofs.R
