import Verif.Proofs.EngineFade
import Verif.Props.Convolver

/-! The real `Convolver` in the engine. -/

open Zones.Model Zones.Spec Zones.Props

namespace Zones.Proofs

/-- A convolver for some usable impulse response and specification, in any state of use. -/
def Serves (F : RealFFT) (N : ℕ) (v : Convolver) : Prop :=
  ∃ ir maxB spec past, Usable ir maxB spec N ∧ Heard F ir maxB spec N past v

theorem Fresh_inv {F : RealFFT} (hF : Lawful F) {ir : Buf} {maxB N : ℕ} {spec : ConvolverSpec} (h : Usable ir maxB spec N) {c : Convolver}
    (hc : Fresh F ir maxB spec N c) :
    ∀ x, CInv ir (channelAt spec.inputRouting) (channelAt spec.outputRouting) x 0 c := by
  obtain ⟨g, r0, c0, e, hc⟩ := hc
  obtain ⟨c0', e', hinv⟩ := usable_create hF h g r0
  rw [e] at e'
  cases e'
  rcases hc with rfl | ⟨ops, s, hops, hs, rfl⟩
  · exact hinv
  · obtain ⟨s', es, hs'⟩ := fresh_of_inv (process := Convolver.process F) (reset := Convolver.reset) (N := N) (ok := fun _ => True)
      (Inv := fun x t s => CInv ir (channelAt spec.inputRouting) (channelAt spec.outputRouting) x t s)
      (y := fun x o n => routedConv ir spec.inputRouting spec.outputRouting x o n)
      (by
        intro x t s blk hs _ hch hin
        obtain ⟨s', blk', e, n, cc, d, h'⟩ := hs.step hF (blk := blk)
          (fun c hc => ⟨by rw [hch]; exact (route_of_valid h.inputs c hc).2,
            by rw [hch]; exact (route_of_valid h.outputs c hc).2⟩)
          (fun c hc i hi => hin _ (route_of_valid h.inputs c hc).2 i hi)
        exact ⟨s', blk', e, n, by rw [cc, hch], fun o ho i hi => d o (by rw [hch]; exact ho) i hi, h'⟩)
      (fun x t s x' hs => hs.reset x') hinv ops (fun b hb => ⟨hops b hb, trivial⟩)
    rw [hs] at es
    cases es
    exact hs'

theorem feed_append {σ : Type} {process : σ → Buf → Option (σ × Buf)} (xs ys : List Buf) :
    ∀ (s : σ), feed process s (xs ++ ys) = (feed process s xs).bind fun r => (feed process r.1 ys).map fun q => (q.1, r.2 ++ q.2) := by
  induction xs with
  | nil => intro s; simp [feed]
  | cons b bs ih =>
    intro s
    rw [List.cons_append, feed, feed]
    cases process s b with
    | none => rfl
    | some r =>
      simp only [Option.bind_some]
      rw [ih]
      cases feed process r.1 bs with
      | none => rfl
      | some q =>
        simp only [Option.bind_some, Option.map_some]
        cases feed process q.1 ys <;> rfl

theorem feed_history {σ : Type} {process : σ → Buf → Option (σ × Buf)} {reset : σ → σ} :
    ∀ (bs : List Buf) (s s' : σ) (outs : List Buf), feed process s bs = some (s', outs) →
      history process reset s (bs.map Op.process) = some s'
  | [], s, s', outs, h => by
    simp only [feed, Option.some.injEq, Prod.mk.injEq] at h
    rw [h.1]; rfl
  | b :: bs, s, s', outs, h => by
    rw [feed] at h
    rw [List.map_cons, history]
    cases hp : process s b with
    | none => rw [hp] at h; cases h
    | some r =>
      rw [hp, Option.bind_some] at h
      rw [Option.bind_some]
      cases hq : feed process r.1 bs with
      | none => rw [hq] at h; cases h
      | some q =>
        rw [hq] at h
        simp only [Option.map_some, Option.some.injEq, Prod.mk.injEq] at h
        rw [← h.1]
        exact feed_history bs r.1 q.1 q.2 hq

theorem history_append {σ : Type} {process : σ → Buf → Option (σ × Buf)} {reset : σ → σ} :
    ∀ (a b : List Op) (s : σ), history process reset s (a ++ b) = (history process reset s a).bind fun s' => history process reset s' b
  | [], b, s => rfl
  | .process x :: a, b, s => by
    rw [List.cons_append, history, history]
    cases process s x with
    | none => rfl
    | some r => simp only [Option.bind_some]; exact history_append a b r.1
  | .reset :: a, b, s => by
    rw [List.cons_append, history, history]
    exact history_append a b (reset s)

/-- `Process` does not change the specification or the length. -/
theorem loop_fixed {F : RealFFT} : ∀ (fuel : ℕ) {s s' : Convolver} {blk blk' : Buf} {done : ℕ}, Convolver.loop F fuel s blk done = some (s', blk') →
    s'.spec = s.spec ∧ s'.numSamples = s.numSamples
  | 0, s, s', blk, blk', done, h => by
    unfold Convolver.loop at h
    split at h
    · cases h
    · cases h; exact ⟨rfl, rfl⟩
  | fuel + 1, s, s', blk, blk', done, h => by
    unfold Convolver.loop at h
    split at h
    · simp only [Option.bind_eq_bind] at h
      cases hb : s.body F blk done (min (blk.n - done) s.blockSize) with
      | none => rw [hb] at h; cases h
      | some r =>
        rw [hb, Option.bind_some] at h
        obtain ⟨h1, h2⟩ := loop_fixed fuel h
        have : r.1.spec = s.spec ∧ r.1.numSamples = s.numSamples := by
          unfold Convolver.body at hb
          simp only [Option.bind_eq_bind, Option.bind_eq_some_iff] at hb
          obtain ⟨_, _, _, _, _, _, r', _, _, _, hb⟩ := hb
          cases hb
          exact ⟨rfl, rfl⟩
        exact ⟨h1.trans this.1, h2.trans this.2⟩
    · cases h; exact ⟨rfl, rfl⟩

theorem process_fixed {F : RealFFT} {s s' : Convolver} {blk blk' : Buf} (h : s.process F blk = some (s', blk')) :
    s'.spec = s.spec ∧ s'.numSamples = s.numSamples := by
  unfold Convolver.process at h
  have := loop_fixed _ h
  exact this

theorem Heard_fresh {F : RealFFT} {ir : Buf} {maxB N : ℕ} {spec : ConvolverSpec} {c : Convolver} (h : Fresh F ir maxB spec N c) :
    Heard F ir maxB spec N [] c := ⟨by simp, c, [], h, rfl⟩

/-- What a convolver that has heard `past` makes of `blocks`. -/
theorem Heard_feed {F : RealFFT} (hF : Lawful F) {ir : Buf} {maxB N : ℕ} {spec : ConvolverSpec} (hU : Usable ir maxB spec N) {past : List Buf}
    {v : Convolver} (h : Heard F ir maxB spec N past v) (blocks : List Buf) (hb : ∀ b ∈ blocks, b.ch = N) :
    ∃ v' outs, Spec.feed (Convolver.process F) v blocks = some (v', outs) ∧ SameShape blocks outs ∧ Heard F ir maxB spec N (past ++ blocks) v' ∧
      ∀ o < N, ∀ t < totalLen blocks, stream outs o t =
        routedConv ir spec.inputRouting spec.outputRouting (stream (past ++ blocks)) o (totalLen past + t) := by
  obtain ⟨hp, c, o1, hf, e1⟩ := h
  have hall : ∀ b ∈ past ++ blocks, b.ch = N := by
    intro b hb'
    rcases List.mem_append.mp hb' with h | h
    · exact hp b h
    · exact hb b h
  obtain ⟨c', o2, e2, sh2, d2⟩ := feed_of_inv hF hU (Fresh_inv hF hU hf) (past ++ blocks) hall
  obtain ⟨c1, o1', e1', sh1, _⟩ := feed_of_inv hF hU (Fresh_inv hF hU hf) past hp
  rw [e1] at e1'
  cases e1'
  have e3 := e2
  rw [feed_append, e1, Option.bind_some] at e3
  cases hv : Spec.feed (Convolver.process F) v blocks with
  | none => simp only [hv] at e3; cases e3
  | some q =>
    simp only [hv, Option.map_some, Option.some.injEq, Prod.mk.injEq] at e3
    obtain ⟨e4, e5⟩ := e3
    have hlen : past.length = o1.length := sh1.length_eq
    have sh3 : SameShape blocks q.2 := by
      have := sh2
      rw [← e5] at this
      have h2 := List.forall₂_drop past.length this
      rw [List.drop_left, hlen, List.drop_left] at h2
      exact h2
    have hst : ∀ (xs ys zs : List Buf), SameShape xs ys → ∀ ch t, stream (ys ++ zs) ch (totalLen xs + t) = stream zs ch t := by
      intro xs ys zs hxy ch t
      induction hxy with
      | nil => simp [totalLen]
      | @cons x y xs ys h _ ih =>
        simp only [List.cons_append, stream, totalLen, ← h.2]
        rw [if_neg (by omega), show x.n + totalLen xs + t - x.n = totalLen xs + t by omega]
        exact ih
    have htl : ∀ (xs ys : List Buf), totalLen (xs ++ ys) = totalLen xs + totalLen ys := by
      intro xs ys
      induction xs with
      | nil => simp [totalLen]
      | cons x xs ih => simp only [List.cons_append, totalLen, ih]; omega
    refine ⟨q.1, q.2, rfl, sh3, ⟨hall, c, o2, hf, by rw [e2, e4]⟩, fun o ho t ht => ?_⟩
    rw [← d2 o ho (totalLen past + t) (by rw [htl]; omega), ← e5, hst past o1 q.2 sh1]

theorem Heard_reset {F : RealFFT} {ir : Buf} {maxB N : ℕ} {spec : ConvolverSpec} {past : List Buf}
    {v : Convolver} (h : Heard F ir maxB spec N past v) : Fresh F ir maxB spec N v.reset := by
  obtain ⟨hp, c, outs, hf, e⟩ := h
  obtain ⟨g, r0, c0, e0, hc⟩ := hf
  have hh := feed_history (reset := Convolver.reset) past c v outs e
  refine ⟨g, r0, c0, e0, Or.inr ?_⟩
  have hpm : ∀ b, Op.process b ∈ past.map Op.process → b.ch = N := by
    intro b hb
    rw [List.mem_map] at hb
    obtain ⟨b', hb', e⟩ := hb
    cases e
    exact hp b hb'
  rcases hc with rfl | ⟨ops, s, hops, hs, rfl⟩
  · exact ⟨past.map Op.process, v, hpm, hh, rfl⟩
  · refine ⟨ops ++ .reset :: past.map Op.process, v, ?_, ?_, rfl⟩
    · intro b hb
      rcases List.mem_append.mp hb with h | h
      · exact hops b h
      · rcases List.mem_cons.mp h with h | h
        · cases h
        · exact hpm b h
    · rw [history_append, hs]
      exact hh

/-- The real convolver satisfies what the engine needs. -/
theorem accepts_convolver {F : RealFFT} (hF : Lawful F) (N : ℕ) : Accepts (convolverOps F) N (Serves F N) := by
  constructor
  · rintro v blk ⟨ir, maxB, spec, past, hU, hH⟩ hb
    obtain ⟨v', outs, e, sh, hh, _⟩ := Heard_feed hF hU hH [blk] (by simpa using hb)
    rw [Spec.feed] at e
    cases hp : Convolver.process F v blk with
    | none => rw [hp] at e; cases e
    | some r =>
      rw [hp, Option.bind_some, Spec.feed] at e
      simp only [Option.map_some, Option.some.injEq, Prod.mk.injEq] at e
      obtain ⟨e1, e2⟩ := e
      subst e1
      rw [← e2] at sh
      have hs := (List.forall₂_cons.mp sh).1
      obtain ⟨f1, f2⟩ := process_fixed hp
      exact ⟨r.1, r.2, hp, by rw [← hs.1, hb], hs.2.symm, ⟨ir, maxB, spec, _, hU, hh⟩, f2,
        by show r.1.spec.fadeStrategy = _; rw [f1]; rfl⟩
  · rintro v ⟨ir, maxB, spec, past, hU, hH⟩
    exact ⟨⟨ir, maxB, spec, [], hU, Heard_fresh (Heard_reset hH)⟩, rfl, rfl⟩

end Zones.Proofs
