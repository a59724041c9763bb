import Verif.Proofs.EngineFade

/-! From the position of the ramps (`FadingAt`) to what is heard (`Crossfades`, `InOutFades`). -/

open Zones.Model Zones.Spec

namespace Zones.Proofs

variable {V : Type}

theorem queuedAfter_eq (before : Option (Held V)) (bs : List (List (Held V) × Buf)) : queuedAfter before bs = (lastOf bs <|> before) := rfl

theorem findingFirst_nil (bs : List (List (Held V) × Buf)) : findingFirst [] bs = bs := by
  cases bs with
  | nil => rfl
  | cons b bs => rfl

theorem play_findingFirst {ops : ConvOps V} (c : Core V) (first : List (Held V)) {bs : List (List (Held V) × Buf)} (h : bs ≠ []) :
    c.play ops (findingFirst first bs) = (c.service ops first).play ops bs := by
  cases bs with
  | nil => exact absurd rfl h
  | cons b bs =>
    obtain ⟨batch, b⟩ := b
    show (((c.service ops (first ++ batch)).processBody ops b).bind _) = (((c.service ops first).service ops batch).processBody ops b).bind _
    have : c.service ops (first ++ batch) = (c.service ops first).service ops batch := by
      unfold Core.service
      rw [List.foldl_append]
    rw [this]

theorem next_slots {ops : ConvOps V} {c c' : Core V} {f : Held V} {f' : V} {w : Option (Held V)} (ha : c'.active = some ⟨f.id, f'⟩)
    (hp : c'.pending = none)
    (h : (w = none ∧ c'.fade = none ∧ Rest c') ∨ ∃ p, w = some p ∧ FadingAt ops c' p (c.fadeLength ops p.obj).toNat 0 0) : FadeOver f f' w c' := by
  refine ⟨ha, ?_, hp⟩
  rcases h with ⟨h1, h2, _⟩ | ⟨p, h1, h2⟩
  · rw [h1, h2]
  · rw [h1, h2.slot]

theorem crossfades_of {ops : ConvOps V} {K : FadeRule} (hK : Implements ops.gains K) {N M : ℕ} {Good : V → Prop} (hA : Accepts ops N Good) (hM : 0 < M) {n j : ℕ} {c : Core V} {f a : Held V}
    (h : Ready N M Good c) (hf : FadingAt ops c f n j j) (hs : c.strategy = .crossfade) (ha : c.active = some a) :
    Crossfades K ops N M Good n j a f [] c := by
  intro bs hfit hne hlen
  obtain ⟨c', outs, a', olds, blks', f', news, e, sh, fa, hsm, ff, hd, _, _, hcase⟩ :=
    crossfade_play hK hA hM bs c f a j h hf hs ha hfit (fun _ => hlen)
  refine ⟨c', outs, a', olds, blks', f', news, by rw [findingFirst_nil]; exact e, sh, fa, hsm, ff, hd, ?_, ?_⟩
  · intro hlt
    rcases hcase with ⟨_, q2, _, q4, q5⟩ | ⟨q1, _⟩
    · exact ⟨q4, q2.slot, q5⟩
    · exact absurd hlt (Nat.not_lt.2 q1)
  · intro hle
    rcases hcase with ⟨q1, _⟩ | ⟨_, q2, q3, q4⟩
    · exact absurd q1 (Nat.not_lt.2 hle)
    · exact next_slots q2 q3 q4

theorem secondHalf_of {ops : ConvOps V} {K : FadeRule} (hK : Implements ops.gains K) {N : ℕ} {M : ℕ} {Good : V → Prop} (hA : Accepts ops N Good) {n j : ℕ} {c : Core V} {f a : Held V}
    (h : Ready N M Good c) (hf : FadingAt ops c f n n j) (hs : c.strategy = .inOut) (ha : c.active = some a) :
    SecondHalf K ops N M Good n j a f c := by
  intro bs hfit hlen
  obtain ⟨c', outs, f', news, e, sh, ff, hd, _, _, hcase⟩ :=
    fadeIn_play hK hA bs c f j h hf hs (fun b hb => ⟨(hfit b hb).1, (hfit b hb).2.2⟩) (fun _ => hlen)
  refine ⟨c', outs, f', news, e, sh, ff, hd, ?_, ?_⟩
  · intro hlt
    rcases hcase with ⟨_, q2, _, q4, q5⟩ | ⟨q1, _⟩
    · exact ⟨by rw [q4, ha], q2.slot, q5⟩
    · exact absurd hlt (Nat.not_lt.2 q1)
  · intro hle
    rcases hcase with ⟨q1, _⟩ | ⟨_, q2, q3, q4⟩
    · exact absurd q1 (Nat.not_lt.2 hle)
    · exact next_slots q2 q3 q4

theorem inOutFades_of {ops : ConvOps V} {K : FadeRule} (hK : Implements ops.gains K) {N M : ℕ} {Good : V → Prop} (hA : Accepts ops N Good) {n j : ℕ} {c : Core V} {f a : Held V}
    (h : Ready N M Good c) (hf : FadingAt ops c f n j 0) (hs : c.strategy = .inOut) (ha : c.active = some a) :
    InOutFades K ops N M Good n j a f [] c := by
  intro bs hfit hne hlen
  obtain ⟨c', outs, a', olds, e, sh, fa, hd, r', _, hf', hs', ha', hp'⟩ :=
    fadeOut_play hK hA bs c f a j h hf hs ha (fun b hb => ⟨(hfit b hb).1, (hfit b hb).2.2⟩) (fun _ => hlen)
  refine ⟨c', outs, a', olds, by rw [findingFirst_nil]; exact e, sh, fa, hd, ⟨ha', hf'.slot, hp'⟩, ?_⟩
  intro hle
  rw [Nat.min_eq_left hle] at hf'
  exact secondHalf_of hK hA r' hf' hs' ha'

theorem first_fade {ops : ConvOps V} {N M : ℕ} {Good : V → Prop} {c : Core V} (h : Ready N M Good c) (hr : Rest c) (hf : c.fade = none)
    (hp : c.pending = none) {a : Held V} (ha : c.active = some a) {g : Held V} (hg : Good g.obj) :
    Ready N M Good (c.service ops [g]) ∧ FadingAt ops (c.service ops [g]) g (c.fadeLength ops g.obj).toNat 0 0 ∧
      (c.service ops [g]).active = some a ∧ (c.service ops [g]).pending = none ∧ (c.service ops [g]).strategy = c.chooseStrategy ops g.obj := by
  have e : c.service ops [g] = c.beginFade ops g := by
    show (c.handle ops g).1 = _
    rw [handle_begin ha hf]
    show ({ c with pending := none } : Core V).beginFade ops g = _
    rw [← hp]
  obtain ⟨h1, h2, h3⟩ := beginFade_at (ops := ops) h hr (by rw [ha]; simp) g
  rw [e]
  exact ⟨h.beginFade hg, h1, by rw [h2, ha], by rw [h3, hp], rfl⟩

theorem crossfades_first {ops : ConvOps V} {K : FadeRule} {N M : ℕ} {Good : V → Prop} {n j : ℕ} {a f : Held V} {c : Core V} {first : List (Held V)}
    (hp : (c.service ops first).pending = c.pending)
    (h : Crossfades K ops N M Good n j a f [] (c.service ops first)) : Crossfades K ops N M Good n j a f first c := by
  intro bs h1 h2 h3
  have := h bs h1 h2 h3
  rw [findingFirst_nil, hp] at this
  rw [play_findingFirst c first h2]
  exact this

theorem inOutFades_first {ops : ConvOps V} {K : FadeRule} {N M : ℕ} {Good : V → Prop} {n j : ℕ} {a f : Held V} {c : Core V} {first : List (Held V)}
    (hp : (c.service ops first).pending = c.pending)
    (h : InOutFades K ops N M Good n j a f [] (c.service ops first)) : InOutFades K ops N M Good n j a f first c := by
  intro bs h1 h2 h3
  have := h bs h1 h2 h3
  rw [findingFirst_nil, hp] at this
  rw [play_findingFirst c first h2]
  exact this

end Zones.Proofs
