import Verif.Spec.Stream

/-!
# From a step invariant to streams
-/

namespace Zones.Proofs
open Zones.Model Zones.Spec

/-- a process that writes `y` when its input continues `x` writes `y` over any sequence of blocks -/
theorem feed_exact {σ : Type} {process : σ → Buf → Option (σ × Buf)} {Inv : ℕ → σ → Prop} {ok : Buf → Prop} {N : ℕ}
    {x y : ℕ → ℕ → ℝ}
    (step : ∀ t s blk, Inv t s → ok blk → blk.ch = N → (∀ ch < N, ∀ i < blk.n, blk.data ch i = x ch (t + i)) →
      ∃ s' blk', process s blk = some (s', blk') ∧ blk'.n = blk.n ∧ blk'.ch = N ∧
        (∀ o < N, ∀ i < blk.n, blk'.data o i = y o (t + i)) ∧ Inv (t + blk.n) s') :
    ∀ (blocks : List Buf) (t : ℕ) (s : σ), Inv t s → (∀ b ∈ blocks, b.ch = N ∧ ok b) →
      (∀ ch < N, ∀ i < totalLen blocks, stream blocks ch i = x ch (t + i)) →
      ∃ s' outs, feed process s blocks = some (s', outs) ∧ SameShape blocks outs ∧
        (∀ o < N, ∀ i < totalLen blocks, stream outs o i = y o (t + i)) ∧ Inv (t + totalLen blocks) s'
  | [], t, s, h, _, _ => ⟨s, [], rfl, List.Forall₂.nil, fun o _ i hi => absurd hi (by simp [totalLen]), h⟩
  | b :: bs, t, s, h, hok, hx => by
    obtain ⟨s1, b1, e1, n1, c1, d1, h1⟩ := step t s b h (hok b (List.mem_cons_self ..)).2
      (hok b (List.mem_cons_self ..)).1 (by
        intro ch hc i hi
        have := hx ch hc i (by simp only [totalLen]; omega)
        simp only [stream, hi, if_true] at this
        exact this)
    obtain ⟨s2, outs, e2, sh2, d2, h2⟩ := feed_exact step bs (t + b.n) s1 h1
      (fun b' hb' => hok b' (List.mem_cons_of_mem _ hb')) (by
        intro ch hc i hi
        have := hx ch hc (b.n + i) (by simp only [totalLen]; omega)
        simp only [stream] at this
        rw [if_neg (by omega), show b.n + i - b.n = i by omega] at this
        rw [this, add_assoc])
    refine ⟨s2, b1 :: outs, ?_, ?_, ?_, ?_⟩
    · unfold feed
      rw [e1]
      simp only [Option.bind_some]
      rw [e2]; rfl
    · exact List.Forall₂.cons ⟨by rw [c1, (hok b (List.mem_cons_self ..)).1], n1.symm⟩ sh2
    · intro o ho i hi
      simp only [totalLen] at hi
      simp only [stream, n1]
      by_cases hlt : i < b.n
      · rw [if_pos hlt, d1 o ho i hlt]
      · rw [if_neg hlt, d2 o ho _ (by omega), add_assoc]
        congr 1; omega
    · simp only [totalLen]; rw [← add_assoc]; exact h2

/-- the blocks processed before the next reset -/
def lead : List Op → List Buf
  | .process b :: ops => b :: lead ops
  | _ => []

/-- any history is defined and ends in a state of the invariant -/
theorem history_inv {σ : Type} {process : σ → Buf → Option (σ × Buf)} {reset : σ → σ}
    {Inv : (ℕ → ℕ → ℝ) → ℕ → σ → Prop} {ok : Buf → Prop} {N : ℕ}
    (step : ∀ x t s blk, Inv x t s → ok blk → blk.ch = N → (∀ ch < N, ∀ i < blk.n, blk.data ch i = x ch (t + i)) →
      ∃ s' blk', process s blk = some (s', blk') ∧ Inv x (t + blk.n) s')
    (hreset : ∀ x t s x', Inv x t s → Inv x' 0 (reset s)) :
    ∀ (ops : List Op) (x : ℕ → ℕ → ℝ) (t : ℕ) (s : σ), Inv x t s → (∀ b, Op.process b ∈ ops → b.ch = N ∧ ok b) →
      (∀ ch i, i < totalLen (lead ops) → stream (lead ops) ch i = x ch (t + i)) →
      ∃ s', history process reset s ops = some s' ∧ ∃ x t, Inv x t s'
  | [], x, t, s, h, _, _ => ⟨s, rfl, x, t, h⟩
  | .process b :: ops, x, t, s, h, hok, hx => by
    obtain ⟨s1, b1, e1, h1⟩ := step x t s b h (hok b (List.mem_cons_self ..)).2 (hok b (List.mem_cons_self ..)).1 (by
      intro ch hc i hi
      have := hx ch i (by simp only [lead, totalLen]; omega)
      simp only [lead, stream, hi, if_true] at this
      exact this)
    obtain ⟨s2, e2, h2⟩ := history_inv step hreset ops x (t + b.n) s1 h1
      (fun b' hb' => hok b' (List.mem_cons_of_mem _ hb')) (by
        intro ch i hi
        have := hx ch (b.n + i) (by simp only [lead, totalLen]; omega)
        simp only [lead, stream] at this
        rw [if_neg (by omega), show b.n + i - b.n = i by omega] at this
        rw [this, add_assoc])
    refine ⟨s2, ?_, h2⟩
    unfold history; rw [e1]; exact e2
  | .reset :: ops, x, t, s, h, hok, hx =>
    history_inv step hreset ops (stream (lead ops)) 0 (reset s) (hreset x t s _ h)
      (fun b' hb' => hok b' (List.mem_cons_of_mem _ hb')) (fun ch i _ => by rw [zero_add])

/-- exactness of everything that is fed to a state of the invariant at time 0 -/
theorem exact_of_inv {σ : Type} {process : σ → Buf → Option (σ × Buf)}
    {Inv : (ℕ → ℕ → ℝ) → ℕ → σ → Prop} {ok : Buf → Prop} {N : ℕ} {y : (ℕ → ℕ → ℝ) → ℕ → ℕ → ℝ}
    (step : ∀ x t s blk, Inv x t s → ok blk → blk.ch = N → (∀ ch < N, ∀ i < blk.n, blk.data ch i = x ch (t + i)) →
      ∃ s' blk', process s blk = some (s', blk') ∧ blk'.n = blk.n ∧ blk'.ch = N ∧
        (∀ o < N, ∀ i < blk.n, blk'.data o i = y x o (t + i)) ∧ Inv x (t + blk.n) s')
    {s : σ} (h : ∀ x, Inv x 0 s) (blocks : List Buf) (hok : ∀ b ∈ blocks, b.ch = N ∧ ok b) :
    ∃ s' outs, feed process s blocks = some (s', outs) ∧ SameShape blocks outs ∧
      ∀ o < N, ∀ i < totalLen blocks, stream outs o i = y (stream blocks) o i := by
  obtain ⟨s', outs, e, sh, d, _⟩ := feed_exact (process := process) (Inv := Inv (stream blocks)) (ok := ok) (N := N)
    (x := stream blocks) (y := y (stream blocks)) (fun t s blk => step _ t s blk) blocks 0 s (h _) hok
    (fun ch _ i _ => by rw [zero_add])
  exact ⟨s', outs, e, sh, fun o ho i hi => by rw [d o ho i hi, zero_add]⟩

/-- after any history, a reset leads to a state of the invariant at time 0 -/
theorem fresh_of_inv {σ : Type} {process : σ → Buf → Option (σ × Buf)} {reset : σ → σ}
    {Inv : (ℕ → ℕ → ℝ) → ℕ → σ → Prop} {ok : Buf → Prop} {N : ℕ} {y : (ℕ → ℕ → ℝ) → ℕ → ℕ → ℝ}
    (step : ∀ x t s blk, Inv x t s → ok blk → blk.ch = N → (∀ ch < N, ∀ i < blk.n, blk.data ch i = x ch (t + i)) →
      ∃ s' blk', process s blk = some (s', blk') ∧ blk'.n = blk.n ∧ blk'.ch = N ∧
        (∀ o < N, ∀ i < blk.n, blk'.data o i = y x o (t + i)) ∧ Inv x (t + blk.n) s')
    (hreset : ∀ x t s x', Inv x t s → Inv x' 0 (reset s))
    {s : σ} (h : ∀ x, Inv x 0 s) (ops : List Op) (hok : ∀ b, Op.process b ∈ ops → b.ch = N ∧ ok b) :
    ∃ s', history process reset s ops = some s' ∧ ∀ x, Inv x 0 (reset s') := by
  obtain ⟨s', e, x, t, h'⟩ := history_inv (process := process) (reset := reset) (Inv := Inv) (ok := ok) (N := N)
    (fun x t s blk a b c d => by
      obtain ⟨s', blk', e, _, _, _, h'⟩ := step x t s blk a b c d
      exact ⟨s', blk', e, h'⟩) hreset ops
    (stream (lead ops)) 0 s (h _) hok (fun ch i _ => by rw [zero_add])
  exact ⟨s', e, fun x' => hreset x t s' x' h'⟩

end Zones.Proofs
