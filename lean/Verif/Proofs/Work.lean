import Verif.Spec.Work
import Verif.Proofs.Feed

/-!
# Counting passes
-/

namespace Zones.Proofs
open Zones.Model Zones.Spec

theorem put_n (b : Buf) (d : ℕ) (c : Buf) : (b.put d c).n = b.n := rfl

theorem upc_prelude_keeps {s s1 : UPC} (h : s.prelude = some s1) : s1.partSize = s.partSize ∧ s1.collected = s.collected := by
  unfold UPC.prelude at h
  split_ifs at h
  · simp only [bind, Option.bind_eq_some_iff, pure, Option.some.injEq] at h
    obtain ⟨fdl, h1, conv, h2, r, h3, rfl⟩ := h
    exact ⟨rfl, rfl⟩
  · cases h; exact ⟨rfl, rfl⟩

theorem upc_body_keeps {F : RealFFT} {s : UPC} {blk : Buf} {done k : ℕ} {r : UPC × Buf} (h : s.body F blk done k = some r) :
    r.1.partSize = s.partSize ∧ r.1.collected = (s.collected + k) % s.partSize ∧ r.2.n = blk.n := by
  unfold UPC.body at h
  simp only [bind, Option.bind_eq_some_iff, pure] at h
  obtain ⟨_, _, _, _, _, _, _, _, _, _, _, _, _, _, h⟩ := h
  split_ifs at h
  simp only [Option.bind_eq_some_iff, Option.some.injEq] at h
  obtain ⟨_, _, _, _, _, _, _, _, _, _, rfl⟩ := h
  exact ⟨rfl, rfl, rfl⟩

/-- The number of passes of the uniform convolver. -/
theorem upc_passes {F : RealFFT} : ∀ (m m' : ℕ) {s : UPC} {blk : Buf} {done : ℕ} {r : UPC × Buf}, UPC.loop F m s blk done = some r →
    s.collected < s.partSize → done ≤ blk.n → (done < blk.n → blk.n - done + s.collected ≤ m' * s.partSize) →
    UPC.loop F m' s blk done = some r ∧ r.1.partSize = s.partSize ∧ r.1.collected = (s.collected + (blk.n - done)) % s.partSize ∧ r.2.n = blk.n
  | m, m', s, blk, done, r, h, hc, hdn, hm => by
    by_cases hd : done < blk.n
    · cases m with
      | zero =>
        unfold UPC.loop at h
        rw [if_pos hd] at h; cases h
      | succ m =>
        cases m' with
        | zero => have := hm hd; omega
        | succ m' =>
          unfold UPC.loop at h ⊢
          rw [if_pos hd] at h ⊢
          simp only [bind, Option.bind_eq_some_iff] at h ⊢
          obtain ⟨s1, h1, r1, h2, h3⟩ := h
          obtain ⟨k1, k2⟩ := upc_prelude_keeps h1
          obtain ⟨g1, g2, g3⟩ := upc_body_keeps h2
          have hk : min (blk.n - done) (s1.partSize - s1.collected) ≤ blk.n - done := min_le_left ..
          have := hm hd
          obtain ⟨q1, q2, q3, q4⟩ := upc_passes m m' h3 (by rw [g2, g1]; exact Nat.mod_lt _ (by omega)) (by rw [g3]; omega) (by
            intro hlt
            rw [g3] at hlt ⊢
            rw [g1, g2, k1, k2] at *
            have hmin : min (blk.n - done) (s.partSize - s.collected) = s.partSize - s.collected := by omega
            rw [hmin, show s.collected + (s.partSize - s.collected) = s.partSize by omega, Nat.mod_self]
            rw [Nat.succ_mul] at this
            omega)
          refine ⟨⟨s1, h1, r1, h2, q1⟩, by rw [q2, g1, k1], ?_, by rw [q4, g3]⟩
          rw [q3, g1, g2, g3, k1, k2, Nat.mod_add_mod]
          congr 1
          rw [k1, k2] at hk
          omega
    · have e : ∀ m, UPC.loop F m s blk done = some (s, blk) := fun m => by cases m <;> (unfold UPC.loop; rw [if_neg hd])
      rw [e] at h
      cases h
      refine ⟨e m', rfl, ?_, rfl⟩
      rw [show blk.n - done = 0 by omega, Nat.add_zero, Nat.mod_eq_of_lt hc]

/-- The uniform convolver is in step. -/
structure InStep (s : NUPC) : Prop where
  lt : s.collected < s.blockSize
  part : s.upc.partSize = s.blockSize
  col : s.upc.collected = s.collected

theorem collect_keeps {s s1 : NUPC} {sub : Buf} {k : ℕ} (h : s.collect sub k = some s1) :
    s1.blockSize = s.blockSize ∧ s1.collected = s.collected ∧ s1.upc = s.upc := by
  unfold NUPC.collect at h
  split_ifs at h
  · simp only [bind, Option.bind_eq_some_iff] at h
    obtain ⟨dst, h1, h⟩ := h
    split_ifs at h
    · simp only [Option.bind_eq_some_iff, pure, Option.some.injEq] at h
      obtain ⟨r, h2, a, h3, rfl⟩ := h
      exact ⟨rfl, rfl, rfl⟩
    · cases h; exact ⟨rfl, rfl, rfl⟩
  · cases h; exact ⟨rfl, rfl, rfl⟩

theorem addResults_keeps {s : NUPC} {sub : Buf} {k : ℕ} {r : NUPC × Buf} (h : s.addResults sub k = some r) :
    r.1.blockSize = s.blockSize ∧ r.1.collected = s.collected ∧ r.1.upc = s.upc := by
  unfold NUPC.addResults at h
  by_cases hc : s.subs.length > 0
  · rw [if_pos hc] at h
    simp only [bind, Option.bind_eq_some_iff, pure, Option.some.injEq] at h
    obtain ⟨_, _, _, _, _, _, rfl⟩ := h
    exact ⟨rfl, rfl, rfl⟩
  · rw [if_neg hc] at h
    cases h; exact ⟨rfl, rfl, rfl⟩

theorem nupc_body_keeps {F : RealFFT} {s : NUPC} {blk : Buf} {done k : ℕ} {r : NUPC × Buf} (h : s.body F blk done k = some r) (hs : InStep s)
    (hk : s.collected + k ≤ s.blockSize) :
    nupcPass F s blk done k = some r ∧ InStep r.1 ∧ r.1.blockSize = s.blockSize ∧ r.1.collected = (s.collected + k) % s.blockSize ∧ r.2.n = blk.n := by
  unfold NUPC.body at h
  unfold nupcPass
  simp only [bind, Option.bind_eq_some_iff, pure, Option.some.injEq] at h ⊢
  obtain ⟨sub, h1, s1, h2, u, h3, q, h4, rfl⟩ := h
  obtain ⟨a1, a2, a3⟩ := collect_keeps h2
  obtain ⟨b1, b2, b3⟩ := addResults_keeps h4
  have hsub : sub.n = k := by
    unfold Buf.sub at h1
    split_ifs at h1
    cases h1; rfl
  obtain ⟨c1, c2, c3, c4⟩ := upc_passes sub.n 1 (s := s1.upc) (blk := sub) (done := 0) h3 (by rw [a3, hs.col, hs.part]; exact hs.lt) (Nat.zero_le _) (by
    intro _
    rw [a3, hs.col, hs.part, hsub]; omega)
  have hlt := hs.lt
  refine ⟨⟨sub, h1, s1, h2, u, c1, q, h4, rfl⟩, ⟨?_, ?_, ?_⟩, ?_, ?_, rfl⟩
  · show (q.1.collected + k) % q.1.blockSize < q.1.blockSize
    exact Nat.mod_lt _ (by rw [b1]; show 0 < s1.blockSize; omega)
  · show q.1.upc.partSize = q.1.blockSize
    rw [b1, b3]
    show u.1.partSize = s1.blockSize
    rw [c2, a3, hs.part, a1]
  · show q.1.upc.collected = (q.1.collected + k) % q.1.blockSize
    rw [b1, b2, b3]
    show u.1.collected = (s1.collected + k) % s1.blockSize
    rw [c3, a3, hs.col, hs.part, a1, a2, hsub, Nat.sub_zero]
  · exact b1.trans a1
  · show (q.1.collected + k) % q.1.blockSize = _
    rw [b1, b2]
    show (s1.collected + k) % s1.blockSize = _
    rw [a1, a2]

/-- The number of passes of the non-uniform convolver. -/
theorem nupc_passes {F : RealFFT} : ∀ (m m' : ℕ) {s : NUPC} {blk : Buf} {done : ℕ} {r : NUPC × Buf}, NUPC.loop F m s blk done = some r →
    InStep s → done ≤ blk.n → (done < blk.n → blk.n - done + s.collected ≤ m' * s.blockSize) →
    nupcWithin F m' s blk done = some r ∧ InStep r.1 ∧ r.1.blockSize = s.blockSize
  | m, m', s, blk, done, r, h, hs, hdn, hm => by
    by_cases hd : done < blk.n
    · cases m with
      | zero =>
        unfold NUPC.loop at h
        rw [if_pos hd] at h; cases h
      | succ m =>
        cases m' with
        | zero => have := hm hd; omega
        | succ m' =>
          unfold NUPC.loop at h
          unfold nupcWithin
          rw [if_pos hd] at h ⊢
          simp only [bind, Option.bind_eq_some_iff] at h ⊢
          obtain ⟨r1, h2, h3⟩ := h
          have hlt := hs.lt
          obtain ⟨g0, g1, g2, g3, g4⟩ := nupc_body_keeps h2 hs (by omega)
          have := hm hd
          obtain ⟨q1, q2, q3⟩ := nupc_passes m m' h3 g1 (by rw [g4]; omega) (by
            intro hlt
            rw [g4] at hlt ⊢
            have hmin : min (blk.n - done) (s.blockSize - s.collected) = s.blockSize - s.collected := by omega
            rw [g2, g3, hmin, show s.collected + (s.blockSize - s.collected) = s.blockSize by omega, Nat.mod_self]
            rw [Nat.succ_mul] at this
            omega)
          exact ⟨⟨r1, g0, q1⟩, q2, by rw [q3, g2]⟩
    · have e : NUPC.loop F m s blk done = some (s, blk) := by cases m <;> (unfold NUPC.loop; rw [if_neg hd])
      have e' : nupcWithin F m' s blk done = some (s, blk) := by cases m' <;> (unfold nupcWithin; rw [if_neg hd])
      rw [e] at h
      cases h
      exact ⟨e', hs, rfl⟩

theorem foldlM_shape {f : Buf → ℕ → Option Buf} (hf : ∀ b c b', f b c = some b' → b'.n = b.n) : ∀ (l : List ℕ) (b b' : Buf), l.foldlM f b = some b' → b'.n = b.n
  | [], b, b', h => by cases h; rfl
  | c :: l, b, b', h => by
    rw [List.foldlM_cons] at h
    simp only [bind, Option.bind_eq_some_iff] at h
    obtain ⟨b1, h1, h2⟩ := h
    rw [foldlM_shape hf l b1 b' h2, hf b c b1 h1]

theorem gather_n {s : Convolver} {out : Buf} (b : Buf) (c : ℕ) (b' : Buf) (h : Convolver.gatherOne s out b c = some b') : b'.n = b.n := by
  unfold Convolver.gatherOne at h
  simp only [bind, Option.bind_eq_some_iff, pure, Option.some.injEq] at h
  obtain ⟨_, _, _, _, _, _, rfl⟩ := h
  rfl

theorem convolver_body_keeps {F : RealFFT} {s : Convolver} {blk : Buf} {done k : ℕ} {r : Convolver × Buf} (h : s.body F blk done k = some r) (hs : InStep s.nupc)
    (hB : s.nupc.blockSize = s.blockSize) (hk : k ≤ s.blockSize) :
    convolverPass F s blk done k = some r ∧ InStep r.1.nupc ∧ r.1.nupc.blockSize = r.1.blockSize ∧ r.1.blockSize = s.blockSize ∧ r.2.n = blk.n := by
  unfold Convolver.body at h
  unfold convolverPass
  simp only [bind, Option.bind_eq_some_iff, pure, Option.some.injEq] at h ⊢
  obtain ⟨out, h1, rs0, h2, rs, h3, q, h4, out', h5, rfl⟩ := h
  have hrs : rs.n = k := by
    rw [foldlM_shape gather_n _ _ _ h3]
    unfold Buf.sub at h2
    split_ifs at h2
    cases h2; rfl
  have hlt := hs.lt
  obtain ⟨c1, c2, c3⟩ := nupc_passes rs.n 2 h4 hs (Nat.zero_le _) (by intro _; omega)
  exact ⟨⟨out, h1, rs0, h2, rs, h3, q, c1, out', h5, rfl⟩, c2, c3.trans hB, rfl, rfl⟩

/-- The number of passes of a convolver. -/
theorem convolver_passes {F : RealFFT} : ∀ (m m' : ℕ) {s : Convolver} {blk : Buf} {done : ℕ} {r : Convolver × Buf}, Convolver.loop F m s blk done = some r →
    InStep s.nupc → s.nupc.blockSize = s.blockSize → done ≤ blk.n → (done < blk.n → blk.n - done ≤ m' * s.blockSize) →
    convolverWithin F m' s blk done = some r
  | m, m', s, blk, done, r, h, hs, hB, hdn, hm => by
    by_cases hd : done < blk.n
    · cases m with
      | zero =>
        unfold Convolver.loop at h
        rw [if_pos hd] at h; cases h
      | succ m =>
        cases m' with
        | zero => have := hm hd; omega
        | succ m' =>
          unfold Convolver.loop at h
          unfold convolverWithin
          rw [if_pos hd] at h ⊢
          simp only [bind, Option.bind_eq_some_iff] at h ⊢
          obtain ⟨r1, h2, h3⟩ := h
          obtain ⟨g0, g1, g2, g3, g4⟩ := convolver_body_keeps h2 hs hB (min_le_right ..)
          have := hm hd
          have q1 := convolver_passes m m' h3 g1 g2 (by rw [g4]; omega) (by
            intro hlt
            rw [g4] at hlt ⊢
            have hmin : min (blk.n - done) s.blockSize = s.blockSize := by omega
            rw [g3, hmin]
            rw [Nat.succ_mul] at this
            omega)
          exact ⟨r1, g0, q1⟩
    · have e : Convolver.loop F m s blk done = some (s, blk) := by cases m <;> (unfold Convolver.loop; rw [if_neg hd])
      have e' : convolverWithin F m' s blk done = some (s, blk) := by cases m' <;> (unfold convolverWithin; rw [if_neg hd])
      rw [e] at h
      cases h
      exact e'

/-- any history is defined and ends in a state of the invariant, so many samples after the last reset, which the next block continues -/
theorem history_then {σ : Type} {process : σ → Buf → Option (σ × Buf)} {reset : σ → σ}
    {Inv : (ℕ → ℕ → ℝ) → ℕ → σ → Prop} {N : ℕ}
    (step : ∀ x t s blk, Inv x t s → blk.ch = N → (∀ ch < N, ∀ i < blk.n, blk.data ch i = x ch (t + i)) →
      ∃ s' blk', process s blk = some (s', blk') ∧ Inv x (t + blk.n) s')
    (hreset : ∀ x t s x', Inv x t s → Inv x' 0 (reset s)) (blk : Buf) :
    ∀ (ops : List Op) (x : ℕ → ℕ → ℝ) (t : ℕ) (s : σ), Inv x t s → (∀ b, Op.process b ∈ ops → b.ch = N) →
      (∀ ch i, i < totalLen (lead (ops ++ [.process blk])) → stream (lead (ops ++ [.process blk])) ch i = x ch (t + i)) →
      ∃ s', history process reset s ops = some s' ∧ ∃ x, Inv x (samplesSinceReset t ops) s' ∧
        ∀ ch i, i < blk.n → blk.data ch i = x ch (samplesSinceReset t ops + i)
  | [], x, t, s, h, _, hx => ⟨s, rfl, x, h, fun ch i hi => by
      have := hx ch i (by simp only [List.nil_append, lead, totalLen]; omega)
      simp only [List.nil_append, lead, stream, hi, if_true] at this
      exact this⟩
  | .process b :: ops, x, t, s, h, hok, hx => by
    obtain ⟨s1, b1, e1, h1⟩ := step x t s b h (hok b (List.mem_cons_self ..)) (by
      intro ch hc i hi
      have := hx ch i (by simp only [List.cons_append, lead, totalLen]; omega)
      simp only [List.cons_append, lead, stream, hi, if_true] at this
      exact this)
    obtain ⟨s2, e2, h2⟩ := history_then step hreset blk ops x (t + b.n) s1 h1
      (fun b' hb' => hok b' (List.mem_cons_of_mem _ hb')) (by
        intro ch i hi
        have := hx ch (b.n + i) (by simp only [List.cons_append, lead, totalLen]; omega)
        simp only [List.cons_append, lead, stream] at this
        rw [if_neg (by omega), show b.n + i - b.n = i by omega] at this
        rw [this, add_assoc])
    refine ⟨s2, ?_, h2⟩
    unfold history; rw [e1]; exact e2
  | .reset :: ops, x, t, s, h, hok, hx =>
    history_then step hreset blk ops (stream (lead (ops ++ [.process blk]))) 0 (reset s) (hreset x t s _ h)
      (fun b' hb' => hok b' (List.mem_cons_of_mem _ hb')) (fun ch i _ => by rw [zero_add])

end Zones.Proofs
