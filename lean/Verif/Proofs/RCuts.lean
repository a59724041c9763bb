import Verif.Proofs.RMemConvolver
import Verif.Proofs.EngineConvolver
import Verif.Spec.Cuts

/-! # A block processed at once and piece by piece -/

open Finset Zones.Spec Zones.Model

namespace Zones.Proofs.R

variable [Arith]

/-- samples `[done, done + k)` of a block -/
def piece (b : Buf) (done k : ℕ) : Buf := ⟨b.ch, k, fun c i => b.data c (done + i)⟩

/-- one pass of the loop sees nothing but its piece -/
theorem body_piece {E : RealFFT} {s s1 : Convolver} {blk out : Buf} {done k : ℕ} (hk : 0 < k) (hd : done + k ≤ blk.n)
    (e : s.bodyR E blk done k = some (s1, out)) :
    ∃ o, s.bodyR E (piece blk done k) 0 k = some (s1, o) ∧ o.n = k ∧ o.ch = blk.ch ∧
      ∀ c < blk.ch, ∀ i < k, o.data c i = out.data c (done + i) := by
  have e1 : blk.sub done k = some (piece blk done k) := by
    unfold Buf.sub; rw [if_pos ⟨by omega, hd⟩]; rfl
  have e2 : (piece blk done k).sub 0 k = some (piece blk done k) := by
    unfold Buf.sub
    rw [if_pos ⟨hk, by show 0 + k ≤ k; omega⟩]
    congr 1
    unfold piece
    simp only [zero_add]
  unfold Convolver.bodyR at e ⊢
  simp only [e1, e2, Option.bind_eq_bind, Option.bind_some] at e ⊢
  obtain ⟨rs, h1, e⟩ := Option.bind_eq_some_iff.mp e
  obtain ⟨rs2, h2, e⟩ := Option.bind_eq_some_iff.mp e
  obtain ⟨r, h3, e⟩ := Option.bind_eq_some_iff.mp e
  obtain ⟨o, h4, e⟩ := Option.bind_eq_some_iff.mp e
  rw [h1]
  simp only [Option.bind_some, h2, h3, h4]
  have e' := Option.some.inj e
  rw [Prod.mk.injEq] at e'
  have hon : o.n = k := by
    have : ∀ (l : List ℕ) (a b : Buf), l.foldlM (Convolver.scatterOneR s r.2) a = some b → b.n = a.n := by
      intro l
      induction l with
      | nil => intro a b h; cases h; rfl
      | cons c l ih =>
        intro a b h
        rw [List.foldlM_cons] at h
        obtain ⟨a1, h5, h6⟩ := Option.bind_eq_some_iff.mp h
        rw [ih a1 b h6]
        unfold Convolver.scatterOneR at h5
        obtain ⟨_, _, h5⟩ := Option.bind_eq_some_iff.mp h5
        obtain ⟨_, _, h5⟩ := Option.bind_eq_some_iff.mp h5
        obtain ⟨_, _, h5⟩ := Option.bind_eq_some_iff.mp h5
        obtain ⟨_, _, h5⟩ := Option.bind_eq_some_iff.mp h5
        rw [← Option.some.inj h5]
        rfl
    rw [this _ _ _ h4]
    rfl
  refine ⟨(piece blk done k).put 0 o, by rw [← e'.1]; rfl, rfl, rfl, ?_⟩
  intro c hc i hi
  rw [← e'.2]
  simp only [Buf.put, hon]
  rw [if_pos ⟨by exact hc, by omega, by omega⟩, if_pos ⟨hc, by omega, by omega⟩, show done + i - done = i - 0 by omega]

theorem process_piece {E : RealFFT} {B : ℕ} {s s1 : Convolver} {b o : Buf} {k : ℕ} (hB : s.blockSize = B) (hk : 0 < k) (hkB : k ≤ B) {done : ℕ}
    (e : { s with routing := s.routing.clear }.bodyR E (piece b done k) 0 k = some (s1, o)) (hon : o.n = k) :
    s.processR E (piece b done k) = some (s1, o) := by
  subst hB
  unfold Convolver.processR
  show Convolver.loopR E k _ (piece b done k) 0 = _
  obtain ⟨q, rfl⟩ : ∃ q, k = q + 1 := ⟨k - 1, by omega⟩
  unfold Convolver.loopR
  rw [if_pos (by show 0 < q + 1; omega)]
  have hm : min ((piece b done (q + 1)).n - 0) s.blockSize = q + 1 := by
    show min (q + 1 - 0) s.blockSize = q + 1
    omega
  simp only [Option.bind_eq_bind, hm, e, Option.bind_some]
  cases q with
  | zero => unfold Convolver.loopR; rw [if_neg (by omega)]
  | succ q => unfold Convolver.loopR; rw [if_neg (by omega)]

/-- the pieces of a block from sample `done` on -/
def chopAux (B : ℕ) (b : Buf) : ℕ → ℕ → List Buf
  | 0, _ => []
  | fuel + 1, done => if done < b.n then piece b done (min (b.n - done) B) :: chopAux B b fuel (done + min (b.n - done) B) else []

def chop (B : ℕ) (b : Buf) : List Buf := chopAux B b b.n 0

omit [Arith] in
theorem cut_step {B n : ℕ} (hB : 0 < B) (hn : 0 < n) : cut B n = min n B :: cut B (n - min n B) := by
  unfold cut
  by_cases h : n < B
  · rw [Nat.min_eq_left (by omega), Nat.sub_self, Nat.div_eq_of_lt h, Nat.mod_eq_of_lt h, if_neg (by omega), Nat.zero_div, Nat.zero_mod, if_pos rfl]
    rfl
  · rw [Nat.min_eq_right (by omega)]
    have h1 : n / B = (n - B) / B + 1 := by
      rw [← Nat.add_div_right _ hB, Nat.sub_add_cancel (by omega)]
    have h2 : n % B = (n - B) % B := by
      rw [← Nat.add_mod_right (n - B) B, Nat.sub_add_cancel (by omega)]
    rw [h1, h2, List.replicate_succ, List.cons_append]

omit [Arith] in
theorem chopAux_lens {B : ℕ} (hB : 0 < B) (b : Buf) : ∀ (fuel done : ℕ), b.n - done ≤ fuel * B →
    (chopAux B b fuel done).map Buf.n = cut B (b.n - done)
  | 0, done, h => by
    rw [show b.n - done = 0 by omega]
    simp [chopAux, cut]
  | fuel + 1, done, h => by
    unfold chopAux
    by_cases hlt : done < b.n
    · rw [if_pos hlt, cut_step hB (by omega), List.map_cons, chopAux_lens hB b fuel _ (by rw [Nat.add_mul, one_mul] at h; omega),
        Nat.sub_sub]
      rfl
    · rw [if_neg hlt, show b.n - done = 0 by omega]
      simp [cut]

omit [Arith] in
theorem chopAux_ch {B : ℕ} (b : Buf) : ∀ (fuel done : ℕ), ∀ p ∈ chopAux B b fuel done, p.ch = b.ch
  | 0, done, p, h => by simp [chopAux] at h
  | fuel + 1, done, p, h => by
    unfold chopAux at h
    by_cases hlt : done < b.n
    · rw [if_pos hlt, List.mem_cons] at h
      rcases h with rfl | h
      · rfl
      · exact chopAux_ch b fuel _ p h
    · rw [if_neg hlt] at h
      simp at h

omit [Arith] in
theorem chop_lens {B : ℕ} (hB : 0 < B) (b : Buf) : (chop B b).map Buf.n = cut B b.n := by
  have := chopAux_lens hB b b.n 0 (by rw [Nat.sub_zero]; exact Nat.le_mul_of_pos_right _ hB)
  rwa [Nat.sub_zero] at this

variable {W B : ℕ} {ir : Buf} {inR outR : ℕ → ℕ} {n0 : ℕ} {rest : List Layout} {x : ℕ → ℕ → ℝ} {t : ℕ} {s s' : Convolver}

theorem C3Inv.clearRight {x' : ℕ → ℕ → ℝ} (h : C3Inv W ir inR outR B n0 rest x x' t s s') :
    C3Inv W ir inR outR B n0 rest x x' t s { s' with routing := s'.routing.clear } := fun y y' h1 h2 =>
  have h := h y y' h1 h2
  ⟨h.hB, h.bs, h.bs', h.numConv, h.numConv', h.rch, h.rn, h.rch', h.rn', h.inr, h.outr, h.inr', h.outr', h.nupc⟩

theorem C3Inv.clearLeft {x' : ℕ → ℕ → ℝ} (h : C3Inv W ir inR outR B n0 rest x x' t s s') :
    C3Inv W ir inR outR B n0 rest x x' t { s with routing := s.routing.clear } s' := fun y y' h1 h2 =>
  have h := h y y' h1 h2
  ⟨h.hB, h.bs, h.bs', h.numConv, h.numConv', h.rch, h.rn, h.rch', h.rn', h.inr, h.outr, h.inr', h.outr', h.nupc⟩

/-- the loop over a block, and `Process` calls for its pieces -/
theorem C3Inv.loop_chop {E : RealFFT} (hE : HalfSpectrum E) (fuel : ℕ) :
    ∀ {t : ℕ} {s s' : Convolver} {blk blk0 : Buf} {done : ℕ}, C3Inv W ir inR outR B n0 rest x x t s s' → done ≤ blk.n →
    blk0.n = blk.n → blk0.ch = blk.ch →
    (∀ c < ir.ch, inR c < blk.ch ∧ outR c < blk.ch) → blk.n - done ≤ fuel * B →
    (∀ c < ir.ch, ∀ i < blk.n - done, blk.data (inR c) (done + i) = x (inR c) (t + i)) →
    (∀ c < ir.ch, ∀ i < blk.n - done, blk0.data (inR c) (done + i) = x (inR c) (t + i)) →
    ∃ s1 out s1' outs, Convolver.loopR E fuel s blk done = some (s1, out) ∧
      feed (Convolver.processR E) s' (chopAux B blk0 fuel done) = some (s1', outs) ∧
      out.n = blk.n ∧ out.ch = blk.ch ∧ SameShape (chopAux B blk0 fuel done) outs ∧
      (∀ o < blk.ch, ∀ i < blk.n - done, out.data o (done + i) = stream outs o i) ∧
      (∀ o < blk.ch, ∀ i < blk.n, i < done → out.data o i = blk.data o i) ∧
      C3Inv W ir inR outR B n0 rest x x (t + (blk.n - done)) s1 s1' := by
  induction fuel with
  | zero =>
    intro t s s' blk blk0 done h hdn hn0 hc0 hio hfuel hin hin0
    have hdn' : ¬ done < blk.n := by omega
    refine ⟨s, blk, s', [], by unfold Convolver.loopR; rw [if_neg hdn'], rfl, rfl, rfl, .nil,
      fun _ _ _ _ => by omega, fun _ _ _ _ _ => rfl, by rw [show blk.n - done = 0 by omega]; exact h⟩
  | succ fuel ih =>
    intro t s s' blk blk0 done h hdn hn0 hc0 hio hfuel hin hin0
    by_cases hlt : done < blk.n
    · have hB := h.base.hB
      set k := min (blk.n - done) B with hkdef
      have hk : 0 < k := by omega
      have hkB : k ≤ B := by omega
      obtain ⟨s1, b1, s1', b1', e1, e1', n1, c1, n1', c1', g1, d1, h1⟩ := h.clearRight.body hE (blk := blk) (blk' := blk0) (done := done) (k := k) hk hkB (by omega)
        hn0 hc0 hio (fun c hc i hi => hin c hc i (by omega)) (fun c hc i hi => hin0 c hc i (by omega))
      obtain ⟨o1, f1, on1, oc1, od1⟩ := body_piece hk (by omega) e1'
      have f2 : s'.processR E (piece blk0 done k) = some (s1', o1) := by
        exact process_piece h.base.bs' hk hkB f1 on1
      obtain ⟨s2, b2, s2', outs, e2, e2', n2, c2, sh2, g2, d2, h2⟩ := ih h1 (blk := b1) (blk0 := blk0) (done := done + k) (by omega)
        (by rw [hn0, n1]) (by rw [hc0, c1])
        (by intro c hc; rw [c1]; exact hio c hc)
        (by rw [n1]; rw [Nat.add_mul, one_mul] at hfuel; omega)
        (by
          intro c hc i hi
          rw [n1] at hi
          rw [(d1 _ (hio c hc).1 _ (by omega) (by omega)).1, show done + k + i = done + (k + i) by omega,
            hin c hc _ (by omega)]
          congr 1; omega)
        (by
          intro c hc i hi
          rw [n1] at hi
          rw [show done + k + i = done + (k + i) by omega, hin0 c hc _ (by omega)]
          congr 1; omega)
      have hch : chopAux B blk0 (fuel + 1) done = piece blk0 done k :: chopAux B blk0 fuel (done + k) := by
        conv_lhs => unfold chopAux
        rw [hn0, if_pos hlt]
      refine ⟨s2, b2, s2', o1 :: outs, ?_, ?_, by rw [n2, n1], by rw [c2, c1], ?_, ?_, ?_, ?_⟩
      · unfold Convolver.loopR
        rw [if_pos hlt]
        simp only [h.base.bs, Option.bind_eq_bind]
        rw [← hkdef, e1]
        exact e2
      · rw [hch]
        unfold feed
        rw [f2]
        simp only [Option.bind_some, e2', Option.map_some]
      · rw [hch]
        exact .cons ⟨by rw [oc1]; rfl, by rw [on1]; rfl⟩ sh2
      · intro o ho i hi
        simp only [stream, on1]
        by_cases h3 : i < k
        · rw [if_pos h3, od1 o (by rw [hc0]; exact ho) i h3, d2 o (by rw [c1]; exact ho) _ (by rw [n1]; omega) (by omega)]
          exact g1 o ho _ (by omega) (by omega) (by omega) (fun _ _ _ _ _ _ => rfl)
        · rw [if_neg h3, ← g2 o (by rw [c1]; exact ho) (i - k) (by rw [n1]; omega)]
          congr 1; omega
      · intro o ho i hi hdi
        rw [d2 o (by rw [c1]; exact ho) i (by rw [n1]; exact hi) (by omega)]
        exact (d1 o ho i hi (by omega)).1
      · rw [n1, show t + k + (blk.n - (done + k)) = t + (blk.n - done) by omega] at h2
        exact h2
    · have hch : chopAux B blk0 (fuel + 1) done = [] := by
        unfold chopAux
        rw [hn0, if_neg hlt]
      rw [hch]
      refine ⟨s, blk, s', [], by unfold Convolver.loopR; rw [if_neg hlt], rfl, rfl, rfl, .nil,
        fun _ _ _ _ => by omega, fun _ _ _ _ _ => rfl, by rw [show blk.n - done = 0 by omega]; exact h⟩

theorem C3Inv.step_chop {E : RealFFT} (hE : HalfSpectrum E) (h : C3Inv W ir inR outR B n0 rest x x t s s') {blk : Buf}
    (hio : ∀ c < ir.ch, inR c < blk.ch ∧ outR c < blk.ch)
    (hin : ∀ c < ir.ch, ∀ i < blk.n, blk.data (inR c) i = x (inR c) (t + i)) :
    ∃ s1 out s1' outs, s.processR E blk = some (s1, out) ∧ feed (Convolver.processR E) s' (chop B blk) = some (s1', outs) ∧
      out.n = blk.n ∧ out.ch = blk.ch ∧ SameShape (chop B blk) outs ∧
      (∀ o < blk.ch, ∀ i < blk.n, out.data o i = stream outs o i) ∧
      C3Inv W ir inR outR B n0 rest x x (t + blk.n) s1 s1' := by
  obtain ⟨s1, out, s1', outs, e, e', n, cc, sh, d, _, h'⟩ := h.clearLeft.loop_chop hE blk.n (blk := blk) (blk0 := blk) (done := 0) (by omega) rfl rfl hio
    (Nat.le_mul_of_pos_right _ h.base.hB)
    (by intro c hc i hi; rw [zero_add]; exact hin c hc i hi) (by intro c hc i hi; rw [zero_add]; exact hin c hc i hi)
  refine ⟨s1, out, s1', outs, e, e', n, cc, sh, fun o ho i hi => ?_, h'⟩
  have := d o ho i hi
  rwa [zero_add] at this

end Zones.Proofs.R
