import Verif.Proofs.RMemNUPC
import Verif.Proofs.RConvolver

/-! # Two runs of a `Convolver` in rounded arithmetic: outputs that agree bit for bit -/

open Finset Zones.Spec Zones.Model

namespace Zones.Proofs.R

variable [Arith]

theorem scatter2 {s s' : Convolver} {out out' rs rs' : Buf} {outR : ℕ → ℕ} (hn : out.n = rs.n) (hn' : out'.n = rs'.n)
    (hc : out'.ch = out.ch) (hnn : out'.n = out.n) (k : ℕ) (hk : k ≤ rs.ch) (hk' : k ≤ rs'.ch)
    (hout : ∀ c < k, Convolver.route s.spec.outputRouting c = some (outR c) ∧ outR c < out.ch)
    (hout' : ∀ c < k, Convolver.route s'.spec.outputRouting c = some (outR c)) :
    ∃ o o', (List.range k).foldlM (Convolver.scatterOneR s rs) out = some o ∧
      (List.range k).foldlM (Convolver.scatterOneR s' rs') out' = some o' ∧ o.ch = out.ch ∧ o.n = out.n ∧ o'.ch = out.ch ∧ o'.n = out.n ∧
      ∀ ch < out.ch, ∀ i < out.n, out.data ch i = out'.data ch i →
        (∀ c < k, outR c = ch → rs.data c i = rs'.data c i) → o.data ch i = o'.data ch i := by
  induction k with
  | zero => exact ⟨out, out', rfl, rfl, rfl, rfl, hc, hnn, fun ch _ i _ h _ => h⟩
  | succ k ih =>
    obtain ⟨o1, o1', e1, e1', c1, n1, c1', n1', d1⟩ := ih (by omega) (by omega) (fun c hc => hout c (by omega)) (fun c hc => hout' c (by omega))
    obtain ⟨h1, h2⟩ := hout k (by omega)
    have h1' := hout' k (by omega)
    rw [List.range_succ, List.foldlM_append, List.foldlM_append, e1, e1']
    simp only [Option.bind_eq_bind, Option.bind_some, List.foldlM_cons, List.foldlM_nil]
    unfold Convolver.scatterOneR
    have e2 : o1.single (outR k) = some ⟨1, o1.n, fun _ i => o1.data (outR k) i⟩ := by
      unfold Buf.single; rw [if_pos (by omega)]
    have e2' : o1'.single (outR k) = some ⟨1, o1'.n, fun _ i => o1'.data (outR k) i⟩ := by
      unfold Buf.single; rw [if_pos (by omega)]
    have e3 : rs.single k = some ⟨1, rs.n, fun _ i => rs.data k i⟩ := by
      unfold Buf.single; rw [if_pos (by omega)]
    have e3' : rs'.single k = some ⟨1, rs'.n, fun _ i => rs'.data k i⟩ := by
      unfold Buf.single; rw [if_pos (by omega)]
    simp only [h1, h1', e2, e2', e3, e3', Option.bind_eq_bind, Option.bind_some, Buf.addR, if_true]
    refine ⟨_, _, rfl, rfl, c1, n1, c1', n1', ?_⟩
    intro o ho i hi h0 hv
    have ih' := d1 o ho i hi h0 (fun c hc => hv c (by omega))
    simp only [Buf.putChannel]
    by_cases hok : o = outR k
    · subst hok
      rw [if_pos ⟨rfl, by omega⟩, if_pos ⟨Nat.one_pos, by omega⟩, if_pos ⟨rfl, by omega⟩, if_pos ⟨Nat.one_pos, by omega⟩, ih', hv k (by omega) rfl]
    · rw [if_neg (fun h => hok h.1), if_neg (fun h => hok h.1)]
      exact ih'

/-- two states after `t` samples of `x` and of `x'` (caller's channels) since the start or the last reset -/
structure C2Inv (W : ℕ) (ir : Buf) (inR outR : ℕ → ℕ) (B n0 : ℕ) (rest : List Layout) (x x' : ℕ → ℕ → ℝ) (t : ℕ)
    (s s' : Convolver) : Prop where
  hB : 0 < B
  bs : s.blockSize = B
  bs' : s'.blockSize = B
  numConv : s.numConv = ir.ch
  numConv' : s'.numConv = ir.ch
  rch : s.routing.ch = ir.ch
  rn : s.routing.n = B
  rch' : s'.routing.ch = ir.ch
  rn' : s'.routing.n = B
  inr : ∀ c < ir.ch, Convolver.route s.spec.inputRouting c = some (inR c)
  outr : ∀ c < ir.ch, Convolver.route s.spec.outputRouting c = some (outR c)
  inr' : ∀ c < ir.ch, Convolver.route s'.spec.inputRouting c = some (inR c)
  outr' : ∀ c < ir.ch, Convolver.route s'.spec.outputRouting c = some (outR c)
  nupc : N2Inv W (nPar B ir.ch ir n0 rest) (fun c => x (inR c)) (fun c => x' (inR c)) t s.nupc s'.nupc

variable {W B : ℕ} {ir : Buf} {inR outR : ℕ → ℕ} {n0 : ℕ} {rest : List Layout} {x x' : ℕ → ℕ → ℝ} {t : ℕ} {s s' : Convolver}

theorem C2Inv.clearRouting (h : C2Inv W ir inR outR B n0 rest x x' t s s') :
    C2Inv W ir inR outR B n0 rest x x' t { s with routing := s.routing.clear } { s' with routing := s'.routing.clear } :=
  ⟨h.hB, h.bs, h.bs', h.numConv, h.numConv', h.rch, h.rn, h.rch', h.rn', h.inr, h.outr, h.inr', h.outr', h.nupc⟩

theorem C2Inv.reset [ZeroBase] (h : C2Inv W ir inR outR B n0 rest x x' t s s') (y y' : ℕ → ℕ → ℝ) :
    C2Inv W ir inR outR B n0 rest y y' 0 s.reset s'.reset :=
  ⟨h.hB, h.bs, h.bs', h.numConv, h.numConv', h.rch, h.rn, h.rch', h.rn', h.inr, h.outr, h.inr', h.outr', h.nupc.reset _ _⟩

theorem C2Inv.body {E : RealFFT} (hE : HalfSpectrum E) (h : C2Inv W ir inR outR B n0 rest x x' t s s') {blk blk' : Buf} {done k : ℕ} (hk : 0 < k)
    (hkB : k ≤ B) (hd : done + k ≤ blk.n) (hnn : blk'.n = blk.n) (hcc : blk'.ch = blk.ch) (hio : ∀ c < ir.ch, inR c < blk.ch ∧ outR c < blk.ch)
    (hin : ∀ c < ir.ch, ∀ i < k, blk.data (inR c) (done + i) = x (inR c) (t + i))
    (hin' : ∀ c < ir.ch, ∀ i < k, blk'.data (inR c) (done + i) = x' (inR c) (t + i)) :
    ∃ s1 out s1' out', s.bodyR E blk done k = some (s1, out) ∧ s'.bodyR E blk' done k = some (s1', out') ∧
      out.n = blk.n ∧ out.ch = blk.ch ∧ out'.n = blk.n ∧ out'.ch = blk.ch ∧
      (∀ o < blk.ch, ∀ i < blk.n, done ≤ i → i < done + k → ∀ a,
        (∀ c < ir.ch, outR c = o → SameFrom a (x (inR c)) (x' (inR c))) → a ≤ t + (i - done) + 1 - W → out.data o i = out'.data o i) ∧
      (∀ o < blk.ch, ∀ i < blk.n, ¬ (done ≤ i ∧ i < done + k) → out.data o i = blk.data o i ∧ out'.data o i = blk'.data o i) ∧
      C2Inv W ir inR outR B n0 rest x x' (t + k) s1 s1' := by
  have hBpos := h.hB
  have e1 : blk.sub done k = some ⟨blk.ch, k, fun c i => blk.data c (done + i)⟩ := by
    unfold Buf.sub; rw [if_pos ⟨by omega, hd⟩]
  have e1' : blk'.sub done k = some ⟨blk.ch, k, fun c i => blk'.data c (done + i)⟩ := by
    unfold Buf.sub; rw [if_pos ⟨by omega, by omega⟩, hcc]
  have e2 : s.routing.sub 0 k = some ⟨ir.ch, k, fun c i => s.routing.data c (0 + i)⟩ := by
    unfold Buf.sub; rw [h.rn, h.rch, if_pos ⟨h.hB, by omega⟩]
  have e2' : s'.routing.sub 0 k = some ⟨ir.ch, k, fun c i => s'.routing.data c (0 + i)⟩ := by
    unfold Buf.sub; rw [h.rn', h.rch', if_pos ⟨h.hB, by omega⟩]
  unfold Convolver.bodyR
  simp only [e1, e2, e1', e2', Option.bind_eq_bind, Option.bind_some, h.numConv, h.numConv']
  set out : Buf := ⟨blk.ch, k, fun c i => blk.data c (done + i)⟩ with hout
  set rs : Buf := ⟨ir.ch, k, fun c i => s.routing.data c (0 + i)⟩ with hrs
  set out' : Buf := ⟨blk.ch, k, fun c i => blk'.data c (done + i)⟩ with hout'
  set rs' : Buf := ⟨ir.ch, k, fun c i => s'.routing.data c (0 + i)⟩ with hrs'
  obtain ⟨r1, e3, c3, n3, d3⟩ := gather_eq (s := s) (out := out) (rs := rs) (inR := inR) rfl ir.ch le_rfl
    (fun c hc => ⟨h.inr c hc, (hio c hc).1⟩)
  obtain ⟨r1', e3', c3', n3', d3'⟩ := gather_eq (s := s') (out := out') (rs := rs') (inR := inR) rfl ir.ch le_rfl
    (fun c hc => ⟨h.inr' c hc, (hio c hc).1⟩)
  rw [e3, e3']
  simp only [Option.bind_some]
  have n3k : r1.n = k := n3
  have n3k' : r1'.n = k := n3'
  obtain ⟨s4, b4, s4', b4', e4, e4', n4, c4, n4', c4', d4, h4⟩ := h.nupc.step hE h.hB (blk := r1) (blk' := r1') (by rw [c3]; rfl) (by rw [c3']; rfl)
    (by rw [n3k, n3k']) (by
      intro c hc i hi
      have hc' : c < ir.ch := hc
      rw [n3] at hi
      rw [d3 c hc' i hi, if_pos hc']
      exact hin c hc' i hi) (by
      intro c hc i hi
      have hc' : c < ir.ch := hc
      rw [n3k] at hi
      rw [d3' c hc' i hi, if_pos hc']
      exact hin' c hc' i hi)
  rw [e4, e4']
  simp only [Option.bind_some]
  have n4k : b4.n = k := by rw [n4, n3k]
  have n4k' : b4'.n = k := by rw [n4', n3k]
  have c4k : b4.ch = ir.ch := c4
  have c4k' : b4'.ch = ir.ch := c4'
  obtain ⟨o5, o5', e5, e5', c5, n5, c5', n5', d5⟩ := scatter2 (s := s) (s' := s') (out := out.clear) (out' := out'.clear) (rs := b4) (rs' := b4') (outR := outR)
    (by rw [n4k]; rfl) (by rw [n4k']; rfl) rfl rfl ir.ch (by rw [c4k]) (by rw [c4k']) (fun c hc => ⟨h.outr c hc, (hio c hc).2⟩) (fun c hc => h.outr' c hc)
  rw [e5, e5']
  simp only [Option.bind_some]
  have n5k : o5.n = k := n5
  have n5k' : o5'.n = k := n5'
  refine ⟨_, _, _, _, rfl, rfl, rfl, rfl, hnn, hcc, ?_, ?_, ?_⟩
  · intro o ho i hi hd1 hd2 a hsame ha
    simp only [Buf.put, n5k, n5k']
    rw [if_pos ⟨ho, hd1, hd2⟩, if_pos ⟨by rw [hcc]; exact ho, hd1, hd2⟩]
    refine d5 o ho (i - done) (by show _ < k; omega) ?_ ?_
    · simp only [Buf.clear]
      rw [if_pos ⟨ho, by show _ < k; omega⟩, if_pos ⟨ho, by show _ < k; omega⟩]
    · intro c hc hco
      exact d4 c hc (i - done) (by rw [n3k]; omega) a (hsame c hc hco) ha
  · intro o ho i hi hcond
    simp only [Buf.put, n5k, n5k']
    rw [if_neg (by tauto), if_neg (by tauto)]
    exact ⟨rfl, rfl⟩
  · refine ⟨h.hB, h.bs, h.bs', rfl, rfl, h.rch, h.rn, h.rch', h.rn', h.inr, h.outr, h.inr', h.outr', ?_⟩
    show N2Inv _ _ _ _ _ s4 s4'
    rw [n3k] at h4
    exact h4

/-- the same, whatever `x` and `x'` are from sample `t` on -/
def C3Inv (W : ℕ) (ir : Buf) (inR outR : ℕ → ℕ) (B n0 : ℕ) (rest : List Layout) (x x' : ℕ → ℕ → ℝ) (t : ℕ)
    (s s' : Convolver) : Prop :=
  ∀ y y', (∀ ch, ∀ i < t, y ch i = x ch i) → (∀ ch, ∀ i < t, y' ch i = x' ch i) → C2Inv W ir inR outR B n0 rest y y' t s s'

theorem C3Inv.base (h : C3Inv W ir inR outR B n0 rest x x' t s s') : C2Inv W ir inR outR B n0 rest x x' t s s' :=
  h x x' (fun _ _ _ => rfl) (fun _ _ _ => rfl)

theorem C3Inv.clearRouting (h : C3Inv W ir inR outR B n0 rest x x' t s s') :
    C3Inv W ir inR outR B n0 rest x x' t { s with routing := s.routing.clear } { s' with routing := s'.routing.clear } :=
  fun y y' h1 h2 => (h y y' h1 h2).clearRouting

theorem C3Inv.reset [ZeroBase] (h : C3Inv W ir inR outR B n0 rest x x' t s s') (y y' : ℕ → ℕ → ℝ) :
    C3Inv W ir inR outR B n0 rest y y' 0 s.reset s'.reset :=
  fun _ _ _ _ => h.base.reset _ _

theorem C3Inv.body {E : RealFFT} (hE : HalfSpectrum E) (h : C3Inv W ir inR outR B n0 rest x x' t s s') {blk blk' : Buf} {done k : ℕ} (hk : 0 < k)
    (hkB : k ≤ B) (hd : done + k ≤ blk.n) (hnn : blk'.n = blk.n) (hcc : blk'.ch = blk.ch) (hio : ∀ c < ir.ch, inR c < blk.ch ∧ outR c < blk.ch)
    (hin : ∀ c < ir.ch, ∀ i < k, blk.data (inR c) (done + i) = x (inR c) (t + i))
    (hin' : ∀ c < ir.ch, ∀ i < k, blk'.data (inR c) (done + i) = x' (inR c) (t + i)) :
    ∃ s1 out s1' out', s.bodyR E blk done k = some (s1, out) ∧ s'.bodyR E blk' done k = some (s1', out') ∧
      out.n = blk.n ∧ out.ch = blk.ch ∧ out'.n = blk.n ∧ out'.ch = blk.ch ∧
      (∀ o < blk.ch, ∀ i < blk.n, done ≤ i → i < done + k →
        (∀ c < ir.ch, outR c = o → ∀ m, t + (i - done) < m + W → m < t + (i - done) + B → x (inR c) m = x' (inR c) m) →
          out.data o i = out'.data o i) ∧
      (∀ o < blk.ch, ∀ i < blk.n, ¬ (done ≤ i ∧ i < done + k) → out.data o i = blk.data o i ∧ out'.data o i = blk'.data o i) ∧
      C3Inv W ir inR outR B n0 rest x x' (t + k) s1 s1' := by
  obtain ⟨s1, out, s1', out', e, e', n1, c1, n1', c1', _, d1, _⟩ := h.base.body hE hk hkB hd hnn hcc hio hin hin'
  have main : ∀ y y' : ℕ → ℕ → ℝ, (∀ ch, ∀ i < t + k, y ch i = x ch i) → (∀ ch, ∀ i < t + k, y' ch i = x' ch i) →
      (∀ o < blk.ch, ∀ i < blk.n, done ≤ i → i < done + k → ∀ a,
        (∀ c < ir.ch, outR c = o → SameFrom a (y (inR c)) (y' (inR c))) → a ≤ t + (i - done) + 1 - W → out.data o i = out'.data o i) ∧
      C2Inv W ir inR outR B n0 rest y y' (t + k) s1 s1' := by
    intro y y' hy hy'
    obtain ⟨s2, o2, s2', o2', f, f', _, _, _, _, g2, _, h2⟩ := (h y y' (fun ch i hi => hy ch i (by omega)) (fun ch i hi => hy' ch i (by omega))).body hE hk hkB hd hnn hcc hio
      (fun c hc i hi => by rw [hin c hc i hi, hy _ _ (by omega)]) (fun c hc i hi => by rw [hin' c hc i hi, hy' _ _ (by omega)])
    rw [e] at f
    rw [e'] at f'
    cases f
    cases f'
    exact ⟨g2, h2⟩
  refine ⟨s1, out, s1', out', e, e', n1, c1, n1', c1', ?_, d1, fun y y' hy hy' => (main y y' hy hy').2⟩
  intro o ho i hi hd1 hd2 hsame
  refine (main (fun ch j => if j < t + k then x ch j else 0) (fun ch j => if j < t + k then x' ch j else 0)
    (fun ch j hj => by simp only [if_pos hj]) (fun ch j hj => by simp only [if_pos hj])).1 o ho i hi hd1 hd2 (t + (i - done) + 1 - W) ?_ le_rfl
  intro c hc hco j hj
  show (if j < t + k then x (inR c) j else 0) = if j < t + k then x' (inR c) j else 0
  by_cases hjt : j < t + k
  · rw [if_pos hjt, if_pos hjt]
    exact hsame c hc hco j (by omega) (by omega)
  · rw [if_neg hjt, if_neg hjt]

theorem C3Inv.loop {E : RealFFT} (hE : HalfSpectrum E) (fuel : ℕ) :
    ∀ {t : ℕ} {s s' : Convolver} {blk blk' : Buf} {done : ℕ}, C3Inv W ir inR outR B n0 rest x x' t s s' → done ≤ blk.n →
    blk'.n = blk.n → blk'.ch = blk.ch →
    (∀ c < ir.ch, inR c < blk.ch ∧ outR c < blk.ch) → blk.n - done ≤ fuel * B →
    (∀ c < ir.ch, ∀ i < blk.n - done, blk.data (inR c) (done + i) = x (inR c) (t + i)) →
    (∀ c < ir.ch, ∀ i < blk.n - done, blk'.data (inR c) (done + i) = x' (inR c) (t + i)) →
    ∃ s1 out s1' out', Convolver.loopR E fuel s blk done = some (s1, out) ∧ Convolver.loopR E fuel s' blk' done = some (s1', out') ∧
      out.n = blk.n ∧ out.ch = blk.ch ∧ out'.n = blk.n ∧ out'.ch = blk.ch ∧
      (∀ o < blk.ch, ∀ i < blk.n, done ≤ i → 
        (∀ c < ir.ch, outR c = o → ∀ m, t + (i - done) < m + W → m < t + (i - done) + B → x (inR c) m = x' (inR c) m) → out.data o i = out'.data o i) ∧
      (∀ o < blk.ch, ∀ i < blk.n, i < done → out.data o i = blk.data o i ∧ out'.data o i = blk'.data o i) ∧
      C3Inv W ir inR outR B n0 rest x x' (t + (blk.n - done)) s1 s1' := by
  induction fuel with
  | zero =>
    intro t s s' blk blk' done h hdn hnn hcc hio hfuel hin hin'
    have hdn' : ¬ done < blk.n := by omega
    have hdn2 : ¬ done < blk'.n := by omega
    refine ⟨s, blk, s', blk', by unfold Convolver.loopR; rw [if_neg hdn'], by unfold Convolver.loopR; rw [if_neg hdn2], rfl, rfl, hnn, hcc,
      fun _ _ _ _ _ => by omega, fun _ _ _ _ _ => ⟨rfl, rfl⟩, by rw [show blk.n - done = 0 by omega]; exact h⟩
  | succ fuel ih =>
    intro t s s' blk blk' done h hdn hnn hcc hio hfuel hin hin'
    by_cases hlt : done < blk.n
    · have hB := h.base.hB
      set k := min (blk.n - done) B with hkdef
      have hk : 0 < k := by omega
      obtain ⟨s1, b1, s1', b1', e1, e1', n1, c1, n1', c1', g1, d1, h1⟩ := h.body hE (blk := blk) (blk' := blk') (done := done) (k := k) hk (by omega) (by omega)
        hnn hcc hio (fun c hc i hi => hin c hc i (by omega)) (fun c hc i hi => hin' c hc i (by omega))
      obtain ⟨s2, b2, s2', b2', e2, e2', n2, c2, n2', c2', g2, d2, h2⟩ := ih h1 (blk := b1) (blk' := b1') (done := done + k) (by omega)
        (by rw [n1', n1]) (by rw [c1', c1])
        (by intro c hc; rw [c1]; exact hio c hc)
        (by rw [n1]; rw [Nat.add_mul, one_mul] at hfuel; omega)
        (by
          intro c hc i hi
          rw [n1] at hi
          rw [(d1 _ (hio c hc).1 _ (by omega) (by omega)).1, show done + k + i = done + (k + i) by omega,
            hin c hc _ (by omega)]
          congr 1; omega)
        (by
          intro c hc i hi
          rw [n1] at hi
          rw [(d1 _ (hio c hc).1 _ (by omega) (by omega)).2, show done + k + i = done + (k + i) by omega,
            hin' c hc _ (by omega)]
          congr 1; omega)
      refine ⟨s2, b2, s2', b2', ?_, ?_, by rw [n2, n1], by rw [c2, c1], by rw [n2', n1], by rw [c2', c1], ?_, ?_, ?_⟩
      · unfold Convolver.loopR
        rw [if_pos hlt]
        simp only [h.base.bs, Option.bind_eq_bind]
        rw [← hkdef, e1]
        exact e2
      · unfold Convolver.loopR
        rw [if_pos (by rw [hnn]; exact hlt)]
        simp only [h.base.bs', hnn, Option.bind_eq_bind]
        rw [← hkdef, e1']
        exact e2'
      · intro o ho i hi hdi hsame
        by_cases h3 : done + k ≤ i
        · exact g2 o (by rw [c1]; exact ho) i (by rw [n1]; exact hi) h3 (by
            rw [show t + k + (i - (done + k)) = t + (i - done) by omega]; exact hsame)
        · have hh := d2 o (by rw [c1]; exact ho) i (by rw [n1]; exact hi) (by omega)
          rw [hh.1, hh.2]
          exact g1 o ho i hi hdi (by omega) hsame
      · intro o ho i hi hdi
        have hh := d2 o (by rw [c1]; exact ho) i (by rw [n1]; exact hi) (by omega)
        rw [hh.1, hh.2]
        exact d1 o ho i hi (by omega)
      · rw [n1, show t + k + (blk.n - (done + k)) = t + (blk.n - done) by omega] at h2
        exact h2
    · refine ⟨s, blk, s', blk', by unfold Convolver.loopR; rw [if_neg hlt], by unfold Convolver.loopR; rw [if_neg (by rw [hnn]; exact hlt)], rfl, rfl, hnn, hcc,
        fun _ _ _ _ _ => by omega, fun _ _ _ _ _ => ⟨rfl, rfl⟩, by rw [show blk.n - done = 0 by omega]; exact h⟩

theorem C3Inv.step {E : RealFFT} (hE : HalfSpectrum E) (h : C3Inv W ir inR outR B n0 rest x x' t s s') {blk blk' : Buf}
    (hnn : blk'.n = blk.n) (hcc : blk'.ch = blk.ch)
    (hio : ∀ c < ir.ch, inR c < blk.ch ∧ outR c < blk.ch)
    (hin : ∀ c < ir.ch, ∀ i < blk.n, blk.data (inR c) i = x (inR c) (t + i))
    (hin' : ∀ c < ir.ch, ∀ i < blk.n, blk'.data (inR c) i = x' (inR c) (t + i)) :
    ∃ s1 out s1' out', s.processR E blk = some (s1, out) ∧ s'.processR E blk' = some (s1', out') ∧
      out.n = blk.n ∧ out.ch = blk.ch ∧ out'.n = blk.n ∧ out'.ch = blk.ch ∧
      (∀ o < blk.ch, ∀ i < blk.n, 
        (∀ c < ir.ch, outR c = o → ∀ m, t + i < m + W → m < t + i + B → x (inR c) m = x' (inR c) m) → out.data o i = out'.data o i) ∧
      C3Inv W ir inR outR B n0 rest x x' (t + blk.n) s1 s1' := by
  obtain ⟨s1, out, s1', out', e, e', n, cc, n', cc', d, _, h'⟩ := h.clearRouting.loop hE blk.n (blk := blk) (blk' := blk') (done := 0) (by omega) hnn hcc hio
    (Nat.le_mul_of_pos_right _ h.base.hB)
    (by intro c hc i hi; rw [zero_add]; exact hin c hc i hi) (by intro c hc i hi; rw [zero_add]; exact hin' c hc i hi)
  exact ⟨s1, out, s1', out', e, by unfold Convolver.processR; rw [hnn]; exact e', n, cc, n', cc', fun o ho i hi => d o ho i hi (by omega), h'⟩

theorem C3Inv.create [ZeroBase] {E : RealFFT} {maxB : ℕ} {spec : ConvolverSpec}
    (hr : requestedBlockSize maxB spec.internalBlockSize ≤ 2^30)
    (hn : 0 < ir.n) (hn' : ir.n ≤ 2^24)
    (hin : ∀ c < ir.ch, Convolver.route spec.inputRouting c = some (inR c))
    (hout : ∀ c < ir.ch, Convolver.route spec.outputRouting c = some (outR c)) (g g' : Garbage) (r0 r0' : ℕ → ℕ → ℝ) :
    ∃ s s' b n0 rest, Convolver.createR E ir maxB spec g r0 = some s ∧ Convolver.createR E ir maxB spec g' r0' = some s' ∧
      internalBlockSize Convolver.po2Fuel maxB spec.internalBlockSize = some (2^b) ∧
      getPartitionScheme kGarciaResults (2^b) ir.n = some (⟨1, n0⟩ :: rest) ∧
      GoodRest (2^b) ir.n (n0 * 2^b) rest ∧ 0 < n0 ∧
      (∀ (W : ℕ),
        (uPar (2^b) ir.ch (nPar (2^b) ir.ch ir n0 rest).seg0).N +
          segK (2^b) (nPar (2^b) ir.ch ir n0 rest).seg0 * 2^b ≤ W →
        (∀ a ∈ (nPar (2^b) ir.ch ir n0 rest).specs,
          a.e + (segK (2^(Nat.log 2 (2^b)+a.p)) a.seg + 3) * 2^(Nat.log 2 (2^b)+a.p) ≤ W) →
        (∀ a ∈ (nPar (2^b) ir.ch ir n0 rest).specs, ZeroFilter (Nat.log 2 (2^b)) a.p a.seg) →
        ∀ x x', C3Inv W ir inR outR (2^b) n0 rest x x' 0 s s') := by
  obtain ⟨b, hb1, hb2, e1, _, _⟩ := internalBlockSize_eq (fuel := Convolver.po2Fuel) (by unfold Convolver.po2Fuel; omega) hr
  have hB : 0 < 2^b := by positivity
  have hB' : 2^b ≤ 2^24 := Nat.pow_le_pow_right (by norm_num) (by omega)
  obtain ⟨s, s', n0, rest, e2, e2', esch, hgood, _, hn0, h1⟩ := N2Inv.create (E := E) (nch := ir.ch) hB hB' hn hn' id g g'
  unfold Convolver.createR
  rw [e1]
  simp only [Option.bind_eq_bind, Option.bind_some, e2, e2']
  refine ⟨_, _, b, n0, rest, rfl, rfl, rfl, esch, hgood, hn0, fun W kw k2 k3 x x' _ _ _ _ => ?_⟩
  exact ⟨hB, rfl, rfl, rfl, rfl, rfl, rfl, rfl, rfl, hin, hout, hin, hout, h1 W kw k2 k3 _ _⟩

/-! ## When zeros stay zeros -/

/-- Operations on zeros give zero, and so does zero times any value of the transforms of pieces of the response. -/
structure ZeroSafe (L : ℕ) (ir : Buf) : Prop where
  base : ZeroBase
  filt : ∀ n ≤ L, ∀ d : ℕ → ℂ, (∀ j, d j = 0 ∨ ∃ c < ir.ch, ∃ i < ir.n, d j = (ir.data c i : ℂ)) → ∀ k, Arith.mul 0 (down n d k) = 0

theorem ZeroLaws.safe (h : ZeroLaws) (L : ℕ) (ir : Buf) : ZeroSafe L ir := ⟨inferInstance, fun _ _ _ _ _ => ZeroLaws.mul _⟩

theorem specs_zero {b : ℕ} {ir : Buf} {L : ℕ} (hZ : ZeroSafe L ir) :
    ∀ (rest : List Layout) (off : ℕ), GoodRest (2^b) ir.n off rest → (∀ l ∈ rest, 2 * (l.psb * 2^b) ≤ 2^L) →
    ∀ a ∈ mkSpecs (2^b) ir off rest, ZeroFilter b a.p a.seg
  | [], _, _, _ => by simp [mkSpecs]
  | l :: rest, off, h, hL => by
    obtain ⟨⟨p, hp, hpsb⟩, hnp, hclr, h24, hoff, hmono, hrest⟩ := h
    have hlog : Nat.log 2 l.psb = p := by rw [hpsb]; exact Nat.log_pow (by norm_num) p
    have hP : l.psb * 2^b = 2^(b+p) := by rw [hpsb, ← pow_add, add_comm]
    have ih := specs_zero hZ rest _ hrest fun l' hl' => hL l' (List.mem_cons_of_mem _ hl')
    have hl1 := hL l (List.mem_cons_self ..)
    intro a ha
    unfold mkSpecs at ha
    rcases List.mem_cons.mp ha with rfl | ha
    · simp only [hlog]
      intro hch c i k
      rw [hP, ← pow_succ'] at hl1
      refine hZ.filt _ ((Nat.pow_le_pow_iff_right (by norm_num)).mp hl1) _ (fun j => ?_) k
      have h3 : min (l.samples (2^b)) (ir.n - off) ≤ ir.n - off := min_le_right _ _
      unfold hw zext
      simp only
      split
      · split
        · exact Or.inr ⟨c % ir.ch, Nat.mod_lt _ hch, _, by omega, rfl⟩
        · exact Or.inl (by simp)
      · exact Or.inl rfl
    · exact ih a ha

end Zones.Proofs.R
