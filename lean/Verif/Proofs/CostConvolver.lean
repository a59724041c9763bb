import Verif.Proofs.CostStage
import Verif.Proofs.Work

/-!
# What a call costs
-/

namespace Zones.Proofs
open Zones.Model Zones.Spec

/-! ## The uniform convolver -/

theorem CBuf.clear_shape (b : CBuf) : b.clear.np = b.np ∧ b.clear.ch = b.ch := ⟨rfl, rfl⟩

/-- the parts of the uniform convolver's state the cost depends on -/
structure UShape (nch N K0 : ℕ) (s : UPC) : Prop where
  conv : s.conv.size = nch * N
  ifft : s.ifft.size = nch * N
  filters : s.numFilters = K0

/-- cost of one pass of the uniform convolver -/
def uCost (nch N K0 : ℕ) (begins : Bool) : Cost := ⟨0, 0, 2 * nch, nch * N * (1 + if begins then K0 - 1 else 0)⟩

variable {nch N K0 : ℕ}

theorem UShape.reset {s : UPC} (h : UShape nch N K0 s) : UShape nch N K0 s.reset := ⟨h.1, h.2, h.3⟩

theorem sum_spectra_const {ι : Type} (l : List ι) (k : ℕ) : (l.map fun _ => (⟨0, 0, 0, k⟩ : Cost)).sum = ⟨0, 0, 0, l.length * k⟩ := by
  induction l with
  | nil => simp; rfl
  | cons a l ih =>
    rw [List.map_cons, List.sum_cons, ih]
    ext <;> simp; ring

theorem sum_transforms_const {ι : Type} (l : List ι) (k : ℕ) : (l.map fun _ => (⟨0, 0, k, 0⟩ : Cost)).sum = ⟨0, 0, l.length * k, 0⟩ := by
  induction l with
  | nil => simp; rfl
  | cons a l ih =>
    rw [List.map_cons, List.sum_cons, ih]
    ext <;> simp; ring

theorem macOne_size {s : UPC} {c c' : CBuf} {i : ℕ} (h : UPC.macOne s c i = some c') : c'.size = c.size := by
  unfold UPC.macOne at h
  simp only [bind, Option.bind_eq_some_iff] at h
  obtain ⟨_, _, h⟩ := h
  split at h
  · unfold CBuf.mulAccFrom at h
    split at h
    · cases h; rfl
    · cases h
  · cases h

theorem transformChannel_size {f : (ℕ → ℝ) → (ℕ → ℝ)} {c c' : CBuf} {i : ℕ} (h : UPC.transformChannel f c i = some c') : c'.size = c.size := by
  unfold UPC.transformChannel at h
  split at h
  · cases h; rfl
  · cases h

theorem foldlM_keeps {α ι γ : Type} {f : α → ι → Option α} {size : α → γ} (hf : ∀ a i a', f a i = some a' → size a' = size a) :
    ∀ (l : List ι) (a a' : α), l.foldlM f a = some a' → size a' = size a
  | [], a, a', e => by cases e; rfl
  | i :: l, a, a', e => by
    rw [List.foldlM_cons] at e
    obtain ⟨a1, e1, e2⟩ := Option.bind_eq_some_iff.mp e
    rw [foldlM_keeps hf l a1 a' e2, hf a i a1 e1]

theorem prelude_shape {s s' : UPC} (h : UShape nch N K0 s) (e : s.prelude = some s') : UShape nch N K0 s' := by
  unfold UPC.prelude at e
  split at e
  · simp only [bind, Option.bind_eq_some_iff, pure, Option.some.injEq] at e
    obtain ⟨fdl, e1, conv, e2, r, e3, rfl⟩ := e
    refine ⟨?_, h.2, h.3⟩
    show conv.size = _
    rw [foldlM_keeps (size := CBuf.size) (fun a i a' => macOne_size) _ _ _ e2]
    exact h.1
  · cases e; exact h

theorem body_shape {F : RealFFT} {s : UPC} {blk : Buf} {done k : ℕ} {r : UPC × Buf} (h : UShape nch N K0 s) (e : s.body F blk done k = some r) :
    UShape nch N K0 r.1 ∧ r.2.ch = blk.ch := by
  unfold UPC.body at e
  simp only [bind, Option.bind_eq_some_iff, pure] at e
  obtain ⟨_, _, _, _, _, _, _, _, _, _, _, _, _, _, e⟩ := e
  split at e
  · simp only [Option.bind_eq_some_iff, Option.some.injEq] at e
    obtain ⟨i1, e1, i2, e2, i3, e3, _, _, _, _, rfl⟩ := e
    refine ⟨⟨h.1, ?_, h.3⟩, rfl⟩
    show i3.size = _
    rw [foldlM_keeps (size := CBuf.size) (fun a i a' => transformChannel_size) _ _ _ e3]
    have h2 : i2.size = i1.size := by
      unfold CBuf.addFrom at e2
      split at e2
      · cases e2; rfl
      · cases e2
    have h1 : i1.size = s.ifft.size := by
      unfold CBuf.mulFrom at e1
      split at e1
      · cases e1; rfl
      · cases e1
    rw [h2, h1, h.2]
  · cases e

theorem prelude_costs {s : UPC} (h : UShape nch N K0 s) :
    Costs s.preludeC s.prelude ⟨0, 0, 0, if s.collected = 0 then (K0 - 1) * (nch * N) else 0⟩ := by
  unfold UPC.preludeC UPC.prelude
  by_cases hc : s.collected = 0
  · rw [if_pos hc, if_pos hc, if_pos hc]
    refine Costs.free_bind fun fdl _ => ?_
    have := Costs.foldlM (I := fun c : CBuf => c.size = nch * N) (fC := UPC.macOneC { s with fdl := fdl }) (f := UPC.macOne { s with fdl := fdl })
      (w := fun _ => ⟨0, 0, 0, nch * N⟩) ((List.range (s.numFilters - 1)).map (· + 1)) s.conv.clear h.1
      (fun a ha i _ => (Costs.pay_bind (Costs.free _)).congr (by rw [add_zero, ha]))
      (fun a ha i _ a' e => by rw [macOne_size e, ha])
    refine (this.bind (c' := 0) fun conv _ => Costs.free_bind fun r _ => Costs.pure _).congr ?_
    rw [add_zero, sum_spectra_const, List.length_map, List.length_range, h.3]
  · rw [if_neg hc, if_neg hc, if_neg hc]
    exact Costs.pure s

theorem body_costs {F : RealFFT} {s : UPC} {blk : Buf} {done k : ℕ} (h : UShape nch N K0 s) (hch : blk.ch = nch) :
    Costs (s.bodyC F blk done k) (s.body F blk done k) ⟨0, 0, 2 * nch, nch * N⟩ := by
  unfold UPC.bodyC UPC.body
  refine Costs.free_bind fun first _ => Costs.free_bind fun input _ => Costs.free_bind fun w _ => Costs.free_bind fun buf _ =>
    Costs.free_bind fun w _ => Costs.free_bind fun floats _ => ?_
  have tr : ∀ (f : (ℕ → ℝ) → (ℕ → ℝ)) (c : CBuf), Costs ((List.range blk.ch).foldlM (UPC.transformChannelC f) c)
      ((List.range blk.ch).foldlM (UPC.transformChannel f) c) ⟨0, 0, nch, 0⟩ := fun f c =>
    (Costs.foldlM' (w := fun _ => ⟨0, 0, 1, 0⟩) _ c fun a i _ => (Costs.pay_bind (Costs.free _)).congr (add_zero _)).congr (by
      rw [sum_transforms_const, List.length_range, hch, mul_one])
  refine ((tr _ _).bind (c' := ⟨0, 0, nch, nch * N⟩) fun first _ => ?_).congr ?_
  · split
    · refine Costs.congr (Costs.pay_bind (c' := ⟨0, 0, nch, 0⟩) (Costs.free_bind fun i1 _ => Costs.free_bind fun i2 _ => ?_)) ?_
      · exact ((tr _ _).bind (c' := 0) fun i3 _ => Costs.free_bind fun _ _ => Costs.free_bind fun _ _ => Costs.pure _).congr (add_zero _)
      · rw [h.2]; ext <;> simp
    · exact Costs.none _
  · ext <;> simp; ring

/-- one call within a partition -/
theorem upc_costs {F : RealFFT} {s : UPC} {blk : Buf} (h : UShape nch N K0 s) (hch : blk.ch = nch) (hn : 0 < blk.n) (hfit : s.collected + blk.n ≤ s.partSize) :
    Costs (s.processC F blk) (s.process F blk) (uCost nch N K0 (s.collected = 0)) ∧
      ∀ r, s.process F blk = some r → UShape nch N K0 r.1 := by
  unfold UPC.processC UPC.process
  obtain ⟨n, hn'⟩ : ∃ n, blk.n = n + 1 := ⟨blk.n - 1, by omega⟩
  rw [hn']
  unfold UPC.loopC UPC.loop
  rw [if_pos hn, if_pos hn]
  have stop : ∀ (fuel : ℕ) (r : UPC × Buf) (d : ℕ), ¬ d < r.2.n → UPC.loopC F fuel r.1 r.2 d = pure (r.1, r.2) ∧ UPC.loop F fuel r.1 r.2 d = some (r.1, r.2) := by
    intro fuel r d hd
    cases fuel with
    | zero => unfold UPC.loopC UPC.loop; rw [if_neg hd, if_neg hd]; exact ⟨rfl, rfl⟩
    | succ fuel => unfold UPC.loopC UPC.loop; rw [if_neg hd, if_neg hd]; exact ⟨rfl, rfl⟩
  have hk : ∀ s1, s.prelude = some s1 → min (blk.n - 0) (s1.partSize - s1.collected) = blk.n := fun s1 e => by
    obtain ⟨k1, k2⟩ := upc_prelude_keeps e
    rw [k1, k2]; omega
  constructor
  · refine ((prelude_costs h).bind (c' := ⟨0, 0, 2 * nch, nch * N⟩) fun s1 e1 => ?_).congr (c' := uCost nch N K0 (s.collected = 0)) ?_
    · rw [hk s1 e1]
      refine ((body_costs (prelude_shape h e1) hch).bind fun r e2 => ?_).congr (add_zero _)
      obtain ⟨_, _, k3⟩ := upc_body_keeps e2
      obtain ⟨s1, s2⟩ := stop n r (0 + blk.n) (by rw [k3]; omega)
      rw [s1, s2]
      exact Costs.pure _
    · unfold uCost
      by_cases hc : s.collected = 0
      · simp only [hc, if_true, decide_true]; ext <;> simp; ring
      · simp only [hc, if_false, decide_false]; ext <;> simp
  · intro r e
    obtain ⟨s1, e1, e⟩ := Option.bind_eq_some_iff.mp e
    rw [hk s1 e1] at e
    obtain ⟨r1, e2, e⟩ := Option.bind_eq_some_iff.mp e
    obtain ⟨_, _, k3⟩ := upc_body_keeps e2
    rw [(stop n r1 (0 + blk.n) (by rw [k3]; omega)).2] at e
    cases e
    exact (body_shape (prelude_shape h e1) e2).1

/-! ## Counting blocks -/

/-- work of the blocks completed while `n` samples are processed, the first of them with number `j`; `f i` is the work of block `i` -/
def blockWork (f : ℕ → Cost) (B j col n : ℕ) : Cost := ∑ i ∈ Finset.range ((col + n) / B), f (j + i)

theorem blockWork_add (f : ℕ → Cost) {B : ℕ} (hB : 0 < B) (j col a c : ℕ) :
    blockWork f B j col (a + c) = blockWork f B j col a + blockWork f B (j + (col + a) / B) ((col + a) % B) c := by
  unfold blockWork
  have : (col + (a + c)) / B = (col + a) / B + ((col + a) % B + c) / B := by
    have h := Nat.div_add_mod (col + a) B
    rw [← add_assoc]
    conv_lhs => rw [← h, add_assoc, Nat.mul_add_div hB]
  rw [this, Finset.sum_range_add]
  simp only [add_assoc]

theorem begun_add (B t a c : ℕ) : partitionsBegun B t (a + c) = partitionsBegun B t a + partitionsBegun B (t + a) c := by
  unfold partitionsBegun
  simp only [Finset.card_filter]
  rw [Finset.sum_range_add]
  simp only [add_assoc]

theorem begun_mod (B t n : ℕ) : partitionsBegun B (t % B) n = partitionsBegun B t n := by
  unfold partitionsBegun
  congr 1
  refine Finset.filter_congr fun i _ => ?_
  rw [Nat.dvd_iff_mod_eq_zero, Nat.dvd_iff_mod_eq_zero, Nat.mod_add_mod]

theorem begun_small {B col n : ℕ} (hn : 0 < n) (h : col + n ≤ B) : partitionsBegun B col n = if col = 0 then 1 else 0 := by
  unfold partitionsBegun
  by_cases hc : col = 0
  · rw [if_pos hc]
    subst hc
    rw [Finset.card_eq_one]
    refine ⟨0, Finset.ext fun i => ?_⟩
    simp only [Finset.mem_filter, Finset.mem_range, Finset.mem_singleton, zero_add]
    constructor
    · rintro ⟨h1, h2⟩
      exact Nat.eq_zero_of_dvd_of_lt h2 (by omega)
    · rintro rfl
      exact ⟨hn, dvd_zero _⟩
  · rw [if_neg hc, Finset.card_eq_zero, Finset.filter_eq_empty_iff]
    intro i hi hd
    rw [Finset.mem_range] at hi
    have := Nat.eq_zero_of_dvd_of_lt hd (by omega)
    omega

/-- passes of the partition loop for `n` samples -/
def passesIn (B col n : ℕ) : ℕ := if n = 0 then 0 else (col + n - 1) / B + 1

/-- cost of `n` samples -/
def nCost (f : ℕ → Cost) (nch N K0 B j col n passes : ℕ) : Cost :=
  blockWork f B j col n + ⟨0, 0, 2 * nch * passes, nch * N * (passes + (K0 - 1) * partitionsBegun B col n)⟩

theorem nCost_add (f : ℕ → Cost) {B : ℕ} (hB : 0 < B) (j col a c u v : ℕ) :
    nCost f nch N K0 B j col (a + c) (u + v) =
      nCost f nch N K0 B j col a u + nCost f nch N K0 B (j + (col + a) / B) ((col + a) % B) c v := by
  unfold nCost
  rw [blockWork_add f hB, begun_add, begun_mod]
  generalize blockWork f B j col a = x
  generalize blockWork f B (j + (col + a) / B) ((col + a) % B) c = y
  ext <;> simp <;> ring

theorem nCost_small (f : ℕ → Cost) {B j col k : ℕ} (hk : 0 < k) (h : col + k ≤ B) :
    nCost f nch N K0 B j col k 1 = (if (col + k) % B = 0 then f j else 0) + uCost nch N K0 (col = 0) := by
  unfold nCost uCost blockWork
  rw [begun_small hk h]
  congr 1
  · rcases Nat.eq_or_lt_of_le h with e | e
    · rw [e, Nat.mod_self, Nat.div_self (by omega), if_pos rfl]
      simp
    · rw [Nat.mod_eq_of_lt e, if_neg (by omega), Nat.div_eq_of_lt e]
      simp
  · by_cases hc : col = 0
    · simp [hc]
    · simp [hc]

theorem nCost_zero (f : ℕ → Cost) {B j col : ℕ} (h : col < B) : nCost f nch N K0 B j col 0 0 = 0 := by
  unfold nCost blockWork partitionsBegun
  rw [add_zero, Nat.div_eq_of_lt h]
  ext <;> simp

/-! ## The non-uniform convolver -/

/-- cost of all stages in block `j`; a stage is given by the logarithm of its partition size in blocks and its number of partitions -/
def stagesCost (b nch : ℕ) (stages : List (ℕ × ℕ)) (j : ℕ) : Cost := (stages.map fun st => stageCost b st.1 st.2 nch (j % 2^st.1)).sum

/-- the parts of the state the cost depends on, after `j` blocks and `col` samples of the next one -/
structure NShape (b irCh nch N K0 : ℕ) (stages : List (ℕ × ℕ)) (j col : ℕ) (s : NUPC) : Prop where
  step : InStep s
  B : s.blockSize = 2^b
  col : s.collected = col
  u : UShape nch N K0 s.upc
  proc : s.subs ≠ [] → s.proc.ch = nch
  subs : List.Forall₂ (fun st c => 1 ≤ st.1 ∧ MShape b st.1 st.2 irCh nch (j % 2^st.1) c.td) stages s.subs

variable {b irCh j col : ℕ} {stages : List (ℕ × ℕ)}

theorem stepSubs_costs {saved : Buf} : ∀ {stages : List (ℕ × ℕ)} {subs : List SubConv} (proc : Buf) (ring : Ring),
    (subs ≠ [] → proc.ch = nch) → List.Forall₂ (fun st (c : SubConv) => 1 ≤ st.1 ∧ MShape b st.1 st.2 irCh nch (j % 2^st.1) c.td) stages subs →
    Costs (NUPC.stepSubsC saved subs proc ring) (NUPC.stepSubs saved subs proc ring) (stagesCost b nch stages j) ∧
      ∀ r, NUPC.stepSubs saved subs proc ring = some r →
        List.Forall₂ (fun st (c : SubConv) => 1 ≤ st.1 ∧ MShape b st.1 st.2 irCh nch ((j+1) % 2^st.1) c.td) stages r.1 ∧ (subs ≠ [] → r.2.1.ch = nch)
  | _, _, proc, ring, hp, .nil => by
    refine ⟨Costs.pure _, fun r e => ?_⟩
    cases e
    exact ⟨.nil, hp⟩
  | st :: stages, c :: subs, proc, ring, hp, .cons ⟨hst, hc⟩ hrest => by
    obtain ⟨m1, m2⟩ := multi_costs hst hc (blk := proc.copyFrom saved) (hp (by simp))
    rw [multiCost_eq hst (Nat.mod_lt _ (by positivity))] at m1
    unfold NUPC.stepSubsC NUPC.stepSubs stagesCost
    rw [List.map_cons, List.sum_cons]
    constructor
    · refine m1.bind fun r e => Costs.free_bind fun w _ => Costs.free_bind fun buf _ => ?_
      exact ((stepSubs_costs r.2 _ (fun _ => (m2 r e).2.1) hrest).1.bind fun _ _ => Costs.pure _).congr (add_zero _)
    · intro r e
      obtain ⟨q, e1, e⟩ := Option.bind_eq_some_iff.mp e
      obtain ⟨w, e2, e⟩ := Option.bind_eq_some_iff.mp e
      obtain ⟨buf, e3, e⟩ := Option.bind_eq_some_iff.mp e
      obtain ⟨tl, e4, e⟩ := Option.bind_eq_some_iff.mp e
      cases e
      obtain ⟨n1, n2, n3⟩ := m2 q e1
      rw [Nat.mod_add_mod] at n1
      obtain ⟨k1, k2⟩ := (stepSubs_costs q.2 _ (fun _ => n2) hrest).2 tl e4
      refine ⟨.cons ⟨hst, n1⟩ k1, fun _ => ?_⟩
      by_cases hs : subs = []
      · subst hs
        cases e4
        exact n2
      · exact k2 hs

theorem collect_costs {s : NUPC} (h : NShape b irCh nch N K0 stages j col s) (sub : Buf) (k : ℕ) :
    Costs (s.collectC sub k) (s.collect sub k) (if (col + k) % 2^b = 0 then stagesCost b nch stages j else 0) ∧
      ∀ s', s.collect sub k = some s' → s'.upc = s.upc ∧ s'.blockSize = s.blockSize ∧ s'.collected = s.collected ∧ (s'.subs ≠ [] → s'.proc.ch = nch) ∧
        List.Forall₂ (fun st (c : SubConv) => 1 ≤ st.1 ∧ MShape b st.1 st.2 irCh nch ((if (col + k) % 2^b = 0 then j + 1 else j) % 2^st.1) c.td) stages s'.subs := by
  unfold NUPC.collectC NUPC.collect
  by_cases hl : s.subs.length > 0
  · rw [if_pos hl, if_pos hl]
    have hcol := h.col
    have hB := h.B
    constructor
    · refine Costs.free_bind fun dst _ => ?_
      simp only
      rw [h.col, h.B]
      split
      · obtain ⟨k1, k2⟩ := stepSubs_costs (saved := s.saved.put col (dst.copyFrom sub)) s.proc s.ring h.proc h.subs
        exact (k1.bind (c' := 0) fun r _ => Costs.free_bind fun a _ => Costs.pure _).congr (add_zero _)
      · exact Costs.pure _
    · intro s' e
      obtain ⟨dst, e1, e⟩ := Option.bind_eq_some_iff.mp e
      simp only at e
      rw [hcol, hB] at e
      split at e
      · next hc =>
        obtain ⟨r, e2, e⟩ := Option.bind_eq_some_iff.mp e
        obtain ⟨a, e3, e⟩ := Option.bind_eq_some_iff.mp e
        cases e
        obtain ⟨k1, k2⟩ := (stepSubs_costs _ _ h.proc h.subs).2 r e2
        have hne : s.subs ≠ [] := fun h0 => by rw [h0] at hl; simp at hl
        refine ⟨rfl, hB.symm, hcol.symm, fun _ => k2 hne, ?_⟩
        rw [if_pos hc]; exact k1
      · next hc =>
        cases e
        refine ⟨rfl, hB.symm, hcol.symm, h.proc, ?_⟩
        rw [if_neg hc]; exact h.subs
  · rw [if_neg hl, if_neg hl]
    have h0 : s.subs = [] := List.length_eq_zero_iff.mp (by omega)
    have hs := h.subs
    rw [h0] at hs
    cases hs
    constructor
    · refine (Costs.pure s).congr ?_
      unfold stagesCost; split <;> rfl
    · intro s' e
      cases e
      refine ⟨rfl, rfl, rfl, fun hne => absurd h0 hne, ?_⟩
      rw [h0]; exact .nil

theorem nbody_costs {F : RealFFT} {s : NUPC} (h : NShape b irCh nch N K0 stages j col s) {blk : Buf} {done k : ℕ} (hch : blk.ch = nch)
    (hk : 0 < k) (hfit : col + k ≤ 2^b) :
    Costs (s.bodyC F blk done k) (s.body F blk done k) (nCost (stagesCost b nch stages) nch N K0 (2^b) j col k 1) ∧
      ∀ r, s.body F blk done k = some r → NShape b irCh nch N K0 stages (j + (col + k) / 2^b) ((col + k) % 2^b) r.1 ∧ r.2.ch = blk.ch ∧ r.2.n = blk.n := by
  rw [nCost_small _ hk hfit]
  have hsub : ∀ sub, blk.sub done k = some sub → sub.n = k ∧ sub.ch = nch := by
    intro sub e
    unfold Buf.sub at e
    split at e
    · cases e; exact ⟨rfl, hch⟩
    · cases e
  have hd : (col + k) / 2^b = if (col + k) % 2^b = 0 then 1 else 0 := by
    rcases Nat.eq_or_lt_of_le hfit with e | e
    · rw [e, Nat.div_self (by positivity), Nat.mod_self, if_pos rfl]
    · rw [Nat.div_eq_of_lt e, Nat.mod_eq_of_lt e, if_neg (by omega)]
  constructor
  · unfold NUPC.bodyC NUPC.body
    refine Costs.free_bind fun sub es => ?_
    obtain ⟨n1, n2⟩ := hsub sub es
    obtain ⟨c1, c2⟩ := collect_costs h sub k
    refine c1.bind fun s1 e1 => ?_
    obtain ⟨d1, d2, d3, d4, d5⟩ := c2 s1 e1
    have hu := upc_costs (F := F) (s := s1.upc) (blk := sub) (by rw [d1]; exact h.u) n2 (by omega) (by
      rw [d1, h.step.col, h.step.part, h.col, h.B, n1]; exact hfit)
    have hcc : s1.upc.collected = col := by rw [d1, h.step.col, h.col]
    rw [hcc] at hu
    exact (hu.1.bind (c' := 0) fun u _ => Costs.free_bind fun r _ => Costs.pure _).congr (add_zero _)
  · intro r e
    obtain ⟨q1, q2, q3, q4, q5⟩ := nupc_body_keeps e h.step (by rw [h.col, h.B]; exact hfit)
    unfold NUPC.body at e
    obtain ⟨sub, es, e⟩ := Option.bind_eq_some_iff.mp e
    obtain ⟨s1, e1, e⟩ := Option.bind_eq_some_iff.mp e
    obtain ⟨u, e2, e⟩ := Option.bind_eq_some_iff.mp e
    obtain ⟨t, e3, e⟩ := Option.bind_eq_some_iff.mp e
    cases e
    obtain ⟨n1, n2⟩ := hsub sub es
    obtain ⟨d1, d2, d3, d4, d5⟩ := (collect_costs h sub k).2 s1 e1
    have hu := upc_costs (F := F) (s := s1.upc) (blk := sub) (by rw [d1]; exact h.u) n2 (by omega) (by
      rw [d1, h.step.col, h.step.part, h.col, h.B, n1]; exact hfit)
    have hkeep : t.1.upc = u.1 ∧ t.1.subs = s1.subs ∧ t.1.proc = s1.proc := by
      unfold NUPC.addResults at e3
      by_cases hc : s1.subs.length > 0
      · simp only [if_pos hc] at e3
        simp only [bind, Option.bind_eq_some_iff, pure, Option.some.injEq] at e3
        obtain ⟨_, _, _, _, _, _, rfl⟩ := e3
        exact ⟨rfl, rfl, rfl⟩
      · simp only [if_neg hc] at e3
        cases e3; exact ⟨rfl, rfl, rfl⟩
    obtain ⟨k1, k2, k3⟩ := hkeep
    refine ⟨⟨q2, q3.trans h.B, by rw [q4, h.col, h.B], ?_, ?_, ?_⟩, rfl, rfl⟩
    · show UShape nch N K0 t.1.upc
      rw [k1]; exact hu.2 u e2
    · show t.1.subs ≠ [] → t.1.proc.ch = nch
      rw [k2, k3]; exact d4
    · show List.Forall₂ _ stages t.1.subs
      rw [k2, hd]
      by_cases hc : (col + k) % 2^b = 0
      · rw [if_pos hc] at d5 ⊢; exact d5
      · rw [if_neg hc] at d5 ⊢; exact d5

theorem nloop_costs {F : RealFFT} : ∀ (fuel : ℕ) {s : NUPC} {cur : Buf} {j col done : ℕ},
    NShape b irCh nch N K0 stages j col s → cur.ch = nch → done ≤ cur.n →
    Costs (NUPC.loopC F fuel s cur done) (NUPC.loop F fuel s cur done)
        (nCost (stagesCost b nch stages) nch N K0 (2^b) j col (cur.n - done) (passesIn (2^b) col (cur.n - done))) ∧
      ∀ r, NUPC.loop F fuel s cur done = some r →
        NShape b irCh nch N K0 stages (j + (col + (cur.n - done)) / 2^b) ((col + (cur.n - done)) % 2^b) r.1 ∧ r.2.ch = nch ∧ r.2.n = cur.n := by
  intro fuel
  induction fuel with
  | zero =>
    intro s cur j col done h hc hd
    have hcol : col < 2^b := by have := h.step.lt; rwa [h.col, h.B] at this
    unfold NUPC.loopC NUPC.loop
    by_cases hlt : done < cur.n
    · rw [if_pos hlt, if_pos hlt]
      exact ⟨Costs.none _, fun r e => by cases e⟩
    · rw [if_neg hlt, if_neg hlt, show cur.n - done = 0 by omega]
      refine ⟨(Costs.pure _).congr ?_, fun r e => ?_⟩
      · unfold passesIn; rw [if_pos rfl, nCost_zero _ hcol]
      · cases e
        rw [add_zero, Nat.div_eq_of_lt hcol, Nat.mod_eq_of_lt hcol, add_zero]
        exact ⟨h, hc, rfl⟩
  | succ fuel ih =>
    intro s cur j col done h hc hd
    have hcol : col < 2^b := by have := h.step.lt; rwa [h.col, h.B] at this
    unfold NUPC.loopC NUPC.loop
    by_cases hlt : done < cur.n
    · rw [if_pos hlt, if_pos hlt]
      simp only
      rw [h.col, h.B]
      set k := min (cur.n - done) (2^b - col) with hkdef
      have hk0 : 0 < k := by omega
      have hkn : k ≤ cur.n - done := min_le_left ..
      have hkB : col + k ≤ 2^b := by omega
      obtain ⟨b1, b2⟩ := nbody_costs (F := F) h (blk := cur) (done := done) hc hk0 hkB
      have hcost : nCost (stagesCost b nch stages) nch N K0 (2^b) j col (cur.n - done) (passesIn (2^b) col (cur.n - done)) =
          nCost (stagesCost b nch stages) nch N K0 (2^b) j col k 1 +
          nCost (stagesCost b nch stages) nch N K0 (2^b) (j + (col + k) / 2^b) ((col + k) % 2^b) (cur.n - (done + k))
            (passesIn (2^b) ((col + k) % 2^b) (cur.n - (done + k))) := by
        rw [← nCost_add _ (by positivity), show k + (cur.n - (done + k)) = cur.n - done by omega]
        congr 1
        unfold passesIn
        rw [if_neg (by omega)]
        by_cases hz : cur.n - (done + k) = 0
        · rw [if_pos hz, add_zero, Nat.div_eq_of_lt (by omega)]
        · rw [if_neg hz]
          have hfull : col + k = 2^b := by omega
          rw [hfull, Nat.mod_self, zero_add]
          have : col + (cur.n - done) - 1 = cur.n - (done + k) - 1 + 2^b := by omega
          rw [this, Nat.add_div_right _ (by positivity)]
          omega
      constructor
      · rw [hcost]
        refine b1.bind fun r e => ?_
        obtain ⟨s1, s2, s3⟩ := b2 r e
        have := (ih (cur := r.2) (done := done + k) s1 (s2.trans hc) (by rw [s3]; omega)).1
        rw [s3] at this
        exact this
      · intro r e
        obtain ⟨q, e1, e⟩ := Option.bind_eq_some_iff.mp e
        obtain ⟨s1, s2, s3⟩ := b2 q e1
        obtain ⟨t1, t2, t3⟩ := (ih (cur := q.2) (done := done + k) s1 (s2.trans hc) (by rw [s3]; omega)).2 r e
        rw [s3] at t1 t3
        refine ⟨?_, t2, t3⟩
        have e1 : (col + (cur.n - done)) / 2^b = (col + k) / 2^b + ((col + k) % 2^b + (cur.n - (done + k))) / 2^b := by
          rw [show col + (cur.n - done) = (col + k) + (cur.n - (done + k)) by omega]
          conv_lhs => rw [← Nat.div_add_mod (col + k) (2^b), add_assoc, Nat.mul_add_div (by positivity)]
        have e2 : (col + (cur.n - done)) % 2^b = ((col + k) % 2^b + (cur.n - (done + k))) % 2^b := by
          rw [Nat.mod_add_mod]; congr 1; omega
        rw [e1, e2, ← add_assoc]
        exact t1
    · rw [if_neg hlt, if_neg hlt, show cur.n - done = 0 by omega]
      refine ⟨(Costs.pure _).congr ?_, fun r e => ?_⟩
      · unfold passesIn; rw [if_pos rfl, nCost_zero _ hcol]
      · cases e
        rw [add_zero, Nat.div_eq_of_lt hcol, Nat.mod_eq_of_lt hcol, add_zero]
        exact ⟨h, hc, rfl⟩

end Zones.Proofs
