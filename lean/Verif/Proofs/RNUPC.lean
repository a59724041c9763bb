import Verif.Proofs.RUPCInv
import Verif.Proofs.NUPC

/-! # `TimeDistributedNUPC` in rounded arithmetic: error of the output -/

open Finset Zones.Spec Zones.Model

namespace Zones.Proofs.R

/-! ## Counting contributions -/

/-- sum of `f` over the sub convolvers that have contributed to output sample `t` after `nb` blocks -/
noncomputable def gsum {A : Type} [AddCommMonoid A] (b : ℕ) (f : SubSpec → A) (specs : List SubSpec) (nb t : ℕ) : A :=
  (specs.map fun a => if a.e ≤ t ∧ t - a.e < nb * 2^b then f a else 0).sum

/-- sum of `f` over the sub convolvers that write to ring position `r` -/
noncomputable def gfresh {A : Type} [AddCommMonoid A] (b : ℕ) (f : SubSpec → A) (specs : List SubSpec) (r : ℕ) : A :=
  (specs.map fun a => if a.e ≤ r ∧ r - a.e < 2^b then f a else 0).sum

theorem gsum_step {A : Type} [AddCommMonoid A] (f : SubSpec → A) {b S nb col r : ℕ} {specs : List SubSpec}
    (hs : ∀ a ∈ specs, a.e + 2^b ≤ S ∧ 2^b ≤ a.e) (hcol : col ≤ 2^b) (hr : r < S) :
    gsum b f specs nb (rtime (2^b) S nb col r) + gfresh b f specs r = gsum b f specs (nb+1) (rtime (2^b) S nb col r) := by
  induction specs with
  | nil => simp [gsum, gfresh]
  | cons a specs ih =>
    have ih' := ih (fun a' h' => hs a' (List.mem_cons_of_mem _ h'))
    obtain ⟨h1, h2⟩ := hs a (List.mem_cons_self ..)
    unfold gsum gfresh at ih' ⊢
    simp only [List.map_cons, List.sum_cons]
    rw [← ih', add_add_add_comm]
    congr 1
    have h3 : (nb + 1) * 2^b = nb * 2^b + 2^b := by ring
    unfold rtime
    rw [h3]
    generalize nb * 2^b = M
    by_cases hlt : r < col
    · simp only [hlt, if_true]
      rw [if_neg (by omega : ¬ (a.e ≤ M + r + S ∧ M + r + S - a.e < M)),
        if_neg (by omega : ¬ (a.e ≤ r ∧ r - a.e < 2^b)),
        if_neg (by omega : ¬ (a.e ≤ M + r + S ∧ M + r + S - a.e < M + 2^b)), add_zero]
    · simp only [hlt, if_false]
      by_cases hA : a.e ≤ r ∧ r - a.e < 2^b
      · rw [if_pos hA, if_neg (by omega), if_pos (by omega), zero_add]
      · rw [if_neg hA, add_zero]
        by_cases hC : a.e ≤ M + r ∧ M + r - a.e < M
        · rw [if_pos hC, if_pos (by omega)]
        · rw [if_neg hC, if_neg (by omega)]

theorem gsum_late {A : Type} [AddCommMonoid A] (f : SubSpec → A) {b S nb nb' r : ℕ} {specs : List SubSpec}
    (hs : ∀ a ∈ specs, a.e + 2^b ≤ S) (hnb : nb' ≤ nb + 1) : gsum b f specs nb' (nb * 2^b + r + S) = 0 := by
  unfold gsum
  apply List.sum_eq_zero
  intro y hy
  obtain ⟨a, ha, rfl⟩ := List.mem_map.mp hy
  have h1 := hs a ha
  have h2 : nb' * 2^b ≤ nb * 2^b + 2^b := by
    calc nb' * 2^b ≤ (nb+1) * 2^b := Nat.mul_le_mul_right _ hnb
      _ = _ := by ring
  rw [if_neg (by omega)]

theorem gsum_zero {A : Type} [AddCommMonoid A] (f : SubSpec → A) {b t : ℕ} (specs : List SubSpec) : gsum b f specs 0 t = 0 := by
  unfold gsum
  apply List.sum_eq_zero
  intro y hy
  obtain ⟨a, ha, rfl⟩ := List.mem_map.mp hy
  rw [if_neg (by omega)]

theorem gsum_le_length {b nb t : ℕ} (specs : List SubSpec) : gsum b (fun _ => (1:ℕ)) specs nb t ≤ specs.length := by
  unfold gsum
  induction specs with
  | nil => simp
  | cons a specs ih =>
    simp only [List.map_cons, List.sum_cons, List.length_cons] at ih ⊢
    split <;> omega

theorem gsum_le_sum {b nb t : ℕ} {f : SubSpec → ℝ} : ∀ {specs : List SubSpec}, (∀ a ∈ specs, 0 ≤ f a) →
    gsum b f specs nb t ≤ (specs.map f).sum
  | [], _ => by simp [gsum]
  | a :: specs, hf => by
    have ih := gsum_le_sum (b := b) (nb := nb) (t := t) (specs := specs) (fun a h => hf a (List.mem_cons_of_mem _ h))
    have h0 := hf a (List.mem_cons_self ..)
    unfold gsum at ih ⊢
    simp only [List.map_cons, List.sum_cons]
    split <;> linarith

variable [Arith] {f : Fp} {κ : ℝ} {W : ℕ}

/-- adding through a split block -/
theorem split_addFrom {n nx ch k : ℕ} (hnx : nx < n) (hk : 0 < k) (hkn : k ≤ n) {r block : Buf}
    (hrn : r.n = n) (hrc : r.ch = ch) (hbc : block.ch = ch) (hb : block.n ≤ k) :
    ∃ r', (splitSub n nx ch k).addFromR r block = some r' ∧ r'.n = n ∧ r'.ch = ch ∧
      ∀ c, ∀ j < n, r'.data c (slot n nx j) =
        if c < ch ∧ j < block.n then Arith.addF (r.data c (slot n nx j)) (block.data c j)
        else r.data c (slot n nx j) := by
  unfold SplitBlock.addFromR
  simp only [splitSub]
  have e1 : min block.n (min k (n - nx)) = min block.n (n - nx) := by omega
  rw [e1]
  rcases Nat.eq_zero_or_pos block.n with h0 | h0
  · rw [if_neg (by omega)]
    simp only [Option.pure_def, Option.bind_eq_bind, Option.bind_some]
    rw [if_neg (by omega)]
    refine ⟨r, rfl, hrn, hrc, fun c j hj => ?_⟩
    rw [if_neg (by omega)]
  · rw [if_pos (by omega)]
    simp only [Buf.sub]
    rw [if_pos (by omega)]
    by_cases h1 : block.n ≤ n - nx
    · have e2 : min block.n (n - nx) = block.n := by omega
      have e5 : ¬ (block.n - block.n > 0) := by omega
      simp only [e2, e5, if_false, some_bind', Option.pure_def, Option.bind_eq_bind, Option.bind_some, View.addR,
        hbc, if_true]
      refine ⟨_, rfl, hrn, hrc, fun c j hj => ?_⟩
      simp only [zero_add]
      have e3 : min (min k (n - nx)) block.n = block.n := by omega
      rw [e3]
      by_cases hc : c < ch
      · by_cases hjb : j < block.n
        · have : slot n nx j = nx + j := by unfold slot; rw [if_pos (by omega)]
          rw [this, if_pos (by omega), if_pos ⟨hc, hjb⟩]
          congr 2; omega
        · rw [if_neg, if_neg (by omega)]
          unfold slot; split <;> omega
      · rw [if_neg (by tauto), if_neg (by tauto)]
    · have e2 : min block.n (n - nx) = n - nx := by omega
      have e5 : block.n - (n - nx) > 0 := by omega
      have e6 : n - nx < block.n ∧ n - nx + (block.n - (n - nx)) ≤ block.n := by omega
      have e7 : n - nx < k := by omega
      simp only [e2, e5, e6, e7, and_self, if_true, some_bind', Option.pure_def, Option.bind_eq_bind,
        Option.bind_some, View.addR, hbc]
      refine ⟨_, rfl, hrn, hrc, fun c j hj => ?_⟩
      simp only [zero_add, zero_le, true_and]
      have e3 : min (min k (n - nx)) (n - nx) = n - nx := by omega
      have e4 : min (k - (n - nx)) (block.n - (n - nx)) = block.n - (n - nx) := by omega
      rw [e3, e4]
      by_cases hc : c < ch
      · simp only [hc, true_and]
        by_cases hj1 : nx + j < n
        · have : slot n nx j = nx + j := by unfold slot; rw [if_pos hj1]
          rw [this, if_neg (by omega), if_pos (by omega), if_pos (by omega)]
          congr 2; omega
        · have : slot n nx j = nx + j - n := by unfold slot; rw [if_neg hj1]
          rw [this]
          by_cases hjb : j < block.n
          · rw [if_pos (by omega), if_neg (by omega), if_pos hjb]
            congr 2; omega
          · rw [if_neg (by omega), if_neg (by omega), if_neg hjb]
      · simp only [hc, false_and, if_false]

/-- adding a sub block of the ring to a block of the same length -/
theorem split_addTo {n nx ch k : ℕ} (hnx : nx < n) (hk : 0 < k) (hkn : k ≤ n) {r block : Buf}
    (hb : block.n = k) (hbc : block.ch = ch) :
    ∃ b', (splitSub n nx ch k).addToR r block = some b' ∧ b'.n = k ∧ b'.ch = ch ∧
      ∀ c, ∀ j < k, b'.data c j =
        if c < ch then Arith.addF (block.data c j) (r.data c (slot n nx j)) else block.data c j := by
  unfold SplitBlock.addToR
  simp only [splitSub, Buf.addR, View.read, hbc, if_true, some_bind', hb]
  by_cases h1 : n - nx < k
  · have e3 : min k (n - nx) = n - nx := by omega
    have f1 : k > n - nx ∧ k - (n - nx) > 0 := by omega
    have f2 : n - nx < k ∧ n - nx + (k - (n - nx)) ≤ k := by omega
    simp only [e3, f1, f2, h1, and_self, if_true, Option.bind_some, Option.map_some, Buf.sub]
    refine ⟨_, rfl, rfl, rfl, fun c j hj => ?_⟩
    simp only [Buf.put, zero_add]
    rw [min_self]
    by_cases hc : c < ch
    · simp only [hc, true_and, if_true]
      by_cases hj1 : nx + j < n
      · have : slot n nx j = nx + j := by unfold slot; rw [if_pos hj1]
        rw [this, if_neg (by omega), if_pos (by omega)]
      · have : slot n nx j = nx + j - n := by unfold slot; rw [if_neg hj1]
        rw [this, if_pos (by omega), if_pos (by omega), if_neg (by omega)]
        congr 2 <;> omega
    · simp only [hc, false_and, if_false]
  · simp only [h1, if_false]
    rw [if_neg (by simp [View.empty])]
    refine ⟨_, rfl, rfl, rfl, fun c j hj => ?_⟩
    simp only
    have e1 : min k (min k (n - nx)) = k := by omega
    have : slot n nx j = nx + j := by unfold slot; rw [if_pos (by omega)]
    rw [e1, this]
    by_cases hc : c < ch
    · rw [if_pos ⟨hc, hj⟩, if_pos hc]
    · rw [if_neg (by tauto), if_neg hc]

structure SubOk (f : Fp) (κ : ℝ) (W b nch S : ℕ) (x : ℕ → ℕ → ℝ) (nb : ℕ) (a : SubSpec) (s : SubConv) : Prop where
  delay : s.delay = a.e + 2^b
  inv : MInv b a.p a.seg nch x nb s.td
  fits : a.e + 2^b ≤ S
  clear : 2^b ≤ a.e
  ord : b + a.p + 1 ≤ f.L
  kap : tdK f.u f.τ (b+a.p+1) (segK (2^(b+a.p)) a.seg) ≤ κ
  win : a.e + (segK (2^(b+a.p)) a.seg + 3) * 2^(b+a.p) ≤ W
  pos : 0 < segK (2^(b+a.p)) a.seg
  rng : ∀ c < nch, TFits f (b+a.p+1) (2^(b+a.p)) (segK (2^(b+a.p)) a.seg) (zext a.seg (c % a.seg.ch))

theorem SubOk.reset (hA : f.Acc) {b nch S : ℕ} {x : ℕ → ℕ → ℝ} {nb : ℕ} {a : SubSpec} {s : SubConv} (h : SubOk f κ W b nch S x nb a s)
    (x' : ℕ → ℕ → ℝ) : SubOk f κ W b nch S x' 0 a { s with td := s.td.reset } :=
  ⟨h.delay, h.inv.reset hA h.ord h.rng x', h.fits, h.clear, h.ord, h.kap, h.win, h.pos, h.rng⟩

/-- size of the results of a sub convolver -/
noncomputable def SubSpec.M (θ : ℝ) (b : ℕ) (X : ℝ) (c : ℕ) (a : SubSpec) : ℝ := segM θ b a.p a.seg c X

omit [Arith] in
theorem SubSpec.M_nonneg {b : ℕ} (θ : ℝ) {X : ℝ} (hX0 : 0 ≤ X) (c : ℕ) (a : SubSpec) : 0 ≤ SubSpec.M θ b X c a := by
  unfold SubSpec.M segM msize
  have : 0 ≤ ∑ i ∈ range (segK (2^(b+a.p)) a.seg), pnF θ (2^(b+a.p)) (zext a.seg (c % a.seg.ch)) i :=
    sum_nonneg fun _ _ => pnF_nonneg _ _ _ _
  positivity

omit [Arith] in
/-- sizes of results are never too small -/
theorem floor_msize (hg : f.Good) {N P K : ℕ} (hP : 0 < P) (hN : P ≤ N) (hK : 0 < K) (h : ℕ → ℝ) {X : ℝ} (hX : f.θ ≤ X) :
    f.φ ≤ msize f.θ N P K h X := by
  have h1 := floor_sum hg (P := P) hK h hX
  have hX0 := hg.θ_nonneg.trans hX
  have h2 : √(P:ℝ) ≤ √N := Real.sqrt_le_sqrt (by exact_mod_cast hN)
  have h3 : 0 ≤ X * ∑ i ∈ range K, pnF f.θ P h i := mul_nonneg hX0 (sum_nonneg fun _ _ => pnF_nonneg _ _ _ _)
  have h4 := mul_le_mul_of_nonneg_right h2 h3
  have h5 : 1 * f.φ ≤ P * f.φ := mul_le_mul_of_nonneg_right (by exact_mod_cast hP) hg.φ_nonneg
  have h6 : 0 ≤ √(N:ℝ) * (X * ∑ i ∈ range K, pnF f.θ P h i) := mul_nonneg (Real.sqrt_nonneg _) h3
  unfold msize
  rw [mul_assoc] at h1
  have : 2 * √(N:ℝ) * X * ∑ i ∈ range K, pnF f.θ P h i = 2 * (√(N:ℝ) * (X * ∑ i ∈ range K, pnF f.θ P h i)) := by ring
  rw [this]
  linarith

omit [Arith] in
theorem gfresh_nonneg {b r : ℕ} {g : SubSpec → ℝ} : ∀ {specs : List SubSpec}, (∀ a ∈ specs, 0 ≤ g a) → 0 ≤ gfresh b g specs r
  | [], _ => by simp [gfresh]
  | a :: specs, hf => by
    have ih := gfresh_nonneg (b := b) (r := r) (specs := specs) (fun a h => hf a (List.mem_cons_of_mem _ h))
    have h0 := hf a (List.mem_cons_self ..)
    unfold gfresh at ih ⊢
    simp only [List.map_cons, List.sum_cons]
    split <;> linarith

theorem stepSubs_eq (hA : f.Acc) {b nch S : ℕ} {x : ℕ → ℕ → ℝ} {nb : ℕ} {saved : Buf} (hsc : saved.ch = nch) (hsn : saved.n = 2^b)
    (hsd : ∀ c < nch, ∀ i < 2^b, saved.data c i = x c (nb * 2^b + i)) :
    ∀ {specs : List SubSpec} {subs : List SubConv}, List.Forall₂ (SubOk f κ W b nch S x nb) specs subs →
    ∀ (proc : Buf) (ring : Ring), proc.ch = nch → proc.n = 2^b → ring.buf.n = S → ring.buf.ch = nch →
    ∃ subs' proc' ring', NUPC.stepSubsR saved subs proc ring = some (subs', proc', ring') ∧
      List.Forall₂ (SubOk f κ W b nch S x (nb+1)) specs subs' ∧ proc'.ch = nch ∧ proc'.n = 2^b ∧
      ring'.buf.n = S ∧ ring'.buf.ch = nch ∧ ring'.head = ring.head ∧
      ∀ c < nch, ∀ r < S, ∀ X, (∀ a ∈ specs, a.e ≤ r → r - a.e < 2^b →
          Recent f (x c) 1 ((segK (2^(b+a.p)) a.seg + 3) * 2^(b+a.p)) (nb * 2^b + (r - a.e)) X) →
        ∀ (n : ℕ) (M v : ℝ), Near (κ * (1 + f.u) ^ n) M (ring.buf.data c ((ring.head + 2^b + r) % S)) v →
        f.lev X →
        f.fits (κ * (1 + f.u) ^ (n + gfresh b (fun _ => (1:ℕ)) specs r) * (M + gfresh b (SubSpec.M f.θ b X c) specs r)) →
        Near (κ * (1 + f.u) ^ (n + gfresh b (fun _ => (1:ℕ)) specs r)) (M + gfresh b (SubSpec.M f.θ b X c) specs r)
          (ring'.buf.data c ((ring.head + 2^b + r) % S)) (v + (specs.map (fresh b x nb c r)).sum) := by
  have hu := hA.u_nonneg
  intro specs subs h
  induction h with
  | nil =>
    intro proc ring h1 h2 h3 h4
    exact ⟨[], proc, ring, rfl, List.Forall₂.nil, h1, h2, h3, h4, rfl, fun c _ r _ X _ n M v h _ _ => by simpa [gfresh] using h⟩
  | @cons a s specs subs hs hrest ih =>
    intro proc ring h1 h2 h3 h4
    have hB : 0 < 2^b := by positivity
    have hS : 0 < S := by have := hs.fits; omega
    obtain ⟨m', out, e1, oc, on, od, hm'⟩ := hs.inv.step hA hs.ord hs.rng (blk := proc.copyFrom saved) h1 h2 (by
      intro c hc i hi
      simp only [Buf.copyFrom]
      rw [if_pos ⟨by omega, by omega⟩, hsd c hc i hi])
    have e2 := getNext_eq (r := ring) (by rw [h3]; exact hS) s.delay false
    simp only [h3, h4] at e2
    set nx := (ring.head + s.delay) % S with hnx
    have hnxlt : nx < S := Nat.mod_lt _ hS
    obtain ⟨buf', e3, bn, bc, bd⟩ := split_addFrom (n := S) (nx := nx) (ch := nch) (k := S) hnxlt hS le_rfl (r := ring.buf)
      (block := out) h3 h4 oc (by rw [on]; have := hs.fits; omega)
    obtain ⟨subs', proc', ring', e4, f4, pc, pn, rn, rc, rh, rd⟩ := ih out { ring with buf := buf' } oc on bn bc
    refine ⟨{ s with td := m' } :: subs', proc', ring', ?_, ?_, pc, pn, rn, rc, rh, ?_⟩
    · unfold NUPC.stepSubsR
      simp only [e1, e2, e3, e4, Option.bind_eq_bind, Option.bind_some, Option.pure_def]
    · exact List.Forall₂.cons ⟨hs.delay, hm', hs.fits, hs.clear, hs.ord, hs.kap, hs.win, hs.pos, hs.rng⟩ f4
    · intro c hc r hr X hX n M v hcell hXl hfit
      have hMr : 0 ≤ gfresh b (SubSpec.M f.θ b X c) specs r :=
        gfresh_nonneg fun a _ => SubSpec.M_nonneg _ (hA.lev_nonneg hXl) c a
      unfold gfresh at hfit
      simp only [List.map_cons, List.sum_cons] at hfit
      rw [← add_assoc, ← add_assoc] at hfit
      have hd := hs.delay
      have hf := hs.fits
      -- the cell after this sub convolver
      have key : Near (κ * (1 + f.u) ^ (n + if a.e ≤ r ∧ r - a.e < 2^b then 1 else 0))
          (M + if a.e ≤ r ∧ r - a.e < 2^b then SubSpec.M f.θ b X c a else 0)
          (buf'.data c ((ring.head + 2^b + r) % S)) (v + fresh b x nb c r a) := by
        by_cases hra : a.e ≤ r
        · have hslot : (ring.head + 2^b + r) % S = slot S nx (r - a.e) := by
            rw [← slot_eq_mod hnxlt (by omega), hnx, Nat.mod_add_mod, hd]
            congr 1; omega
          rw [hslot] at hcell ⊢
          rw [bd c _ (by omega)]
          unfold fresh
          by_cases hlt : r - a.e < 2^b
          · simp only [hra, hlt, and_self, if_true, hc, on]
            have hp : 1 ≤ (1 + f.u) ^ n := one_le_pow₀ (by linarith)
            have od := od c hc _ hlt X (hX a (List.mem_cons_self ..) hra hlt)
            have hκ : 0 ≤ κ := by
              have h1 := od.one
              have h2 := hs.kap
              linarith
            have o1 := od.mono (κ' := κ * (1 + f.u) ^ n) (M' := SubSpec.M f.θ b X c a) (hs.kap.trans (by nlinarith)) le_rfl
            have hM0 := hcell.nonneg
            have hMa := SubSpec.M_nonneg (b := b) f.θ (hA.lev_nonneg hXl) c a
            have hfloor : f.φ ≤ SubSpec.M f.θ b X c a :=
              floor_msize hA.toGood (by positivity) (Nat.pow_le_pow_right (by norm_num) (by omega)) hs.pos _ (hA.lev_ge X hXl)
            have := hcell.addF hA (by linarith) (hA.fits_mono _ _ (by
              simp only [hra, hlt, and_self, if_true]
              rw [mul_assoc κ, ← pow_succ]
              refine mac_le (mul_le_mul_of_nonneg_left (pow_le_pow_right₀ (by linarith) (by omega)) hκ) ?_ (by positivity)
                (by linarith)
              have := hMr
              unfold gfresh at this
              linarith) hfit) o1
            rw [mul_assoc, ← pow_succ] at this
            exact this
          · have hn1 : ¬ (a.e ≤ r ∧ r - a.e < 2^b) := by tauto
            have hn2 : ¬ (c < nch ∧ r - a.e < out.n) := by rw [on]; tauto
            simp only [hn1, hn2, if_false, add_zero]
            exact hcell
        · have hslot : (ring.head + 2^b + r) % S = slot S nx (r + S - a.e) := by
            rw [← slot_eq_mod hnxlt (by omega), hnx, Nat.mod_add_mod, hd]
            rw [show ring.head + (a.e + 2^b) + (r + S - a.e) = ring.head + 2^b + r + S by omega, Nat.add_mod_right]
          rw [hslot] at hcell ⊢
          rw [bd c _ (by omega)]
          unfold fresh
          have hn1 : ¬ (a.e ≤ r ∧ r - a.e < 2^b) := by tauto
          have hn2 : ¬ (c < nch ∧ r + S - a.e < out.n) := by rw [on]; intro h; omega
          simp only [hn1, hn2, if_false, add_zero]
          exact hcell
      have := rd c hc r hr X (fun a ha => hX a (List.mem_cons_of_mem _ ha)) _ _ _ key hXl hfit
      unfold gfresh at this ⊢
      simp only [List.map_cons, List.sum_cons]
      rw [← add_assoc, ← add_assoc, ← add_assoc]
      exact this

/-- contents of the ring seen from position `p0` -/
structure RingAt (f : Fp) (κ : ℝ) (W b nch S : ℕ) (specs : List SubSpec) (x : ℕ → ℕ → ℝ) (nbv nb col p0 : ℕ) (buf : Buf) : Prop where
  n : buf.n = S
  ch : buf.ch = nch
  data : ∀ c < nch, ∀ r < S, ∀ X, Recent f (x c) 1 W (rtime (2^b) S nb col r) X →
    Near (κ * (1 + f.u) ^ gsum b (fun _ => (1:ℕ)) specs nbv (rtime (2^b) S nb col r))
      (gsum b (SubSpec.M f.θ b X c) specs nbv (rtime (2^b) S nb col r))
      (buf.data c ((p0 + r) % S)) (val b specs x nbv c (rtime (2^b) S nb col r))

/-- reading and clearing the next `k` results -/
theorem RingAt.read (hA : f.Acc) (hκ : 1 ≤ κ) {b nch S : ℕ} {specs : List SubSpec} {x : ℕ → ℕ → ℝ} {nbv nb col p0 : ℕ} {buf : Buf}
    (h : RingAt f κ W b nch S specs x nbv nb col p0 buf) (hs : ∀ a ∈ specs, a.e + 2^b ≤ S ∧ 2^b ≤ a.e)
    (hBS : 2^b ≤ S) (h1 : nb ≤ nbv) (h2 : nbv ≤ nb + 1) {k : ℕ} (hk : 0 < k) (hck : col + k ≤ 2^b)
    {sub : Buf} (hsn : sub.n = k) (hsc : sub.ch = nch) :
    ∃ out, (splitSub S ((p0 + col) % S) nch k).addToR buf sub = some out ∧ out.n = k ∧ out.ch = nch ∧
      (∀ c < nch, ∀ i < k, ∀ X, Recent f (x c) 1 W (nb * 2^b + col + i) X → ∀ M v, Near (κ * (1 + f.u) ^ specs.length) M (sub.data c i) v →
        f.φ ≤ M → f.fits (κ * (1 + f.u) ^ (specs.length + 1) * (M + (specs.map (SubSpec.M f.θ b X c)).sum)) →
        Near (κ * (1 + f.u) ^ (specs.length + 1)) (M + (specs.map (SubSpec.M f.θ b X c)).sum) (out.data c i)
          (v + full b specs x c (nb * 2^b + col + i))) ∧
      RingAt f κ W b nch S specs x nbv nb (col + k) p0 ((splitSub S ((p0 + col) % S) nch k).clear buf) := by
  have hB : 0 < 2^b := by positivity
  have hS : 0 < S := by omega
  have hnx : (p0 + col) % S < S := Nat.mod_lt _ hS
  obtain ⟨out, e1, on, oc, od⟩ := split_addTo (n := S) (nx := (p0 + col) % S) (ch := nch) (k := k) hnx hk (by omega)
    (r := buf) (block := sub) hsn hsc
  obtain ⟨cn, cc, cd⟩ := split_clear (n := S) (nx := (p0 + col) % S) (ch := nch) (k := k) hnx hk (by omega)
    (r := buf) h.n h.ch
  have hpos : ∀ j, (((p0 + col) % S) + j) % S = (p0 + (col + j)) % S := by
    intro j; rw [Nat.mod_add_mod, add_assoc]
  refine ⟨out, e1, on, oc, ?_, ⟨cn, cc, ?_⟩⟩
  · intro c hc i hi X hX M v hv hfl hfit
    have hu := hA.u_nonneg
    rw [od c i hi, if_pos hc, ← slot_eq_mod hnx (by omega), hpos]
    have hcell := h.data c hc (col + i) (by omega) X (by unfold rtime; rw [if_neg (by omega), ← add_assoc]; exact hX)
    have hval : val b specs x nbv c (rtime (2^b) S nb col (col + i)) = full b specs x c (nb * 2^b + col + i) := by
      unfold rtime
      rw [if_neg (by omega), val_full (fun a ha => (hs a ha).2) (by omega) h1, add_assoc]
    rw [hval] at hcell
    have hcell' := hcell.mono (κ' := κ * (1 + f.u) ^ specs.length) (M' := (specs.map (SubSpec.M f.θ b X c)).sum)
      (mul_le_mul_of_nonneg_left (pow_le_pow_right₀ (by linarith) (gsum_le_length _)) (by linarith))
      (gsum_le_sum fun a _ => SubSpec.M_nonneg _ (hA.lev_nonneg hX.lev) c a)
    have := hv.addF hA (by
      have := hcell'.nonneg
      linarith) (by rw [mul_assoc κ, ← pow_succ]; exact hfit) hcell'
    rw [mul_assoc, ← pow_succ] at this
    exact this
  · intro c hc r hr X hX
    -- position of r relative to the read position
    obtain ⟨j, hj, hjr, hcase⟩ : ∃ j < S, (p0 + r) % S = slot S ((p0 + col) % S) j ∧
        ((col ≤ r ∧ j = r - col) ∨ (r < col ∧ j = r + S - col)) := by
      by_cases hcr : col ≤ r
      · refine ⟨r - col, by omega, ?_, Or.inl ⟨hcr, rfl⟩⟩
        rw [← slot_eq_mod hnx (by omega), hpos]; congr 2; omega
      · refine ⟨r + S - col, by omega, ?_, Or.inr ⟨by omega, rfl⟩⟩
        rw [← slot_eq_mod hnx (by omega), hpos, show p0 + (col + (r + S - col)) = p0 + r + S by omega,
          Nat.add_mod_right]
    rw [hjr, cd c j hj]
    by_cases hjk : j < k
    · rw [if_pos ⟨hc, hjk⟩]
      have : r < col + k := by omega
      clear hX
      unfold rtime
      rw [if_pos this, val_zero_late (fun a ha => (hs a ha).1) h2, gsum_late _ (fun a ha => (hs a ha).1) h2,
        gsum_late _ (fun a ha => (hs a ha).1) h2, pow_zero, mul_one]
      exact Near.zero.mono hκ le_rfl
    · rw [if_neg (by tauto), ← hjr]
      have ht : rtime (2^b) S nb (col + k) r = rtime (2^b) S nb col r := by
        unfold rtime
        by_cases hcr : r < col
        · rw [if_pos hcr, if_pos (by omega)]
        · rw [if_neg hcr, if_neg (by omega)]
      rw [ht] at hX ⊢
      exact h.data c hc r hr X hX

/-- the next block starts -/
theorem RingAt.next {b nch S : ℕ} {specs : List SubSpec} {x : ℕ → ℕ → ℝ} {nb p0 : ℕ} {buf : Buf} (hBS : 2^b ≤ S)
    (h : RingAt f κ W b nch S specs x (nb+1) nb (2^b) p0 buf) : RingAt f κ W b nch S specs x (nb+1) (nb+1) 0 (p0 + 2^b) buf := by
  refine ⟨h.n, h.ch, fun c hc r hr X hX => ?_⟩
  have h1 : (nb+1) * 2^b = nb * 2^b + 2^b := by ring
  by_cases hlt : r + 2^b < S
  · have ht : rtime (2^b) S (nb+1) 0 r = rtime (2^b) S nb (2^b) (r + 2^b) := by
      unfold rtime
      rw [if_neg (by omega), if_neg (by omega), h1]
      omega
    rw [show p0 + 2^b + r = p0 + (r + 2^b) by omega, ht]
    rw [ht] at hX
    exact h.data c hc _ hlt X hX
  · have ht : rtime (2^b) S (nb+1) 0 r = rtime (2^b) S nb (2^b) (r + 2^b - S) := by
      unfold rtime
      rw [if_neg (by omega), if_pos (by omega), h1]
      omega
    rw [show p0 + 2^b + r = p0 + (r + 2^b - S) + S by omega, Nat.add_mod_right, ht]
    rw [ht] at hX
    exact h.data c hc _ (by omega) X hX

/-! ## The whole convolver -/

/-- what is fixed for a stream: unit roundoff, twiddle error, transforms' error, sizes -/
structure Ctx where
  f : Fp
  κ : ℝ
  W : ℕ

structure Ctx.Ok (k : Ctx) (F : RealFFT) : Prop where
  acc : k.f.Acc
  fft : k.f.Fft F
  κ1 : 1 ≤ k.κ

/-- size of the results of the uniform convolver -/
noncomputable def NPar.M0 (θ : ℝ) (c : NPar) (X : ℝ) (ch : ℕ) : ℝ :=
  msize θ (uPar c.B c.nch c.seg0).N c.B (segK c.B c.seg0) (zext c.seg0 (ch % c.seg0.ch)) X

/-- size of the results -/
noncomputable def NPar.M (θ : ℝ) (c : NPar) (X : ℝ) (ch : ℕ) : ℝ :=
  NPar.M0 θ c X ch + (c.specs.map (SubSpec.M θ (Nat.log 2 c.B) X ch)).sum

/-- the numbers in the convolver fit -/
structure NFits (k : Ctx) (c : NPar) : Prop where
  hu : UFits k.f (uPar c.B c.nch c.seg0)
  ho : ∀ ch < c.nch, ∀ X, k.f.lev X → k.f.fits (k.κ * (1 + k.f.u) ^ (c.specs.length + 1) * NPar.M k.f.θ c X ch)

/-- the part of the state that is only used when there are sub convolvers -/
structure NSubs (k : Ctx) (c : NPar) (x : ℕ → ℕ → ℝ) (nb col : ℕ) (s : NUPC) : Prop where
  ex : ∃ b S, c.B = 2^b ∧ 2^b ≤ S ∧ List.Forall₂ (SubOk k.f k.κ k.W b c.nch S x nb) c.specs s.subs ∧
    RingAt k.f k.κ k.W b c.nch S c.specs x nb nb col (s.ring.head + 2^b) s.ring.buf
  savedCh : s.saved.ch = c.nch
  savedN : s.saved.n = c.B
  saved : ∀ ch < c.nch, ∀ i < col, s.saved.data ch i = x ch (nb * c.B + i)
  procCh : s.proc.ch = c.nch
  procN : s.proc.n = c.B

/-- state after `t` samples of `x` since the start or the last reset -/
structure NInv (k : Ctx) (c : NPar) (x : ℕ → ℕ → ℝ) (t : ℕ) (s : NUPC) : Prop where
  upc : UInv k.f (uPar c.B c.nch c.seg0) x t s.upc
  kap : upK k.f.u k.f.ε (segK c.B c.seg0) ≤ k.κ
  win : (uPar c.B c.nch c.seg0).N + segK c.B c.seg0 * c.B ≤ k.W
  hr : NFits k c
  blockSize : s.blockSize = c.B
  col : s.collected = t % c.B
  subs : (c.specs = [] ∧ s.subs = []) ∨ (s.subs ≠ [] ∧ NSubs k c x (t / c.B) (t % c.B) s)

omit [Arith] in
theorem NPar.M0_nonneg (θ : ℝ) (c : NPar) {X : ℝ} (hX : 0 ≤ X) (ch : ℕ) : 0 ≤ NPar.M0 θ c X ch := by
  unfold NPar.M0 msize
  have : 0 ≤ ∑ i ∈ range (segK c.B c.seg0), pnF θ c.B (zext c.seg0 (ch % c.seg0.ch)) i :=
    sum_nonneg fun _ _ => pnF_nonneg _ _ _ _
  positivity

omit [Arith] in
theorem gsum_nonneg {b nb t : ℕ} {g : SubSpec → ℝ} : ∀ {specs : List SubSpec}, (∀ a ∈ specs, 0 ≤ g a) → 0 ≤ gsum b g specs nb t
  | [], _ => by simp [gsum]
  | a :: specs, hf => by
    have ih := gsum_nonneg (b := b) (nb := nb) (t := t) (specs := specs) (fun a h => hf a (List.mem_cons_of_mem _ h))
    have h0 := hf a (List.mem_cons_self ..)
    unfold gsum at ih ⊢
    simp only [List.map_cons, List.sum_cons]
    split <;> linarith

theorem forall₂_specs {b nch S : ℕ} {x : ℕ → ℕ → ℝ} {nb : ℕ} {specs : List SubSpec} {subs : List SubConv}
    (h : List.Forall₂ (SubOk f κ W b nch S x nb) specs subs) : ∀ a ∈ specs, a.e + 2^b ≤ S ∧ 2^b ≤ a.e := by
  induction h with
  | nil => simp
  | cons h _ ih =>
    intro a ha
    rcases List.mem_cons.mp ha with rfl | ha
    · exact ⟨h.fits, h.clear⟩
    · exact ih a ha

theorem forall₂_win {b nch S : ℕ} {x : ℕ → ℕ → ℝ} {nb : ℕ} {specs : List SubSpec} {subs : List SubConv}
    (h : List.Forall₂ (SubOk f κ W b nch S x nb) specs subs) :
    ∀ a ∈ specs, a.e + (segK (2^(b+a.p)) a.seg + 3) * 2^(b+a.p) ≤ W := by
  induction h with
  | nil => simp
  | cons h _ ih =>
    intro a ha
    rcases List.mem_cons.mp ha with rfl | ha
    · exact h.win
    · exact ih a ha

theorem addResults_some {s : NUPC} {o out : Buf} {k S nch p : ℕ} (hlen : 0 < s.subs.length) (hn : s.ring.buf.n = S)
    (hc : s.ring.buf.ch = nch) (hS : 0 < S) (hk : 0 < k) (hkS : k ≤ S)
    (hp : (s.ring.head + (s.collected + if (s.collected + k) % s.blockSize = 0 then 0 else s.blockSize)) % S = p % S)
    (e3 : (splitSub S (p % S) nch k).addToR s.ring.buf o = some out) :
    s.addResultsR o k =
      some ({ s with ring := { s.ring with buf := (splitSub S (p % S) nch k).clear s.ring.buf } }, out) := by
  unfold NUPC.addResultsR
  have e4 := getNext_eq (r := s.ring) (by rw [hn]; exact hS)
    (s.collected + if (s.collected + k) % s.blockSize = 0 then 0 else s.blockSize) false
  simp only [hn, hc, hp] at e4
  simp only
  rw [if_pos hlen, e4]
  simp only [Option.bind_eq_bind, Option.bind_some]
  rw [getSubBlock' hS hk hkS]
  simp only [Option.bind_some]
  rw [e3]
  rfl

/-- the sub convolver part of one iteration: collect, then (with any uniform convolver state) add the results -/
theorem NSubs.step {K : Ctx} {Ft : RealFFT} (hk0 : K.Ok Ft) {c : NPar} {x : ℕ → ℕ → ℝ} {nb col : ℕ} {s : NUPC} (h : NSubs K c x nb col s) (hrn : NFits K c) (hne : s.subs ≠ [])
    (hbs : s.blockSize = c.B) (hcol : s.collected = col) {k : ℕ} (hk : 0 < k) (hck : col + k ≤ c.B)
    {sub : Buf} (hsn : sub.n = k) (hsc : sub.ch = c.nch)
    (hin : ∀ ch < c.nch, ∀ i < k, sub.data ch i = x ch (nb * c.B + col + i)) :
    ∃ s1, s.collectR sub k = some s1 ∧ s1.upc = s.upc ∧ s1.subs ≠ [] ∧ s1.blockSize = c.B ∧ s1.collected = col ∧
      ∀ (u : UPC) (o : Buf), o.n = k → o.ch = c.nch →
        ∃ s2 out, { s1 with upc := u }.addResultsR o k = some (s2, out) ∧ out.n = k ∧ out.ch = c.nch ∧
          (∀ ch < c.nch, ∀ i < k, ∀ X, Recent K.f (x ch) 1 K.W (nb * c.B + col + i) X → ∀ M v, Near (K.κ * (1 + K.f.u) ^ c.specs.length) M (o.data ch i) v →
            K.f.φ ≤ M → M ≤ NPar.M0 K.f.θ c X ch →
            Near (K.κ * (1 + K.f.u) ^ (c.specs.length + 1)) (M + (c.specs.map (SubSpec.M K.f.θ (Nat.log 2 c.B) X ch)).sum)
              (out.data ch i) (v + c.subOut x ch (nb * c.B + col + i))) ∧
          s2.upc = u ∧ s2.subs ≠ [] ∧ s2.blockSize = c.B ∧ s2.collected = col ∧
          (col + k < c.B → NSubs K c x nb (col + k) s2) ∧ (col + k = c.B → NSubs K c x (nb+1) 0 s2) := by
  obtain ⟨b, S, hB, hBS, hF, hR⟩ := h.ex
  have hBpos : 0 < 2^b := by positivity
  have hS : 0 < S := by omega
  have hspecs := forall₂_specs hF
  have hwin := forall₂_win hF
  have hlen : 0 < s.subs.length := List.length_pos_iff.mpr hne
  have hlog : Nat.log 2 c.B = b := by rw [hB]; exact Nat.log_pow (by norm_num) b
  have hsub : s.saved.sub s.collected (s.saved.n - s.collected) =
      some ⟨c.nch, c.B - col, fun ch i => s.saved.data ch (col + i)⟩ := by
    unfold Buf.sub; rw [h.savedN, h.savedCh, hcol, if_pos ⟨by omega, by omega⟩]
  set dst : Buf := ⟨c.nch, c.B - col, fun ch i => s.saved.data ch (col + i)⟩ with hdst
  set saved' := s.saved.put s.collected (dst.copyFrom sub) with hsaved'
  have hsv : ∀ ch < c.nch, ∀ i < col + k, saved'.data ch i = x ch (nb * c.B + i) := by
    intro ch hc i hi
    simp only [hsaved', Buf.put, Buf.copyFrom, hdst, hcol, h.savedCh, hsn, hsc]
    by_cases hlt : i < col
    · rw [if_neg (by omega), h.saved ch hc i hlt]
    · rw [if_pos ⟨hc, by omega, by omega⟩, if_pos ⟨by omega, by omega⟩, hin ch hc _ (by omega)]
      congr 1; omega
  by_cases hfull : col + k = c.B
  · -- the block is complete
    have hmod : (s.collected + k) % s.blockSize = 0 := by rw [hcol, hbs, hfull, Nat.mod_self]
    obtain ⟨subs', proc', ring', e1, f1, pc, pn, rn, rc, rh, rd⟩ := stepSubs_eq hk0.acc (κ := K.κ) (W := K.W) (saved := saved') (S := S) (nb := nb) (b := b)
      (x := x) (nch := c.nch) h.savedCh (by rw [← hB]; exact h.savedN)
      (by intro ch hc i hi; rw [← hB]; exact hsv ch hc i (by omega))
      hF s.proc s.ring h.procCh (by rw [← hB]; exact h.procN) hR.n hR.ch
    have e2 := getNext_eq (r := ring') (by rw [rn]; exact hS) s.blockSize true
    have hne' : subs' ≠ [] := by
      have h1 := f1.length_eq
      have h2 := hF.length_eq
      intro h0
      rw [h0, List.length_nil] at h1
      omega
    have hlen' : 0 < subs'.length := List.length_pos_iff.mpr hne'
    refine ⟨{ s with
        saved := saved'
        subs := subs'
        proc := proc'
        ring := { ring' with head := (ring'.head + s.blockSize) % ring'.buf.n } }, ?_, rfl, hne', hbs, hcol, ?_⟩
    · unfold NUPC.collectR
      rw [if_pos hlen]
      simp only [hsub, Option.bind_eq_bind, Option.bind_some]
      rw [if_pos hmod]
      simp only [← hsaved', e1, Option.bind_some]
      rw [e2]
      rfl
    · intro u o on oc
      -- the ring after the step
      have hmid : RingAt K.f K.κ K.W b c.nch S c.specs x (nb+1) nb col (s.ring.head + 2^b) ring'.buf := by
        refine ⟨rn, rc, fun ch hc r hr X hX => ?_⟩
        have := rd ch hc r hr X (fun a ha h1 h2 => by
          have h3 := hspecs a ha
          have h4 := hwin a ha
          unfold rtime at hX
          rw [if_neg (by omega)] at hX
          exact hX.mono (by omega) (by omega)) _ _ _ (hR.data ch hc r hr X hX) hX.lev (by
            have hu0 := hk0.acc.u_nonneg
            have hκ1 := hk0.κ1
            have hX0 := hk0.acc.lev_nonneg hX.lev
            rw [gsum_step _ hspecs (by omega) hr, gsum_step _ hspecs (by omega) hr]
            refine hk0.acc.fits_mono _ _ ?_ (hrn.ho ch hc X hX.lev)
            refine mac_le (mul_le_mul_of_nonneg_left (pow_le_pow_right₀ (by linarith)
              ((gsum_le_length _).trans (Nat.le_succ _))) (by linarith)) ?_ (by positivity) ?_
            · unfold NPar.M
              rw [hlog]
              refine (gsum_le_sum fun a _ => SubSpec.M_nonneg _ hX0 ch a).trans ?_
              have := NPar.M0_nonneg K.f.θ c hX0 ch
              linarith
            · exact gsum_nonneg fun a _ => SubSpec.M_nonneg _ hX0 ch a)
        rw [val_step hspecs (by omega) hr, gsum_step _ hspecs (by omega) hr, gsum_step _ hspecs (by omega) hr] at this
        exact this
      obtain ⟨out, e3, on', oc', od, hclr⟩ := hmid.read hk0.acc hk0.κ1 hspecs hBS (by omega) le_rfl hk (by omega) on oc
      have hp : ((ring'.head + s.blockSize) % ring'.buf.n +
          (s.collected + if (s.collected + k) % s.blockSize = 0 then 0 else s.blockSize)) % S =
          (s.ring.head + 2^b + col) % S := by
        rw [if_pos hmod, rn, Nat.mod_add_mod, rh, hbs, hB, hcol, add_zero]
      refine ⟨_, out, addResults_some hlen' rn rc hS hk (by omega) hp e3, on', oc', ?_, ?_, ?_, ?_, ?_, ?_, ?_⟩
      · intro ch hc i hi X hX M v hv hfl hMl
        have hfit := hrn.ho ch hc X hX.lev
        have hu0 := hk0.acc.u_nonneg
        have hκ1 := hk0.κ1
        have hX0 := hk0.acc.lev_nonneg hX.lev
        rw [NPar.subOut, hlog, hB]
        rw [hB] at hX
        unfold NPar.M at hfit
        rw [hlog] at hfit
        refine od ch hc i hi X hX M v hv hfl (hk0.acc.fits_mono _ _ ?_ hfit)
        refine mul_le_mul_of_nonneg_left ?_ (by positivity)
        linarith
      · rfl
      · exact hne'
      · exact hbs
      · exact hcol
      · intro hh; omega
      · intro _
        refine ⟨⟨b, S, hB, hBS, f1, ?_⟩, h.savedCh, h.savedN, fun ch _ i hi => absurd hi (by omega), pc, by rw [hB]; exact pn⟩
        have hckB : col + k = 2^b := by omega
        rw [hckB] at hclr
        have hfin := hclr.next hBS
        refine ⟨hfin.n, hfin.ch, fun ch hc r hr X hX => ?_⟩
        have := hfin.data ch hc r hr X hX
        have hpos : ((ring'.head + s.blockSize) % ring'.buf.n + 2^b + r) % S = (s.ring.head + 2^b + 2^b + r) % S := by
          rw [rn, add_assoc, Nat.mod_add_mod, rh, hbs, hB]
          congr 1; omega
        rw [← hpos] at this
        exact this
  · have hmod : ¬ (s.collected + k) % s.blockSize = 0 := by
      rw [hcol, hbs, Nat.mod_eq_of_lt (by omega)]; omega
    refine ⟨{ s with saved := saved' }, ?_, rfl, hne, hbs, hcol, ?_⟩
    · unfold NUPC.collectR
      rw [if_pos hlen]
      simp only [hsub, Option.bind_eq_bind, Option.bind_some]
      rw [if_neg hmod]
    · intro u o on oc
      obtain ⟨out, e3, on', oc', od, hclr⟩ := hR.read hk0.acc hk0.κ1 hspecs hBS le_rfl (by omega) hk (by omega) on oc
      have hp : (s.ring.head +
          (s.collected + if (s.collected + k) % s.blockSize = 0 then 0 else s.blockSize)) % S =
          (s.ring.head + 2^b + col) % S := by
        rw [if_neg hmod, hbs, hB, hcol]; congr 1; omega
      refine ⟨_, out, addResults_some hlen hR.n hR.ch hS hk (by omega) hp e3, on', oc', ?_, ?_, ?_, ?_, ?_, ?_, ?_⟩
      · intro ch hc i hi X hX M v hv hfl hMl
        have hfit := hrn.ho ch hc X hX.lev
        have hu0 := hk0.acc.u_nonneg
        have hκ1 := hk0.κ1
        have hX0 := hk0.acc.lev_nonneg hX.lev
        rw [NPar.subOut, hlog, hB]
        rw [hB] at hX
        unfold NPar.M at hfit
        rw [hlog] at hfit
        refine od ch hc i hi X hX M v hv hfl (hk0.acc.fits_mono _ _ ?_ hfit)
        refine mul_le_mul_of_nonneg_left ?_ (by positivity)
        linarith
      · rfl
      · exact hne
      · exact hbs
      · exact hcol
      · intro _
        exact ⟨⟨b, S, hB, hBS, hF, hclr⟩, h.savedCh, h.savedN, hsv, h.procCh, h.procN⟩
      · intro hh; omega

theorem NInv.floor {K : Ctx} {F : RealFFT} (hk0 : K.Ok F) {c : NPar} {x : ℕ → ℕ → ℝ} {t : ℕ} {s : NUPC} (h : NInv K c x t s)
    (hB : 0 < c.B) {X : ℝ} (hX : K.f.lev X) (ch : ℕ) : K.f.φ ≤ NPar.M0 K.f.θ c X ch := by
  obtain ⟨_, _, _, _, rep, _⟩ := h.upc.rep
  exact floor_msize hk0.acc.toGood hB (by have := rep.hN2; have h2 : (uPar c.B c.nch c.seg0).B = c.B := rfl; omega) rep.hK _
    (hk0.acc.lev_ge X hX)

omit [Arith] in
theorem NPar.M_ge (θ : ℝ) (c : NPar) {X : ℝ} (hX : 0 ≤ X) (ch : ℕ) : NPar.M0 θ c X ch ≤ NPar.M θ c X ch := by
  unfold NPar.M
  have : 0 ≤ (c.specs.map (SubSpec.M θ (Nat.log 2 c.B) X ch)).sum := by
    apply List.sum_nonneg
    intro y hy
    obtain ⟨a, _, rfl⟩ := List.mem_map.mp hy
    exact SubSpec.M_nonneg θ hX ch a
  linarith

theorem NInv.body {K : Ctx} {F : RealFFT} (hk0 : K.Ok F) {c : NPar} {x : ℕ → ℕ → ℝ} {t : ℕ} {s : NUPC} (h : NInv K c x t s)
    (hB : 0 < c.B) {blk : Buf} {done k : ℕ} (hk : 0 < k) (hck : t % c.B + k ≤ c.B) (hd : done + k ≤ blk.n)
    (hch : blk.ch = c.nch) (hin : ∀ ch < c.nch, ∀ i < k, blk.data ch (done + i) = x ch (t + i)) :
    ∃ s' blk', s.bodyR F blk done k = some (s', blk') ∧ blk'.n = blk.n ∧ blk'.ch = c.nch ∧
      (∀ ch < c.nch, ∀ i < blk.n, done ≤ i → i < done + k → ∀ X, Recent K.f (x ch) c.B K.W (t + (i - done)) X → Near (K.κ * (1 + K.f.u) ^ (c.specs.length + 1)) (NPar.M K.f.θ c X ch)
        (blk'.data ch i)
        (linConv c.seg0.n (c.seg0.data (ch % c.seg0.ch)) (x ch) (t + (i - done)) + c.subOut x ch (t + (i - done)))) ∧
      (∀ ch < c.nch, ∀ i < blk.n, ¬ (done ≤ i ∧ i < done + k) → blk'.data ch i = blk.data ch i) ∧
      NInv K c x (t + k) s' := by
  have hsub : blk.sub done k = some ⟨c.nch, k, fun ch i => blk.data ch (done + i)⟩ := by
    unfold Buf.sub; rw [if_pos ⟨by omega, hd⟩, hch]
  set sub : Buf := ⟨c.nch, k, fun ch i => blk.data ch (done + i)⟩ with hsubdef
  have hdm := Nat.div_add_mod t c.B
  have hnbt : t / c.B * c.B + t % c.B = t := by rw [mul_comm]; exact hdm
  have hlt := Nat.mod_lt t hB
  -- the uniform convolver
  obtain ⟨u, o, eu, on, oc, od, hu⟩ := h.upc.step hk0.acc h.hr.hu hk0.fft (blk := sub) rfl hin
  have hu0 := hk0.acc.u_nonneg
  have hκ1 := hk0.κ1
  have hpw : 1 ≤ (1 + K.f.u) ^ c.specs.length := one_le_pow₀ (by linarith)
  have hfl : ∀ X ch, K.f.lev X → K.f.φ ≤ NPar.M0 K.f.θ c X ch := by
    intro X ch hX
    obtain ⟨_, _, _, _, rep, _⟩ := h.upc.rep
    exact floor_msize hk0.acc.toGood hB (by have := rep.hN2; have h2 : (uPar c.B c.nch c.seg0).B = c.B := rfl; omega) rep.hK _
      (hk0.acc.lev_ge X hX)
  have od' : ∀ ch < c.nch, ∀ i < k, ∀ X, Recent K.f (x ch) c.B K.W (t + i) X → Near (K.κ * (1 + K.f.u) ^ c.specs.length) (NPar.M0 K.f.θ c X ch) (o.data ch i)
      (linConv c.seg0.n (c.seg0.data (ch % c.seg0.ch)) (x ch) (t + i)) := by
    intro ch hc i hi X hX
    have := od ch hc i hi X (hX.mono (by exact le_rfl) (by have := h.win; exact Nat.add_le_add_left this _))
    rw [show linConv ((uPar c.B c.nch c.seg0).K * (uPar c.B c.nch c.seg0).B) ((uPar c.B c.nch c.seg0).h ch) (x ch) (t + i) =
      linConv c.seg0.n (c.seg0.data (ch % c.seg0.ch)) (x ch) (t + i) from
      linConv_seg hB c.seg0 (ch % c.seg0.ch) (x ch) (t + i)] at this
    exact this.mono (h.kap.trans (by nlinarith)) le_rfl
  have hmod : (t + k) % c.B = (t % c.B + k) % c.B := by rw [Nat.mod_add_mod]
  unfold NUPC.bodyR
  simp only [hsub, Option.bind_eq_bind, Option.bind_some]
  -- result of the whole iteration from the sub block's result
  have fin : ∀ (out : Buf), out.n = k → (∀ ch < c.nch, ∀ i < k, ∀ X, Recent K.f (x ch) c.B K.W (t + i) X →
        Near (K.κ * (1 + K.f.u) ^ (c.specs.length + 1)) (NPar.M K.f.θ c X ch) (out.data ch i)
          (linConv c.seg0.n (c.seg0.data (ch % c.seg0.ch)) (x ch) (t + i) + c.subOut x ch (t + i))) →
      (∀ ch < c.nch, ∀ i < blk.n, done ≤ i → i < done + k → ∀ X, Recent K.f (x ch) c.B K.W (t + (i - done)) X → Near (K.κ * (1 + K.f.u) ^ (c.specs.length + 1)) (NPar.M K.f.θ c X ch)
        ((blk.put done out).data ch i)
        (linConv c.seg0.n (c.seg0.data (ch % c.seg0.ch)) (x ch) (t + (i - done)) + c.subOut x ch (t + (i - done)))) := by
    intro out hon hout ch hc i hi h1 h2 X hX
    simp only [Buf.put, hon, hch]
    rw [if_pos ⟨hc, h1, h2⟩]
    exact hout ch hc _ (by omega) X hX
  have fin' : ∀ (out : Buf), out.n = k → ∀ ch < c.nch, ∀ i < blk.n, ¬ (done ≤ i ∧ i < done + k) →
      (blk.put done out).data ch i = blk.data ch i := by
    intro out hon ch hc i hi h1
    simp only [Buf.put, hon, hch]
    rw [if_neg (by tauto)]
  rcases h.subs with ⟨hs1, hs2⟩ | ⟨hne, hns⟩
  · have hcl : s.collectR sub k = some s := by
      unfold NUPC.collectR; rw [if_neg (by rw [hs2]; simp)]
    rw [hcl]
    simp only [Option.bind_some, eu]
    have har : NUPC.addResultsR { s with upc := u } o k = some ({ s with upc := u }, o) := by
      unfold NUPC.addResultsR; rw [if_neg (by simp only [hs2]; simp)]
    rw [har]
    simp only [Option.bind_some]
    refine ⟨_, _, rfl, rfl, hch, fin o on ?_, fin' o on, ⟨hu, h.kap, h.win, h.hr, h.blockSize, ?_, Or.inl ⟨hs1, hs2⟩⟩⟩
    · intro ch hc i hi X hX
      have := od' ch hc i hi X hX
      have e0 : c.subOut x ch (t + i) = 0 := by simp [NPar.subOut, full, hs1]
      have e1 : NPar.M K.f.θ c X ch = NPar.M0 K.f.θ c X ch := by simp [NPar.M, hs1]
      rw [e0, e1, add_zero]
      refine this.mono (mul_le_mul_of_nonneg_left (pow_le_pow_right₀ (by linarith) (by omega)) (by linarith)) le_rfl
    · show (s.collected + k) % s.blockSize = (t + k) % c.B
      rw [h.col, h.blockSize, hmod]
  · obtain ⟨s1, e1, u1, ne1, b1, c1, hres⟩ := hns.step hk0 h.hr hne h.blockSize h.col (sub := sub) hk hck rfl rfl
      (by intro ch hc i hi; rw [hnbt]; exact hin ch hc i hi)
    obtain ⟨s2, out, e2, on2, oc2, od2, u2, ne2, b2, c2, hA, hC⟩ := hres u o on oc
    rw [e1]
    simp only [Option.bind_some]
    rw [u1, eu]
    simp only [Option.bind_some]
    rw [e2]
    simp only [Option.bind_some]
    refine ⟨_, _, rfl, rfl, hch, fin out on2 ?_, fin' out on2, ⟨?_, h.kap, h.win, h.hr, b2, ?_, Or.inr ⟨ne2, ?_⟩⟩⟩
    · intro ch hc i hi X hX
      have := od2 ch hc i hi X (by rw [hnbt]; exact hX.mono (by omega) le_rfl) _ _ (od' ch hc i hi X hX) (hfl X ch hX.lev) le_rfl
      rw [hnbt] at this
      exact this
    · show UInv _ _ _ _ s2.upc
      rw [u2]; exact hu
    · show (s2.collected + k) % s2.blockSize = (t + k) % c.B
      rw [b2, c2, hmod]
    · have conv : ∀ {nb col : ℕ}, NSubs K c x nb col s2 →
          NSubs K c x nb col { s2 with collected := (s2.collected + k) % s2.blockSize } := by
        intro nb col hh
        exact ⟨hh.ex, hh.savedCh, hh.savedN, hh.saved, hh.procCh, hh.procN⟩
      rcases Nat.lt_or_ge (t % c.B + k) c.B with hlt2 | hge
      · have h1 : (t + k) / c.B = t / c.B := by
          apply Nat.div_eq_of_lt_le
          · omega
          · rw [Nat.add_mul]; omega
        rw [h1, hmod, Nat.mod_eq_of_lt hlt2]
        exact conv (hA hlt2)
      · have heq : t % c.B + k = c.B := by omega
        have h1 : (t + k) / c.B = t / c.B + 1 := by
          apply Nat.div_eq_of_lt_le
          · rw [Nat.add_mul]; omega
          · rw [Nat.add_mul, Nat.add_mul]; omega
        rw [h1, hmod, heq, Nat.mod_self]
        exact conv (hC heq)

theorem NInv.loop {K : Ctx} {F : RealFFT} (hk0 : K.Ok F) {c : NPar} {x : ℕ → ℕ → ℝ} (hB : 0 < c.B) (fuel : ℕ) :
    ∀ {t : ℕ} {s : NUPC} {blk : Buf} {done : ℕ}, NInv K c x t s → blk.ch = c.nch → done ≤ blk.n →
    (done < blk.n → blk.n - done + t % c.B ≤ fuel * c.B) →
    (∀ ch < c.nch, ∀ i < blk.n - done, blk.data ch (done + i) = x ch (t + i)) →
    ∃ s' blk', NUPC.loopR F fuel s blk done = some (s', blk') ∧ blk'.n = blk.n ∧ blk'.ch = c.nch ∧
      (∀ ch < c.nch, ∀ i < blk.n, done ≤ i → ∀ X, Recent K.f (x ch) c.B K.W (t + (i - done)) X → Near (K.κ * (1 + K.f.u) ^ (c.specs.length + 1)) (NPar.M K.f.θ c X ch) (blk'.data ch i)
        (linConv c.seg0.n (c.seg0.data (ch % c.seg0.ch)) (x ch) (t + (i - done)) + c.subOut x ch (t + (i - done)))) ∧
      (∀ ch < c.nch, ∀ i < blk.n, i < done → blk'.data ch i = blk.data ch i) ∧
      NInv K c x (t + (blk.n - done)) s' := by
  induction fuel with
  | zero =>
    intro t s blk done h hch hdn hfuel hin
    have hdn' : ¬ done < blk.n := fun hc => by have := hfuel hc; omega
    refine ⟨s, blk, by unfold NUPC.loopR; rw [if_neg hdn'], rfl, hch, fun ch _ i hi hdi => by omega, fun _ _ _ _ _ => rfl, by rw [show blk.n - done = 0 by omega]; exact h⟩
  | succ fuel ih =>
    intro t s blk done h hch hdn hfuel hin
    unfold NUPC.loopR
    by_cases hlt : done < blk.n
    · rw [if_pos hlt]
      have hm := Nat.mod_lt t hB
      simp only [h.col, h.blockSize, Option.bind_eq_bind]
      set k := min (blk.n - done) (c.B - t % c.B) with hkdef
      have hk : 0 < k := by omega
      obtain ⟨s1, blk1, e1, n1, c1, d1, d1', h1⟩ := h.body hk0 hB (blk := blk) (done := done) (k := k) hk (by omega) (by omega) hch
        (fun ch hc i hi => hin ch hc i (by omega))
      rw [e1]
      simp only [Option.bind_some]
      obtain ⟨s2, blk2, e2, n2, c2, d2, d2', h2⟩ := ih h1 (blk := blk1) (done := done + k) c1 (by omega)
        (by
          intro hlt2
          rw [n1] at hlt2 ⊢
          have hf := hfuel hlt
          have hmod : (t + k) % c.B = 0 := by
            have : t % c.B + k = c.B := by omega
            rw [← Nat.mod_add_mod, this, Nat.mod_self]
          rw [Nat.add_mul, one_mul] at hf
          omega)
        (by
          intro ch hc i hi
          rw [n1] at hi
          rw [d1' ch hc _ (by omega) (by omega), show done + k + i = done + (k + i) by omega,
            hin ch hc _ (by omega)]
          congr 1; omega)
      refine ⟨s2, blk2, e2, by rw [n2, n1], c2, ?_, ?_, ?_⟩
      · intro ch hc i hi hdi
        by_cases h3 : done + k ≤ i
        · have := d2 ch hc i (by rw [n1]; exact hi) h3
          rw [show t + k + (i - (done + k)) = t + (i - done) by omega] at this
          exact this
        · rw [d2' ch hc i (by rw [n1]; exact hi) (by omega)]
          exact d1 ch hc i hi hdi (by omega)
      · intro ch hc i hi hdi
        rw [d2' ch hc i (by rw [n1]; exact hi) (by omega), d1' ch hc i hi (by omega)]
      · rw [n1, show t + k + (blk.n - (done + k)) = t + (blk.n - done) by omega] at h2
        exact h2
    · rw [if_neg hlt]
      refine ⟨s, blk, rfl, rfl, hch, fun ch _ i hi hdi => by omega, fun _ _ _ _ _ => rfl, by rw [show blk.n - done = 0 by omega]; exact h⟩

theorem NInv.step {K : Ctx} {F : RealFFT} (hk0 : K.Ok F) {c : NPar} {x : ℕ → ℕ → ℝ}
    (hB : 0 < c.B) {t : ℕ} {s : NUPC} {blk : Buf} (h : NInv K c x t s) (hch : blk.ch = c.nch)
    (hin : ∀ ch < c.nch, ∀ i < blk.n, blk.data ch i = x ch (t + i)) :
    ∃ s' blk', s.processR F blk = some (s', blk') ∧ blk'.n = blk.n ∧ blk'.ch = c.nch ∧
      (∀ ch < c.nch, ∀ i < blk.n, ∀ X, Recent K.f (x ch) c.B K.W (t + i) X → Near (K.κ * (1 + K.f.u) ^ (c.specs.length + 1)) (NPar.M K.f.θ c X ch) (blk'.data ch i)
          (linConv c.seg0.n (c.seg0.data (ch % c.seg0.ch)) (x ch) (t + i) + c.subOut x ch (t + i))) ∧
      NInv K c x (t + blk.n) s' := by
  obtain ⟨s', blk', e, n, cc, d, _, h'⟩ := h.loop hk0 hB blk.n (blk := blk) (done := 0) hch (by omega)
    (fun hn => fuel_enough (Nat.mod_lt _ hB) hn) (by intro ch hc i hi; rw [zero_add]; exact hin ch hc i hi)
  exact ⟨s', blk', e, n, cc, fun ch hc i hi => d ch hc i hi (by omega), h'⟩

theorem val_zero {b : ℕ} {specs : List SubSpec} {x : ℕ → ℕ → ℝ} {c t : ℕ} : val b specs x 0 c t = 0 := by
  unfold val
  apply List.sum_eq_zero
  intro y hy
  obtain ⟨a, ha, rfl⟩ := List.mem_map.mp hy
  unfold contrib
  rw [if_neg (by omega)]

theorem NInv.reset {K : Ctx} {F : RealFFT} (hk0 : K.Ok F) {c : NPar} {x : ℕ → ℕ → ℝ} (hB : 0 < c.B) {t : ℕ} {s : NUPC} (h : NInv K c x t s)
    (x' : ℕ → ℕ → ℝ) : NInv K c x' 0 s.reset := by
  refine ⟨h.upc.reset hk0.acc.toGood x', h.kap, h.win, h.hr, h.blockSize, by simp [NUPC.reset], ?_⟩
  rcases h.subs with ⟨h1, h2⟩ | ⟨hne, hns⟩
  · exact Or.inl ⟨h1, by simp [NUPC.reset, h2]⟩
  · refine Or.inr ⟨by simp [NUPC.reset, hne], ?_⟩
    obtain ⟨b, S, hb, hBS, hF, hR⟩ := hns.ex
    rw [Nat.zero_div, Nat.zero_mod]
    refine ⟨⟨b, S, hb, hBS, ?_, hR.n, hR.ch, ?_⟩, hns.savedCh, hns.savedN, fun ch _ i hi => absurd hi (by omega),
      hns.procCh, hns.procN⟩
    · show List.Forall₂ _ c.specs (s.subs.map fun c => { c with td := c.td.reset })
      rw [List.forall₂_map_right_iff]
      exact hF.imp fun a s' h' => h'.reset hk0.acc x'
    · intro ch hc r hr X hX
      have hS : 0 < S := by have : 0 < 2^b := by positivity
                            omega
      show Near _ _ (s.ring.buf.clear.data ch _) _
      simp only [Buf.clear, hR.n, hR.ch]
      rw [if_pos ⟨hc, Nat.mod_lt _ hS⟩, gsum_zero, gsum_zero, val_zero, pow_zero, mul_one]
      exact Near.zero.mono hk0.κ1 le_rfl

/-! ## Construction -/

theorem buildSubs_eq (hA : f.Acc) {b nch : ℕ} {ir : Buf} (hch : 0 < nch → 0 < ir.ch) (hn : ir.n ≤ 2^24) (tail0 : ℕ → ℕ → ℕ → ℕ → ℝ) :
    ∀ (rest : List Layout) (off i : ℕ), GoodRest (2^b) ir.n off rest →
    ∃ subs, NUPC.buildSubsR (2^b) nch ir tail0 off i rest = some subs ∧ subs.length = rest.length ∧
      ∀ last ∈ subs.getLast?, ∀ (κ : ℝ) (W : ℕ), (∀ a ∈ mkSpecs (2^b) ir off rest, b + a.p + 1 ≤ f.L ∧ tdK f.u f.τ (b+a.p+1) (segK (2^(b+a.p)) a.seg) ≤ κ ∧
        a.e + (segK (2^(b+a.p)) a.seg + 3) * 2^(b+a.p) ≤ W ∧
        ∀ c < nch, TFits f (b+a.p+1) (2^(b+a.p)) (segK (2^(b+a.p)) a.seg) (zext a.seg (c % a.seg.ch))) →
        (∀ x, List.Forall₂ (SubOk f κ W b nch last.delay x 0) (mkSpecs (2^b) ir off rest) subs)
  | [], off, i, h => ⟨[], rfl, rfl, by simp⟩
  | l :: rest, off, i, h => by
    obtain ⟨⟨p, hp, hpsb⟩, hnp, hclr, h24, hoff, hmono, hrest⟩ := h
    have hBpos : 0 < 2^b := by positivity
    obtain ⟨tl, e1, hlen, htl⟩ := buildSubs_eq hA hch hn tail0 rest (off + l.samples (2^b)) (i+1) hrest
    have hlog : Nat.log 2 l.psb = p := by rw [hpsb]; exact Nat.log_pow (by norm_num) p
    have hP : l.psb * 2^b = 2^(b+p) := by rw [hpsb, ← pow_add, add_comm]
    have hsamp : 0 < l.samples (2^b) := by
      unfold Layout.samples
      have : 0 < l.psb := by rw [hpsb]; positivity
      positivity
    have hsub : ir.sub off (min (l.samples (2^b)) (ir.n - off)) =
        some ⟨ir.ch, min (l.samples (2^b)) (ir.n - off), fun c i => ir.data c (off + i)⟩ := by
      unfold Buf.sub; rw [if_pos ⟨hoff, by omega⟩]
    set seg : Buf := ⟨ir.ch, min (l.samples (2^b)) (ir.n - off), fun c i => ir.data c (off + i)⟩ with hseg
    obtain ⟨m, e2, hm⟩ := MInv.create hA (b := b) (p := p) (nch := nch) hp (seg := seg)
      (by show 0 < min (l.samples (2^b)) (ir.n - off); omega) hch
      (by show min (l.samples (2^b)) (ir.n - off) ≤ 2^24; omega) (by rw [← hP]; exact h24) (tail0 i)
    rw [← hpsb] at e2
    refine ⟨⟨m, off + 2^b - 2 * (l.psb * 2^b)⟩ :: tl, ?_, by simp [hlen], ?_⟩
    · unfold NUPC.buildSubsR
      simp only
      rw [if_pos hoff.le, hsub]
      simp only [Option.bind_eq_bind, Option.bind_some]
      rw [e2]
      simp only [Option.bind_some]
      rw [if_pos (by omega), e1]
      rfl
    · intro last hlast κ W hκ x
      have hdelay : off + 2^b - 2 * (l.psb * 2^b) = (off - 2 * (l.psb * 2^b)) + 2^b := by omega
      have hhead : ∀ S, off - 2 * (l.psb * 2^b) + 2^b ≤ S → SubOk f κ W b nch S x 0
          ⟨off - 2 * (l.psb * 2^b), Nat.log 2 l.psb, seg⟩ ⟨m, off + 2^b - 2 * (l.psb * 2^b)⟩ := by
        intro S hS
        have hcl : 2^b ≤ off - 2 * (l.psb * 2^b) := by omega
        have hk := hκ _ (by unfold mkSpecs; exact List.mem_cons_self ..)
        refine ⟨hdelay, ?_, hS, hcl, hk.1, hk.2.1, hk.2.2.1, ?_, hk.2.2.2⟩
        swap
        · show 0 < (min (l.samples (2^b)) (ir.n - off) + 2^(b + Nat.log 2 l.psb) - 1) / 2^(b + Nat.log 2 l.psb)
          have hpp : 0 < 2^(b + Nat.log 2 l.psb) := by positivity
          exact Nat.div_pos (by omega) hpp
        show MInv b (Nat.log 2 l.psb) seg nch x 0 m
        have hk1 := hk.1
        have hk2 := hk.2.2.2
        simp only [hlog] at hk1 hk2 ⊢
        exact hm hk1 hk2 x
      unfold mkSpecs
      rcases htl0 : tl with _ | ⟨t1, ts⟩
      · rw [htl0] at hlast hlen
        simp only [List.getLast?_singleton, Option.mem_def, Option.some.injEq] at hlast
        have hr0 : rest = [] := List.length_eq_zero_iff.mp (by simpa using hlen.symm)
        subst hr0
        subst hlast
        refine List.Forall₂.cons (hhead _ ?_) List.Forall₂.nil
        show _ ≤ off + 2^b - 2 * (l.psb * 2^b)
        omega
      · rw [htl0] at hlast
        rw [List.getLast?_cons_cons, ← htl0] at hlast
        have hF := htl last hlast κ W (fun a ha => hκ a (by unfold mkSpecs; exact List.mem_cons_of_mem _ ha)) x
        rw [← htl0]
        refine List.Forall₂.cons (hhead _ ?_) hF
        rcases hrest0 : rest with _ | ⟨l', rest'⟩
        · rw [hrest0, htl0] at hlen; simp at hlen
        · rw [hrest0] at hF hmono
          have h1 := forall₂_specs hF _ (by unfold mkSpecs; exact List.mem_cons_self ..)
          simp only at h1
          have h2 := hmono l' (by simp)
          omega

theorem NInv.create {F : RealFFT} (hA : f.Acc) (hF : f.Fft F) {B nch : ℕ} (hB : 0 < B) (hB' : B ≤ 2^24) {ir : Buf}
    (hn : 0 < ir.n) (hn' : ir.n ≤ 2^24) (hch : 0 < nch → 0 < ir.ch) (g : Garbage) :
    ∃ s n0 rest, NUPC.createR F B nch ir g = some s ∧ getPartitionScheme kGarciaResults B ir.n = some (⟨1, n0⟩ :: rest) ∧
      GoodRest B ir.n (n0 * B) rest ∧ (rest = [] ∨ ∃ b, B = 2^b) ∧ 0 < n0 ∧
      (∀ (κ : ℝ) (W : ℕ), 1 ≤ κ → upK f.u f.ε (segK B (nPar B nch ir n0 rest).seg0) ≤ κ →
        (uPar B nch (nPar B nch ir n0 rest).seg0).N + segK B (nPar B nch ir n0 rest).seg0 * B ≤ W →
        (∀ a ∈ (nPar B nch ir n0 rest).specs, Nat.log 2 B + a.p + 1 ≤ f.L ∧
          tdK f.u f.τ (Nat.log 2 B + a.p + 1) (segK (2^(Nat.log 2 B+a.p)) a.seg) ≤ κ ∧
          a.e + (segK (2^(Nat.log 2 B+a.p)) a.seg + 3) * 2^(Nat.log 2 B+a.p) ≤ W ∧
          ∀ c < nch, TFits f (Nat.log 2 B+a.p+1) (2^(Nat.log 2 B+a.p)) (segK (2^(Nat.log 2 B+a.p)) a.seg) (zext a.seg (c % a.seg.ch))) →
        NFits ⟨f, κ, W⟩ (nPar B nch ir n0 rest) →
        ∀ x, NInv ⟨f, κ, W⟩ (nPar B nch ir n0 rest) x 0 s) ∧
      (∀ (x : ℕ → ℕ → ℝ) ch τ, linConv (nPar B nch ir n0 rest).seg0.n ((nPar B nch ir n0 rest).seg0.data
          (ch % (nPar B nch ir n0 rest).seg0.ch)) (x ch) τ + (nPar B nch ir n0 rest).subOut x ch τ =
        linConv ir.n (ir.data (ch % ir.ch)) (x ch) τ) := by
  obtain ⟨sch, e1, ⟨n0, rest, rfl, hn0, hgood, hrestB⟩⟩ := getPartitionScheme_good hB hB' hn hn'
  have hn0B : 0 < n0 * B := Nat.mul_pos hn0 hB
  have hs0 : (Layout.mk 1 n0).samples B = n0 * B := by simp [Layout.samples]
  have hsub : ir.sub 0 (min (n0 * B) ir.n) = some ⟨ir.ch, min (n0 * B) ir.n, fun c i => ir.data c (0 + i)⟩ := by
    unfold Buf.sub; rw [if_pos ⟨hn, by omega⟩]
  obtain ⟨v, e2, hu⟩ := UInv.create hA.toGood hF (nch := nch) hB hB' (ir := ⟨ir.ch, min (n0 * B) ir.n, fun c i => ir.data c (0 + i)⟩)
    (by show 0 < min (n0 * B) ir.n; omega) (by show min (n0 * B) ir.n ≤ _; omega) hch g.upcRing
  unfold NUPC.createR
  rw [if_pos hn, e1]
  simp only [Option.bind_eq_bind, Option.bind_some, hs0, hsub, e2]
  rcases hrest0 : rest with _ | ⟨l, rest'⟩
  · subst hrest0
    have hcov : ir.n ≤ n0 * B := hgood
    refine ⟨_, n0, [], rfl, rfl, hgood, Or.inl rfl, hn0, ?_, ?_⟩
    · intro κ W hκ hk1 hw hk2 hnf x
      refine ⟨?_, hk1, hw, hnf, rfl, by simp [NUPC.reset], Or.inl ⟨rfl, rfl⟩⟩
      exact (hu hnf.hu x).reset hA.toGood x
    · intro x ch τ
      simp only [nPar, mkSpecs, NPar.subOut, full, List.map_nil, List.sum_nil, add_zero, zero_add]
      rw [min_eq_right hcov]
  · obtain ⟨b, rfl⟩ : ∃ b, B = 2^b := by
      rcases hrestB with h | h
      · rw [hrest0] at h; cases h
      · exact h
    have hBpos : 0 < 2^b := by positivity
    have hoff : n0 * 2^b < ir.n := by
      rw [hrest0] at hgood; exact hgood.2.2.2.2.1
    rw [← hrest0]
    obtain ⟨subs, e3, hlen, hsubs⟩ := buildSubs_eq hA (nch := nch) hch hn' g.tail rest (n0 * 2^b) 0 hgood
    rw [min_eq_left hoff.le, e3]
    simp only [Option.bind_some]
    have hne : subs ≠ [] := by
      intro h0; rw [h0, hrest0] at hlen; simp at hlen
    obtain ⟨last, hlast⟩ : ∃ last, subs.getLast? = some last := ⟨_, List.getLast?_eq_some_getLast hne⟩
    rw [hlast]
    have hF2 := hsubs last hlast
    refine ⟨_, n0, rest, rfl, by rw [hrest0], hgood, Or.inr ⟨b, rfl⟩, hn0, ?_, ?_⟩
    · intro κ W hκ hk1 hw hk2 hnf x
      rw [Nat.log_pow (by norm_num)] at hk2
      have hBS : 2^b ≤ last.delay := by
        have := forall₂_specs (hF2 κ W hk2 x)
        rw [hrest0] at this
        have := this _ (by unfold mkSpecs; exact List.mem_cons_self ..)
        omega
      -- the state before `Reset`, with a cleared ring
      refine ⟨?_, hk1, hw, hnf, rfl, by simp [NUPC.reset], Or.inr ⟨by simp [NUPC.reset, hne], ?_⟩⟩
      · show UInv f (uPar (2^b) nch ⟨ir.ch, min (n0 * 2^b) ir.n, _⟩) x 0 v.reset
        exact (hu hnf.hu x).reset hA.toGood x
      · rw [Nat.zero_div, Nat.zero_mod]
        refine ⟨⟨b, last.delay, rfl, hBS, ?_, rfl, rfl, ?_⟩, rfl, rfl, fun ch _ i hi => absurd hi (by omega), rfl, rfl⟩
        · show List.Forall₂ _ (mkSpecs (2^b) ir (n0 * 2^b) rest) (subs.map fun c => { c with td := c.td.reset })
          rw [List.forall₂_map_right_iff]
          exact (hF2 κ W hk2 x).imp fun a s' h' => h'.reset hA x
        · intro ch hc r hr X hX
          have hS : 0 < last.delay := by omega
          show Near _ _ ((Buf.clear ⟨nch, last.delay, g.ring⟩).data ch _) _
          simp only [Buf.clear]
          rw [if_pos ⟨hc, Nat.mod_lt _ hS⟩, gsum_zero, gsum_zero, val_zero, pow_zero, mul_one]
          exact Near.zero.mono hκ le_rfl
    · intro x ch τ
      have := full_specs (b := b) (x := x) (ch := ch) (τ := τ) rest (n0 * 2^b) hgood.tight
      rw [← this]
      simp only [nPar, NPar.subOut, zero_add]
      rw [Nat.log_pow (by norm_num)]


end Zones.Proofs.R
