import Verif.Model.NUPC
import Verif.Proofs.Partition
import Verif.Proofs.UPCInv

/-!
# `TimeDistributedNUPC` is an exact zero-latency convolver
-/

namespace Zones.Proofs
open Zones.Model Zones.Spec Finset

/-- a sub convolver: `e` is the position of its segment minus two partitions, `2^p` the partition size in blocks -/
structure SubSpec where
  e : ℕ
  p : ℕ
  seg : Buf

/-- the signal a sub convolver produces -/
noncomputable def SubSpec.v (b : ℕ) (a : SubSpec) (x : ℕ → ℕ → ℝ) (c τ : ℕ) : ℝ :=
  dconv a.seg.n (a.seg.data (c % a.seg.ch)) (x c) (2 * 2^(b+a.p)) τ

/-- what a sub convolver has contributed to output sample `τ` after `nb` blocks -/
noncomputable def contrib (b : ℕ) (x : ℕ → ℕ → ℝ) (nb c τ : ℕ) (a : SubSpec) : ℝ :=
  if a.e ≤ τ ∧ τ - a.e < nb * 2^b then a.v b x c (τ - a.e) else 0

noncomputable def val (b : ℕ) (specs : List SubSpec) (x : ℕ → ℕ → ℝ) (nb c τ : ℕ) : ℝ :=
  (specs.map (contrib b x nb c τ)).sum

structure SubOk (b nch S : ℕ) (x : ℕ → ℕ → ℝ) (nb : ℕ) (a : SubSpec) (s : SubConv) : Prop where
  delay : s.delay = a.e + 2^b
  inv : MInv b a.p a.seg nch x nb s.td
  fits : a.e + 2^b ≤ S

theorem SubOk.reset {b nch S : ℕ} {x : ℕ → ℕ → ℝ} {nb : ℕ} {a : SubSpec} {s : SubConv} (h : SubOk b nch S x nb a s)
    (x' : ℕ → ℕ → ℝ) : SubOk b nch S x' 0 a { s with td := s.td.reset } :=
  ⟨h.delay, h.inv.reset x', h.fits⟩

/-- new samples of one sub convolver, by ring position `r` counted from the next block -/
noncomputable def fresh (b : ℕ) (x : ℕ → ℕ → ℝ) (nb c r : ℕ) (a : SubSpec) : ℝ :=
  if a.e ≤ r ∧ r - a.e < 2^b then a.v b x c (nb * 2^b + (r - a.e)) else 0

theorem stepSubs_eq {b nch S : ℕ} {x : ℕ → ℕ → ℝ} {nb : ℕ} {saved : Buf} (hsc : saved.ch = nch) (hsn : saved.n = 2^b)
    (hsd : ∀ c < nch, ∀ i < 2^b, saved.data c i = x c (nb * 2^b + i)) :
    ∀ {specs : List SubSpec} {subs : List SubConv}, List.Forall₂ (SubOk b nch S x nb) specs subs →
    ∀ (proc : Buf) (ring : Ring), proc.ch = nch → proc.n = 2^b → ring.buf.n = S → ring.buf.ch = nch →
    ∃ subs' proc' ring', NUPC.stepSubs saved subs proc ring = some (subs', proc', ring') ∧
      List.Forall₂ (SubOk b nch S x (nb+1)) specs subs' ∧ proc'.ch = nch ∧ proc'.n = 2^b ∧
      ring'.buf.n = S ∧ ring'.buf.ch = nch ∧ ring'.head = ring.head ∧
      ∀ c < nch, ∀ r < S, ring'.buf.data c ((ring.head + 2^b + r) % S) =
        ring.buf.data c ((ring.head + 2^b + r) % S) + (specs.map (fresh b x nb c r)).sum := by
  intro specs subs h
  induction h with
  | nil =>
    intro proc ring h1 h2 h3 h4
    exact ⟨[], proc, ring, rfl, List.Forall₂.nil, h1, h2, h3, h4, rfl, fun c _ r _ => by simp⟩
  | @cons a s specs subs hs hrest ih =>
    intro proc ring h1 h2 h3 h4
    have hB : 0 < 2^b := by positivity
    have hS : 0 < S := by have := hs.fits; omega
    obtain ⟨m', out, e1, oc, on, od, hm'⟩ := hs.inv.step (blk := proc.copyFrom saved) h1 h2 (by
      intro c hc i hi
      simp only [Buf.copyFrom]
      rw [if_pos ⟨by omega, by omega⟩, hsd c hc i hi])
    have e2 := getNext_eq (r := ring) (by rw [h3]; exact hS) s.delay false
    simp only [h3, h4] at e2
    set nx := (ring.head + s.delay) % S with hnx
    have hnxlt : nx < S := Nat.mod_lt _ hS
    obtain ⟨buf', e3, bn, bc, bd⟩ := split_addFrom (n := S) (nx := nx) (ch := nch) (k := S) hnxlt hS le_rfl (r := ring.buf)
      (block := out) h3 h4 oc (by rw [on]; have := hs.fits; omega)
    obtain ⟨subs', proc', ring', e4, f4, pc, pn, rn, rc, rh, rd⟩ := ih out { ring with buf := buf' } oc on bn bc
    refine ⟨{ s with td := m' } :: subs', proc', ring', ?_, ?_, pc, pn, rn, rc, rh, ?_⟩
    · unfold NUPC.stepSubs
      simp only [e1, e2, e3, e4, Option.bind_eq_bind, Option.bind_some, Option.pure_def]
    · exact List.Forall₂.cons ⟨hs.delay, hm', hs.fits⟩ f4
    · intro c hc r hr
      rw [rd c hc r hr]
      have hd := hs.delay
      have hf := hs.fits
      have key : ring.buf.data c ((ring.head + 2^b + r) % S) + fresh b x nb c r a =
          buf'.data c ((ring.head + 2^b + r) % S) := by
        by_cases hra : a.e ≤ r
        · have hslot : (ring.head + 2^b + r) % S = slot S nx (r - a.e) := by
            rw [← slot_eq_mod hnxlt (by omega), hnx, Nat.mod_add_mod, hd]
            congr 1; omega
          rw [hslot, bd c _ (by omega)]
          unfold fresh
          by_cases hlt : r - a.e < 2^b
          · rw [if_pos ⟨hra, hlt⟩, if_pos ⟨hc, by rw [on]; exact hlt⟩, od c hc _ hlt]; rfl
          · rw [if_neg (by tauto), if_neg (by rw [on]; tauto), add_zero]
        · have hslot : (ring.head + 2^b + r) % S = slot S nx (r + S - a.e) := by
            rw [← slot_eq_mod hnxlt (by omega), hnx, Nat.mod_add_mod, hd]
            rw [show ring.head + (a.e + 2^b) + (r + S - a.e) = ring.head + 2^b + r + S by omega, Nat.add_mod_right]
          rw [hslot, bd c _ (by omega)]
          unfold fresh
          rw [if_neg (by tauto), if_neg (by rw [on]; intro h; omega), add_zero]
      simp only [List.map_cons, List.sum_cons]
      rw [← add_assoc, key]

/-! ## The result ring -/

/-- time of ring position `r` when `col` samples of block `nb` have been read -/
def rtime (B S nb col r : ℕ) : ℕ := if r < col then nb * B + r + S else nb * B + r

theorem contrib_step {b S : ℕ} {x : ℕ → ℕ → ℝ} {nb c col r : ℕ} {a : SubSpec} (hf : a.e + 2^b ≤ S) (hc : col = 0 ∨ 2^b ≤ a.e)
    (hcol : col ≤ 2^b) (hr : r < S) :
    contrib b x nb c (rtime (2^b) S nb col r) a + fresh b x nb c r a = contrib b x (nb+1) c (rtime (2^b) S nb col r) a := by
  have h1 : (nb + 1) * 2^b = nb * 2^b + 2^b := by ring
  unfold contrib fresh rtime
  rw [h1]
  generalize nb * 2^b = M
  by_cases hlt : r < col
  · simp only [hlt, if_true]
    rw [if_neg (by omega : ¬ (a.e ≤ M + r + S ∧ M + r + S - a.e < M)),
      if_neg (by omega : ¬ (a.e ≤ r ∧ r - a.e < 2^b)),
      if_neg (by omega : ¬ (a.e ≤ M + r + S ∧ M + r + S - a.e < M + 2^b)), add_zero]
  · simp only [hlt, if_false]
    by_cases hA : a.e ≤ r ∧ r - a.e < 2^b
    · rw [if_pos hA, if_neg (by omega), if_pos (by omega), zero_add]
      congr 1; omega
    · rw [if_neg hA, add_zero]
      by_cases hC : a.e ≤ M + r ∧ M + r - a.e < M
      · rw [if_pos hC, if_pos (by omega)]
      · rw [if_neg hC, if_neg (by omega)]

theorem val_step' {b S : ℕ} {x : ℕ → ℕ → ℝ} {nb c col r : ℕ} {specs : List SubSpec}
    (hs : ∀ a ∈ specs, a.e + 2^b ≤ S ∧ (col = 0 ∨ 2^b ≤ a.e)) (hcol : col ≤ 2^b) (hr : r < S) :
    val b specs x nb c (rtime (2^b) S nb col r) + (specs.map (fresh b x nb c r)).sum =
      val b specs x (nb+1) c (rtime (2^b) S nb col r) := by
  induction specs with
  | nil => simp [val]
  | cons a specs ih =>
    have ih' := ih (fun a' h' => hs a' (List.mem_cons_of_mem _ h'))
    obtain ⟨h1, h2⟩ := hs a (List.mem_cons_self ..)
    unfold val at ih' ⊢
    simp only [List.map_cons, List.sum_cons]
    rw [← contrib_step h1 h2 hcol hr, ← ih']
    ring

theorem val_step {b S : ℕ} {x : ℕ → ℕ → ℝ} {nb c col r : ℕ} {specs : List SubSpec}
    (hs : ∀ a ∈ specs, a.e + 2^b ≤ S ∧ 2^b ≤ a.e) (hcol : col ≤ 2^b) (hr : r < S) :
    val b specs x nb c (rtime (2^b) S nb col r) + (specs.map (fresh b x nb c r)).sum =
      val b specs x (nb+1) c (rtime (2^b) S nb col r) :=
  val_step' (fun a ha => ⟨(hs a ha).1, Or.inr (hs a ha).2⟩) hcol hr

/-- full contribution of the sub convolvers to output sample `τ` -/
noncomputable def full (b : ℕ) (specs : List SubSpec) (x : ℕ → ℕ → ℝ) (c τ : ℕ) : ℝ :=
  (specs.map fun a => if a.e ≤ τ then a.v b x c (τ - a.e) else 0).sum

theorem val_full' {b : ℕ} {x : ℕ → ℕ → ℝ} {nb nb' c r : ℕ} {specs : List SubSpec}
    (hs : nb + 1 ≤ nb' ∨ ∀ a ∈ specs, 2^b ≤ a.e) (hr : r < 2^b) (hnb : nb ≤ nb') :
    val b specs x nb' c (nb * 2^b + r) = full b specs x c (nb * 2^b + r) := by
  unfold val full
  congr 1
  apply List.map_congr_left
  intro a ha
  have h1 : nb * 2^b + 2^b ≤ nb' * 2^b ∨ 2^b ≤ a.e := hs.imp
    (fun h => by calc nb * 2^b + 2^b = (nb + 1) * 2^b := by ring
                   _ ≤ _ := Nat.mul_le_mul_right _ h) (fun h => h a ha)
  have h2 : nb * 2^b ≤ nb' * 2^b := Nat.mul_le_mul_right _ hnb
  unfold contrib
  by_cases he : a.e ≤ nb * 2^b + r
  · rw [if_pos he, if_pos ⟨he, by omega⟩]
  · rw [if_neg he, if_neg (by tauto)]

theorem val_full {b : ℕ} {x : ℕ → ℕ → ℝ} {nb nb' c r : ℕ} {specs : List SubSpec}
    (hs : ∀ a ∈ specs, 2^b ≤ a.e) (hr : r < 2^b) (hnb : nb ≤ nb') :
    val b specs x nb' c (nb * 2^b + r) = full b specs x c (nb * 2^b + r) := val_full' (Or.inr hs) hr hnb

theorem val_zero_late {b S : ℕ} {x : ℕ → ℕ → ℝ} {nb nb' c r : ℕ} {specs : List SubSpec}
    (hs : ∀ a ∈ specs, a.e + 2^b ≤ S) (hnb : nb' ≤ nb + 1) :
    val b specs x nb' c (nb * 2^b + r + S) = 0 := by
  unfold val
  apply List.sum_eq_zero
  intro y hy
  obtain ⟨a, ha, rfl⟩ := List.mem_map.mp hy
  have h1 := hs a ha
  have h2 : nb' * 2^b ≤ nb * 2^b + 2^b := by
    calc nb' * 2^b ≤ (nb+1) * 2^b := Nat.mul_le_mul_right _ hnb
      _ = _ := by ring
  unfold contrib
  rw [if_neg (by omega)]

/-- contents of the ring seen from position `p0` -/
structure RingAt (b nch S : ℕ) (specs : List SubSpec) (x : ℕ → ℕ → ℝ) (nbv nb col p0 : ℕ) (buf : Buf) : Prop where
  n : buf.n = S
  ch : buf.ch = nch
  data : ∀ c < nch, ∀ r < S, buf.data c ((p0 + r) % S) = val b specs x nbv c (rtime (2^b) S nb col r)

/-- reading and clearing the next `k` results -/
theorem RingAt.read {b nch S : ℕ} {specs : List SubSpec} {x : ℕ → ℕ → ℝ} {nbv nb col p0 : ℕ} {buf : Buf}
    (h : RingAt b nch S specs x nbv nb col p0 buf) (hs : ∀ a ∈ specs, a.e + 2^b ≤ S)
    (hBS : 2^b ≤ S) (h2 : nbv ≤ nb + 1) {k : ℕ} (hk : 0 < k) (hck : col + k ≤ 2^b)
    {sub : Buf} (hsn : sub.n = k) (hsc : sub.ch = nch) :
    ∃ out, (splitSub S ((p0 + col) % S) nch k).addTo buf sub = some out ∧ out.n = k ∧ out.ch = nch ∧
      (∀ c < nch, ∀ i < k, out.data c i = sub.data c i + val b specs x nbv c (nb * 2^b + col + i)) ∧
      RingAt b nch S specs x nbv nb (col + k) p0 ((splitSub S ((p0 + col) % S) nch k).clear buf) := by
  have hB : 0 < 2^b := by positivity
  have hS : 0 < S := by omega
  have hnx : (p0 + col) % S < S := Nat.mod_lt _ hS
  obtain ⟨out, e1, on, oc, od⟩ := split_addTo (n := S) (nx := (p0 + col) % S) (ch := nch) (k := k) hnx hk (by omega)
    (r := buf) (block := sub) hsn hsc
  obtain ⟨cn, cc, cd⟩ := split_clear (n := S) (nx := (p0 + col) % S) (ch := nch) (k := k) hnx hk (by omega)
    (r := buf) h.n h.ch
  have hpos : ∀ j, (((p0 + col) % S) + j) % S = (p0 + (col + j)) % S := by
    intro j; rw [Nat.mod_add_mod, add_assoc]
  refine ⟨out, e1, on, oc, ?_, ⟨cn, cc, ?_⟩⟩
  · intro c hc i hi
    rw [od c i hi, if_pos hc, ← slot_eq_mod hnx (by omega), hpos, h.data c hc _ (by omega)]
    congr 1
    unfold rtime
    rw [if_neg (by omega), add_assoc]
  · intro c hc r hr
    -- position of r relative to the read position
    obtain ⟨j, hj, hjr, hcase⟩ : ∃ j < S, (p0 + r) % S = slot S ((p0 + col) % S) j ∧
        ((col ≤ r ∧ j = r - col) ∨ (r < col ∧ j = r + S - col)) := by
      by_cases hcr : col ≤ r
      · refine ⟨r - col, by omega, ?_, Or.inl ⟨hcr, rfl⟩⟩
        rw [← slot_eq_mod hnx (by omega), hpos]; congr 2; omega
      · refine ⟨r + S - col, by omega, ?_, Or.inr ⟨by omega, rfl⟩⟩
        rw [← slot_eq_mod hnx (by omega), hpos, show p0 + (col + (r + S - col)) = p0 + r + S by omega,
          Nat.add_mod_right]
    rw [hjr, cd c j hj]
    by_cases hjk : j < k
    · rw [if_pos ⟨hc, hjk⟩]
      have : r < col + k := by omega
      unfold rtime
      rw [if_pos this, val_zero_late hs h2]
    · rw [if_neg (by tauto), ← hjr, h.data c hc r hr]
      unfold rtime
      by_cases hcr : r < col
      · rw [if_pos hcr, if_pos (by omega)]
      · rw [if_neg hcr, if_neg (by omega)]

/-- the next block starts -/
theorem RingAt.next {b nch S : ℕ} {specs : List SubSpec} {x : ℕ → ℕ → ℝ} {nb p0 : ℕ} {buf : Buf} (hBS : 2^b ≤ S)
    (h : RingAt b nch S specs x (nb+1) nb (2^b) p0 buf) : RingAt b nch S specs x (nb+1) (nb+1) 0 (p0 + 2^b) buf := by
  refine ⟨h.n, h.ch, fun c hc r hr => ?_⟩
  have h1 : (nb+1) * 2^b = nb * 2^b + 2^b := by ring
  by_cases hlt : r + 2^b < S
  · rw [show p0 + 2^b + r = p0 + (r + 2^b) by omega, h.data c hc _ hlt]
    unfold rtime
    rw [if_neg (by omega), if_neg (by omega), h1]
    congr 1; omega
  · rw [show p0 + 2^b + r = p0 + (r + 2^b - S) + S by omega, Nat.add_mod_right, h.data c hc _ (by omega)]
    unfold rtime
    rw [if_pos (by omega), if_neg (by omega), h1]
    congr 1; omega

/-! ## The whole convolver -/

/-- parameters -/
structure NPar where
  B : ℕ
  nch : ℕ
  /-- segment of the uniform convolver -/
  seg0 : Buf
  specs : List SubSpec

/-- the part of the state that is only used when there are sub convolvers -/
structure NSubs (c : NPar) (x : ℕ → ℕ → ℝ) (nb col : ℕ) (s : NUPC) : Prop where
  ex : ∃ b S, c.B = 2^b ∧ 2^b ≤ S ∧ List.Forall₂ (SubOk b c.nch S x nb) c.specs s.subs ∧
    RingAt b c.nch S c.specs x nb nb col (s.ring.head + 2^b) s.ring.buf
  savedCh : s.saved.ch = c.nch
  savedN : s.saved.n = c.B
  saved : ∀ ch < c.nch, ∀ i < col, s.saved.data ch i = x ch (nb * c.B + i)
  procCh : s.proc.ch = c.nch
  procN : s.proc.n = c.B

/-- state after `t` samples of `x` since the start or the last reset -/
structure NInvT (c : NPar) (x : ℕ → ℕ → ℝ) (t : ℕ) (s : NUPC) : Prop where
  upc : UInv (uPar c.B c.nch c.seg0) x t s.upc
  blockSize : s.blockSize = c.B
  col : s.collected = t % c.B
  subs : (c.specs = [] ∧ s.subs = []) ∨ (s.subs ≠ [] ∧ NSubs c x (t / c.B) (t % c.B) s)

/-- the same, when every sub convolver's result is ready one block early -/
structure NInv (c : NPar) (x : ℕ → ℕ → ℝ) (t : ℕ) (s : NUPC) : Prop extends NInvT c x t s where
  clear : ∀ a ∈ c.specs, c.B ≤ a.e

/-- what the sub convolvers have contributed to output sample `τ` after `nb` blocks -/
noncomputable def NPar.subVal (c : NPar) (x : ℕ → ℕ → ℝ) (nb ch τ : ℕ) : ℝ := val (Nat.log 2 c.B) c.specs x nb ch τ

/-- output of the sub convolvers -/
noncomputable def NPar.subOut (c : NPar) (x : ℕ → ℕ → ℝ) (ch τ : ℕ) : ℝ := full (Nat.log 2 c.B) c.specs x ch τ

theorem forall₂_specs {b nch S : ℕ} {x : ℕ → ℕ → ℝ} {nb : ℕ} {specs : List SubSpec} {subs : List SubConv}
    (h : List.Forall₂ (SubOk b nch S x nb) specs subs) : ∀ a ∈ specs, a.e + 2^b ≤ S := by
  induction h with
  | nil => simp
  | cons h _ ih =>
    intro a ha
    rcases List.mem_cons.mp ha with rfl | ha
    · exact h.fits
    · exact ih a ha

theorem getSubBlock' {S p k nch : ℕ} (hS : 0 < S) (hk : 0 < k) (hkS : k ≤ S) :
    (splitSub S (p % S) nch S).getSubBlock k = some (splitSub S (p % S) nch k) :=
  getSubBlock_eq (Nat.mod_lt _ hS) hk hkS

theorem addResults_some {s : NUPC} {o out : Buf} {k S nch p : ℕ} (hlen : 0 < s.subs.length) (hn : s.ring.buf.n = S)
    (hc : s.ring.buf.ch = nch) (hS : 0 < S) (hk : 0 < k) (hkS : k ≤ S)
    (hp : (s.ring.head + (s.collected + if (s.collected + k) % s.blockSize = 0 then 0 else s.blockSize)) % S = p % S)
    (e3 : (splitSub S (p % S) nch k).addTo s.ring.buf o = some out) :
    s.addResults o k =
      some ({ s with ring := { s.ring with buf := (splitSub S (p % S) nch k).clear s.ring.buf } }, out) := by
  unfold NUPC.addResults
  have e4 := getNext_eq (r := s.ring) (by rw [hn]; exact hS)
    (s.collected + if (s.collected + k) % s.blockSize = 0 then 0 else s.blockSize) false
  simp only [hn, hc, hp] at e4
  simp only
  rw [if_pos hlen, e4]
  simp only [Option.bind_eq_bind, Option.bind_some]
  rw [getSubBlock' hS hk hkS]
  simp only [Option.bind_some]
  rw [e3]
  rfl

/-- the sub convolver part of one iteration: collect, then (with any uniform convolver state) add the results -/
theorem NSubs.step {c : NPar} {x : ℕ → ℕ → ℝ} {nb col : ℕ} {s : NUPC} (h : NSubs c x nb col s) (hne : s.subs ≠ [])
    (hbs : s.blockSize = c.B) (hcol : s.collected = col) {k : ℕ} (hk : 0 < k) (hck : col + k ≤ c.B)
    (hcl : (∀ a ∈ c.specs, c.B ≤ a.e) ∨ col = 0 ∨ col + k < c.B) {sub : Buf} (hsn : sub.n = k) (hsc : sub.ch = c.nch)
    (hin : ∀ ch < c.nch, ∀ i < k, sub.data ch i = x ch (nb * c.B + col + i)) :
    ∃ s1, s.collect sub k = some s1 ∧ s1.upc = s.upc ∧ s1.subs ≠ [] ∧ s1.blockSize = c.B ∧ s1.collected = col ∧
      ∀ (u : UPC) (o : Buf), o.n = k → o.ch = c.nch →
        ∃ s2 out, { s1 with upc := u }.addResults o k = some (s2, out) ∧ out.n = k ∧ out.ch = c.nch ∧
          (∀ ch < c.nch, ∀ i < k, out.data ch i = o.data ch i +
            c.subVal x (if col + k = c.B then nb + 1 else nb) ch (nb * c.B + col + i)) ∧
          s2.upc = u ∧ s2.subs ≠ [] ∧ s2.blockSize = c.B ∧ s2.collected = col ∧
          (col + k < c.B → NSubs c x nb (col + k) s2) ∧ (col + k = c.B → NSubs c x (nb+1) 0 s2) := by
  obtain ⟨b, S, hB, hBS, hF, hR⟩ := h.ex
  have hBpos : 0 < 2^b := by positivity
  have hS : 0 < S := by omega
  have hspecs := forall₂_specs hF
  have hlen : 0 < s.subs.length := List.length_pos_iff.mpr hne
  have hlog : Nat.log 2 c.B = b := by rw [hB]; exact Nat.log_pow (by norm_num) b
  have hsub : s.saved.sub s.collected (s.saved.n - s.collected) =
      some ⟨c.nch, c.B - col, fun ch i => s.saved.data ch (col + i)⟩ := by
    unfold Buf.sub; rw [h.savedN, h.savedCh, hcol, if_pos ⟨by omega, by omega⟩]
  set dst : Buf := ⟨c.nch, c.B - col, fun ch i => s.saved.data ch (col + i)⟩ with hdst
  set saved' := s.saved.put s.collected (dst.copyFrom sub) with hsaved'
  have hsv : ∀ ch < c.nch, ∀ i < col + k, saved'.data ch i = x ch (nb * c.B + i) := by
    intro ch hc i hi
    simp only [hsaved', Buf.put, Buf.copyFrom, hdst, hcol, h.savedCh, hsn, hsc]
    by_cases hlt : i < col
    · rw [if_neg (by omega), h.saved ch hc i hlt]
    · rw [if_pos ⟨hc, by omega, by omega⟩, if_pos ⟨by omega, by omega⟩, hin ch hc _ (by omega)]
      congr 1; omega
  by_cases hfull : col + k = c.B
  · -- the block is complete
    have hmod : (s.collected + k) % s.blockSize = 0 := by rw [hcol, hbs, hfull, Nat.mod_self]
    obtain ⟨subs', proc', ring', e1, f1, pc, pn, rn, rc, rh, rd⟩ := stepSubs_eq (saved := saved') (S := S) (nb := nb) (b := b)
      (x := x) (nch := c.nch) h.savedCh (by rw [← hB]; exact h.savedN)
      (by intro ch hc i hi; rw [← hB]; exact hsv ch hc i (by omega))
      hF s.proc s.ring h.procCh (by rw [← hB]; exact h.procN) hR.n hR.ch
    have e2 := getNext_eq (r := ring') (by rw [rn]; exact hS) s.blockSize true
    have hne' : subs' ≠ [] := by
      have h1 := f1.length_eq
      have h2 := hF.length_eq
      intro h0
      rw [h0, List.length_nil] at h1
      omega
    have hlen' : 0 < subs'.length := List.length_pos_iff.mpr hne'
    refine ⟨{ s with
        saved := saved'
        subs := subs'
        proc := proc'
        ring := { ring' with head := (ring'.head + s.blockSize) % ring'.buf.n } }, ?_, rfl, hne', hbs, hcol, ?_⟩
    · unfold NUPC.collect
      rw [if_pos hlen]
      simp only [hsub, Option.bind_eq_bind, Option.bind_some]
      rw [if_pos hmod]
      simp only [← hsaved', e1, Option.bind_some]
      rw [e2]
      rfl
    · intro u o on oc
      -- the ring after the step
      have hmid : RingAt b c.nch S c.specs x (nb+1) nb col (s.ring.head + 2^b) ring'.buf := by
        refine ⟨rn, rc, fun ch hc r hr => ?_⟩
        rw [rd ch hc r hr, hR.data ch hc r hr]
        refine val_step' (fun a ha => ⟨hspecs a ha, ?_⟩) (by omega) hr
        rcases hcl with h1 | h1 | h1
        · exact Or.inr (by rw [← hB]; exact h1 a ha)
        · exact Or.inl h1
        · omega
      obtain ⟨out, e3, on', oc', od, hclr⟩ := hmid.read hspecs hBS le_rfl hk (by omega) on oc
      have hp : ((ring'.head + s.blockSize) % ring'.buf.n +
          (s.collected + if (s.collected + k) % s.blockSize = 0 then 0 else s.blockSize)) % S =
          (s.ring.head + 2^b + col) % S := by
        rw [if_pos hmod, rn, Nat.mod_add_mod, rh, hbs, hB, hcol, add_zero]
      refine ⟨_, out, addResults_some hlen' rn rc hS hk (by omega) hp e3, on', oc', ?_, ?_, ?_, ?_, ?_, ?_, ?_⟩
      · intro ch hc i hi
        rw [od ch hc i hi, NPar.subVal, hlog, if_pos hfull, hB]
      · rfl
      · exact hne'
      · exact hbs
      · exact hcol
      · intro hh; omega
      · intro _
        refine ⟨⟨b, S, hB, hBS, f1, ?_⟩, h.savedCh, h.savedN, fun ch _ i hi => absurd hi (by omega), pc, by rw [hB]; exact pn⟩
        have hckB : col + k = 2^b := by omega
        rw [hckB] at hclr
        have hfin := hclr.next hBS
        refine ⟨hfin.n, hfin.ch, fun ch hc r hr => ?_⟩
        have := hfin.data ch hc r hr
        rw [← this]
        show _ = _
        congr 1
        show ((ring'.head + s.blockSize) % ring'.buf.n + 2^b + r) % S = _
        rw [rn, add_assoc, Nat.mod_add_mod, rh, hbs, hB]
        congr 1; omega
  · have hmod : ¬ (s.collected + k) % s.blockSize = 0 := by
      rw [hcol, hbs, Nat.mod_eq_of_lt (by omega)]; omega
    refine ⟨{ s with saved := saved' }, ?_, rfl, hne, hbs, hcol, ?_⟩
    · unfold NUPC.collect
      rw [if_pos hlen]
      simp only [hsub, Option.bind_eq_bind, Option.bind_some]
      rw [if_neg hmod]
    · intro u o on oc
      obtain ⟨out, e3, on', oc', od, hclr⟩ := hR.read hspecs hBS (by omega) hk (by omega) on oc
      have hp : (s.ring.head +
          (s.collected + if (s.collected + k) % s.blockSize = 0 then 0 else s.blockSize)) % S =
          (s.ring.head + 2^b + col) % S := by
        rw [if_neg hmod, hbs, hB, hcol]; congr 1; omega
      refine ⟨_, out, addResults_some hlen hR.n hR.ch hS hk (by omega) hp e3, on', oc', ?_, ?_, ?_, ?_, ?_, ?_, ?_⟩
      · intro ch hc i hi
        rw [od ch hc i hi, NPar.subVal, hlog, if_neg hfull, hB]
      · rfl
      · exact hne
      · exact hbs
      · exact hcol
      · intro _
        exact ⟨⟨b, S, hB, hBS, hF, hclr⟩, h.savedCh, h.savedN, hsv, h.procCh, h.procN⟩
      · intro hh; omega

theorem NInvT.body_val {F : RealFFT} (hF : Lawful F) {c : NPar} {x : ℕ → ℕ → ℝ} {t : ℕ} {s : NUPC} (h : NInvT c x t s)
    (hB : 0 < c.B) {blk : Buf} {done k : ℕ} (hk : 0 < k) (hck : t % c.B + k ≤ c.B)
    (hcl : (∀ a ∈ c.specs, c.B ≤ a.e) ∨ t % c.B = 0 ∨ t % c.B + k < c.B) (hd : done + k ≤ blk.n)
    (hch : blk.ch = c.nch) (hin : ∀ ch < c.nch, ∀ i < k, blk.data ch (done + i) = x ch (t + i)) :
    ∃ s' blk', s.body F blk done k = some (s', blk') ∧ blk'.n = blk.n ∧ blk'.ch = c.nch ∧
      (∀ ch < c.nch, ∀ i < blk.n, blk'.data ch i =
        if done ≤ i ∧ i < done + k then
          linConv c.seg0.n (c.seg0.data (ch % c.seg0.ch)) (x ch) (t + (i - done)) + c.subVal x (if t % c.B + k = c.B then t / c.B + 1 else t / c.B) ch (t + (i - done))
        else blk.data ch i) ∧
      NInvT c x (t + k) s' := by
  have hsub : blk.sub done k = some ⟨c.nch, k, fun ch i => blk.data ch (done + i)⟩ := by
    unfold Buf.sub; rw [if_pos ⟨by omega, hd⟩, hch]
  set sub : Buf := ⟨c.nch, k, fun ch i => blk.data ch (done + i)⟩ with hsubdef
  have hdm := Nat.div_add_mod t c.B
  have hnbt : t / c.B * c.B + t % c.B = t := by rw [mul_comm]; exact hdm
  have hlt := Nat.mod_lt t hB
  -- the uniform convolver
  obtain ⟨u, o, eu, on, oc, od, hu⟩ := h.upc.step hF (blk := sub) rfl hin
  have od' : ∀ ch < c.nch, ∀ i < k, o.data ch i = linConv c.seg0.n (c.seg0.data (ch % c.seg0.ch)) (x ch) (t + i) := by
    intro ch hc i hi
    rw [od ch hc i hi]
    exact linConv_seg hB c.seg0 (ch % c.seg0.ch) (x ch) (t + i)
  have hmod : (t + k) % c.B = (t % c.B + k) % c.B := by rw [Nat.mod_add_mod]
  unfold NUPC.body
  simp only [hsub, Option.bind_eq_bind, Option.bind_some]
  -- result of the whole iteration from the sub block's result
  have fin : ∀ (out : Buf), out.n = k → (∀ ch < c.nch, ∀ i < k, out.data ch i =
        linConv c.seg0.n (c.seg0.data (ch % c.seg0.ch)) (x ch) (t + i) + c.subVal x (if t % c.B + k = c.B then t / c.B + 1 else t / c.B) ch (t + i)) →
      (∀ ch < c.nch, ∀ i < blk.n, (blk.put done out).data ch i =
        if done ≤ i ∧ i < done + k then
          linConv c.seg0.n (c.seg0.data (ch % c.seg0.ch)) (x ch) (t + (i - done)) + c.subVal x (if t % c.B + k = c.B then t / c.B + 1 else t / c.B) ch (t + (i - done))
        else blk.data ch i) := by
    intro out hon hout ch hc i hi
    simp only [Buf.put, hon, hch]
    by_cases hcond : done ≤ i ∧ i < done + k
    · rw [if_pos ⟨hc, hcond⟩, if_pos hcond, hout ch hc _ (by omega)]
    · rw [if_neg (by tauto), if_neg hcond]
  rcases h.subs with ⟨hs1, hs2⟩ | ⟨hne, hns⟩
  · have hcl : s.collect sub k = some s := by
      unfold NUPC.collect; rw [if_neg (by rw [hs2]; simp)]
    rw [hcl]
    simp only [Option.bind_some, eu]
    have har : NUPC.addResults { s with upc := u } o k = some ({ s with upc := u }, o) := by
      unfold NUPC.addResults; rw [if_neg (by simp only [hs2]; simp)]
    rw [har]
    simp only [Option.bind_some]
    refine ⟨_, _, rfl, rfl, hch, fin o on ?_, ⟨hu, h.blockSize, ?_, Or.inl ⟨hs1, hs2⟩⟩⟩
    · intro ch hc i hi
      rw [od' ch hc i hi]
      simp [NPar.subVal, val, hs1]
    · show (s.collected + k) % s.blockSize = (t + k) % c.B
      rw [h.col, h.blockSize, hmod]
  · obtain ⟨s1, e1, u1, ne1, b1, c1, hres⟩ := hns.step hne h.blockSize h.col hk hck hcl (sub := sub) rfl rfl
      (by intro ch hc i hi; rw [hnbt]; exact hin ch hc i hi)
    obtain ⟨s2, out, e2, on2, oc2, od2, u2, ne2, b2, c2, hA, hC⟩ := hres u o on oc
    rw [e1]
    simp only [Option.bind_some]
    rw [u1, eu]
    simp only [Option.bind_some]
    rw [e2]
    simp only [Option.bind_some]
    refine ⟨_, _, rfl, rfl, hch, fin out on2 ?_, ⟨?_, b2, ?_, Or.inr ⟨ne2, ?_⟩⟩⟩
    · intro ch hc i hi
      rw [od2 ch hc i hi, od' ch hc i hi, hnbt]
    · show UInv _ _ _ s2.upc
      rw [u2]; exact hu
    · show (s2.collected + k) % s2.blockSize = (t + k) % c.B
      rw [b2, c2, hmod]
    · have conv : ∀ {nb col : ℕ}, NSubs c x nb col s2 →
          NSubs c x nb col { s2 with collected := (s2.collected + k) % s2.blockSize } := by
        intro nb col hh
        exact ⟨hh.ex, hh.savedCh, hh.savedN, hh.saved, hh.procCh, hh.procN⟩
      rcases Nat.lt_or_ge (t % c.B + k) c.B with hlt2 | hge
      · have h1 : (t + k) / c.B = t / c.B := by
          apply Nat.div_eq_of_lt_le
          · omega
          · rw [Nat.add_mul]; omega
        rw [h1, hmod, Nat.mod_eq_of_lt hlt2]
        exact conv (hA hlt2)
      · have heq : t % c.B + k = c.B := by omega
        have h1 : (t + k) / c.B = t / c.B + 1 := by
          apply Nat.div_eq_of_lt_le
          · rw [Nat.add_mul]; omega
          · rw [Nat.add_mul, Nat.add_mul]; omega
        rw [h1, hmod, heq, Nat.mod_self]
        exact conv (hC heq)

/-- after a whole block, and when the results are ready early, the sub convolvers have contributed everything -/
theorem NInvT.subVal_eq {c : NPar} {x : ℕ → ℕ → ℝ} {t : ℕ} {s : NUPC} (h : NInvT c x t s) (hB : 0 < c.B) {k : ℕ}
    (hcl : (∀ a ∈ c.specs, c.B ≤ a.e) ∨ t % c.B + k = c.B) (hck : t % c.B + k ≤ c.B) {ch i : ℕ} (hi : i < k) :
    c.subVal x (if t % c.B + k = c.B then t / c.B + 1 else t / c.B) ch (t + i) = c.subOut x ch (t + i) := by
  rcases h.subs with ⟨h1, _⟩ | ⟨_, hns⟩
  · simp [NPar.subVal, NPar.subOut, val, full, h1]
  · obtain ⟨b, S, hb, _⟩ := hns.ex
    have hlog : Nat.log 2 c.B = b := by rw [hb]; exact Nat.log_pow (by norm_num) b
    unfold NPar.subVal NPar.subOut
    rw [hlog]
    have e : t + i = t / c.B * 2^b + (t % c.B + i) := by
      rw [← hb]; have := Nat.div_add_mod t c.B; rw [mul_comm] at this; omega
    rw [e]
    apply val_full'
    · rcases hcl with h2 | h2
      · exact Or.inr (fun a ha => by rw [← hb]; exact h2 a ha)
      · exact Or.inl (by rw [if_pos h2])
    · rw [← hb]; omega
    · split <;> omega

theorem NInvT.body {F : RealFFT} (hF : Lawful F) {c : NPar} {x : ℕ → ℕ → ℝ} {t : ℕ} {s : NUPC} (h : NInvT c x t s)
    (hB : 0 < c.B) {blk : Buf} {done k : ℕ} (hk : 0 < k) (hck : t % c.B + k ≤ c.B)
    (hcl : (∀ a ∈ c.specs, c.B ≤ a.e) ∨ (t % c.B = 0 ∧ k = c.B)) (hd : done + k ≤ blk.n)
    (hch : blk.ch = c.nch) (hin : ∀ ch < c.nch, ∀ i < k, blk.data ch (done + i) = x ch (t + i)) :
    ∃ s' blk', s.body F blk done k = some (s', blk') ∧ blk'.n = blk.n ∧ blk'.ch = c.nch ∧
      (∀ ch < c.nch, ∀ i < blk.n, blk'.data ch i =
        if done ≤ i ∧ i < done + k then
          linConv c.seg0.n (c.seg0.data (ch % c.seg0.ch)) (x ch) (t + (i - done)) + c.subOut x ch (t + (i - done))
        else blk.data ch i) ∧
      NInvT c x (t + k) s' := by
  obtain ⟨s', blk', e, n, cc, d, h'⟩ := h.body_val hF hB hk hck (hcl.imp_right fun h => Or.inl h.1) hd hch hin
  refine ⟨s', blk', e, n, cc, fun ch hc i hi => ?_, h'⟩
  rw [d ch hc i hi]
  by_cases hcond : done ≤ i ∧ i < done + k
  · rw [if_pos hcond, if_pos hcond, h.subVal_eq hB (hcl.imp_right fun h => by omega) hck (by omega)]
  · rw [if_neg hcond, if_neg hcond]

theorem NInvT.loop {F : RealFFT} (hF : Lawful F) {c : NPar} {x : ℕ → ℕ → ℝ} (hB : 0 < c.B) (fuel : ℕ) :
    ∀ {t : ℕ} {s : NUPC} {blk : Buf} {done : ℕ}, NInvT c x t s →
    ((∀ a ∈ c.specs, c.B ≤ a.e) ∨ (t % c.B = 0 ∧ c.B ∣ blk.n - done)) → blk.ch = c.nch → done ≤ blk.n →
    (done < blk.n → blk.n - done + t % c.B ≤ fuel * c.B) →
    (∀ ch < c.nch, ∀ i < blk.n - done, blk.data ch (done + i) = x ch (t + i)) →
    ∃ s' blk', NUPC.loop F fuel s blk done = some (s', blk') ∧ blk'.n = blk.n ∧ blk'.ch = c.nch ∧
      (∀ ch < c.nch, ∀ i < blk.n, blk'.data ch i =
        if done ≤ i then
          linConv c.seg0.n (c.seg0.data (ch % c.seg0.ch)) (x ch) (t + (i - done)) + c.subOut x ch (t + (i - done))
        else blk.data ch i) ∧
      NInvT c x (t + (blk.n - done)) s' := by
  induction fuel with
  | zero =>
    intro t s blk done h hcl hch hdn hfuel hin
    have hdn' : ¬ done < blk.n := fun hc => by have := hfuel hc; omega
    refine ⟨s, blk, by unfold NUPC.loop; rw [if_neg hdn'], rfl, hch, ?_, by rw [show blk.n - done = 0 by omega]; exact h⟩
    intro ch _ i hi
    rw [if_neg (by omega)]
  | succ fuel ih =>
    intro t s blk done h hcl hch hdn hfuel hin
    unfold NUPC.loop
    by_cases hlt : done < blk.n
    · rw [if_pos hlt]
      have hm := Nat.mod_lt t hB
      simp only [h.col, h.blockSize, Option.bind_eq_bind]
      set k := min (blk.n - done) (c.B - t % c.B) with hkdef
      have hk : 0 < k := by omega
      obtain ⟨s1, blk1, e1, n1, c1, d1, h1⟩ := h.body hF hB (blk := blk) (done := done) (k := k) hk (by omega)
        (hcl.imp_right fun h2 => ⟨h2.1, by have := Nat.le_of_dvd (by omega) h2.2; omega⟩) (by omega) hch
        (fun ch hc i hi => hin ch hc i (by omega))
      rw [e1]
      simp only [Option.bind_some]
      obtain ⟨s2, blk2, e2, n2, c2, d2, h2⟩ := ih h1 (blk := blk1) (done := done + k)
        (hcl.imp_right fun h2 => by
          have hkB : k = c.B := by have := Nat.le_of_dvd (by omega) h2.2; omega
          rw [n1, hkB, Nat.add_mod_right]
          refine ⟨h2.1, ?_⟩
          obtain ⟨q, hq⟩ := h2.2
          refine ⟨q - 1, ?_⟩
          rw [Nat.mul_sub, mul_one]; omega) c1 (by omega)
        (by
          intro hlt2
          rw [n1] at hlt2 ⊢
          have hf := hfuel hlt
          have hmod : (t + k) % c.B = 0 := by
            have : t % c.B + k = c.B := by omega
            rw [← Nat.mod_add_mod, this, Nat.mod_self]
          rw [Nat.add_mul, one_mul] at hf
          omega)
        (by
          intro ch hc i hi
          rw [n1] at hi
          rw [d1 ch hc _ (by omega), if_neg (by omega), show done + k + i = done + (k + i) by omega,
            hin ch hc _ (by omega)]
          congr 1; omega)
      refine ⟨s2, blk2, e2, by rw [n2, n1], c2, ?_, ?_⟩
      · intro ch hc i hi
        rw [d2 ch hc i (by rw [n1]; exact hi)]
        by_cases h3 : done + k ≤ i
        · rw [if_pos h3, if_pos (by omega), show t + k + (i - (done + k)) = t + (i - done) by omega]
        · rw [if_neg h3, d1 ch hc i hi]
          by_cases h4 : done ≤ i
          · rw [if_pos ⟨h4, by omega⟩, if_pos h4]
          · rw [if_neg (by tauto), if_neg h4]
      · rw [n1, show t + k + (blk.n - (done + k)) = t + (blk.n - done) by omega] at h2
        exact h2
    · rw [if_neg hlt]
      refine ⟨s, blk, rfl, rfl, hch, ?_, by rw [show blk.n - done = 0 by omega]; exact h⟩
      intro ch _ i hi
      rw [if_neg (by omega)]

theorem NInvT.step {F : RealFFT} (hF : Lawful F) {c : NPar} {x : ℕ → ℕ → ℝ} (hB : 0 < c.B)
    {t : ℕ} {s : NUPC} {blk : Buf} (h : NInvT c x t s)
    (hcl : (∀ a ∈ c.specs, c.B ≤ a.e) ∨ (t % c.B = 0 ∧ c.B ∣ blk.n)) (hch : blk.ch = c.nch)
    (hin : ∀ ch < c.nch, ∀ i < blk.n, blk.data ch i = x ch (t + i)) :
    ∃ s' blk', s.process F blk = some (s', blk') ∧ blk'.n = blk.n ∧ blk'.ch = c.nch ∧
      (∀ ch < c.nch, ∀ i < blk.n, blk'.data ch i =
          linConv c.seg0.n (c.seg0.data (ch % c.seg0.ch)) (x ch) (t + i) + c.subOut x ch (t + i)) ∧
      NInvT c x (t + blk.n) s' := by
  obtain ⟨s', blk', e, n, cc, d, h'⟩ := h.loop hF hB blk.n (blk := blk) (done := 0) hcl hch (by omega)
    (fun hn => fuel_enough (Nat.mod_lt _ hB) hn) (by intro ch hc i hi; rw [zero_add]; exact hin ch hc i hi)
  refine ⟨s', blk', e, n, cc, ?_, h'⟩
  intro ch hc i hi
  rw [d ch hc i hi, if_pos (by omega), Nat.sub_zero]

theorem NInv.step {F : RealFFT} (hF : Lawful F) {c : NPar} {x : ℕ → ℕ → ℝ} (hB : 0 < c.B)
    {t : ℕ} {s : NUPC} {blk : Buf} (h : NInv c x t s) (hch : blk.ch = c.nch)
    (hin : ∀ ch < c.nch, ∀ i < blk.n, blk.data ch i = x ch (t + i)) :
    ∃ s' blk', s.process F blk = some (s', blk') ∧ blk'.n = blk.n ∧ blk'.ch = c.nch ∧
      (∀ ch < c.nch, ∀ i < blk.n, blk'.data ch i =
          linConv c.seg0.n (c.seg0.data (ch % c.seg0.ch)) (x ch) (t + i) + c.subOut x ch (t + i)) ∧
      NInv c x (t + blk.n) s' := by
  obtain ⟨s', blk', e, n, cc, d, h'⟩ := h.toNInvT.step hF hB (Or.inl h.clear) hch hin
  exact ⟨s', blk', e, n, cc, d, h', h.clear⟩

theorem NInvT.reset {c : NPar} {x : ℕ → ℕ → ℝ} (hB : 0 < c.B) {t : ℕ} {s : NUPC} (h : NInvT c x t s)
    (x' : ℕ → ℕ → ℝ) : NInvT c x' 0 s.reset := by
  refine ⟨h.upc.reset x', h.blockSize, by simp [NUPC.reset], ?_⟩
  rcases h.subs with ⟨h1, h2⟩ | ⟨hne, hns⟩
  · exact Or.inl ⟨h1, by simp [NUPC.reset, h2]⟩
  · refine Or.inr ⟨by simp [NUPC.reset, hne], ?_⟩
    obtain ⟨b, S, hb, hBS, hF, hR⟩ := hns.ex
    rw [Nat.zero_div, Nat.zero_mod]
    refine ⟨⟨b, S, hb, hBS, ?_, hR.n, hR.ch, ?_⟩, hns.savedCh, hns.savedN, fun ch _ i hi => absurd hi (by omega),
      hns.procCh, hns.procN⟩
    · show List.Forall₂ _ c.specs (s.subs.map fun c => { c with td := c.td.reset })
      rw [List.forall₂_map_right_iff]
      exact hF.imp fun a s' h' => h'.reset x'
    · intro ch hc r hr
      have hS : 0 < S := by have : 0 < 2^b := by positivity
                            omega
      show s.ring.buf.clear.data ch _ = _
      simp only [Buf.clear, hR.n, hR.ch]
      rw [if_pos ⟨hc, Nat.mod_lt _ hS⟩]
      unfold val
      symm
      apply List.sum_eq_zero
      intro y hy
      obtain ⟨a, ha, rfl⟩ := List.mem_map.mp hy
      unfold contrib
      rw [if_neg (by omega)]

theorem NInv.reset {c : NPar} {x : ℕ → ℕ → ℝ} (hB : 0 < c.B) {t : ℕ} {s : NUPC} (h : NInv c x t s)
    (x' : ℕ → ℕ → ℝ) : NInv c x' 0 s.reset := ⟨h.toNInvT.reset hB x', h.clear⟩

/-! ## Construction -/

/-- what the construction needs of the later parts of a scheme; like `GoodRest`, without the extra block of clearance -/
def TightRest (B L : ℕ) : ℕ → List Layout → Prop
  | off, [] => L ≤ off
  | off, l :: rest =>
    (∃ p, 1 ≤ p ∧ l.psb = 2 ^ p) ∧ 0 < l.np ∧ 2 * (l.psb * B) ≤ off ∧ l.psb * B ≤ 2^24 ∧ off < L ∧
      (∀ l' ∈ rest.head?, 2 * (l'.psb * B) ≤ l.samples B + 2 * (l.psb * B)) ∧
      TightRest B L (off + l.samples B) rest

theorem GoodRest.tight {B L : ℕ} : ∀ {off : ℕ} {rest : List Layout}, GoodRest B L off rest → TightRest B L off rest
  | _, [], h => h
  | _, _ :: _, ⟨h1, h2, h3, h4, h5, h6, h7⟩ => ⟨h1, h2, by omega, h4, h5, h6, h7.tight⟩

/-- the sub convolvers built from a layout -/
def mkSpecs (B : ℕ) (ir : Buf) : ℕ → List Layout → List SubSpec
  | _, [] => []
  | off, l :: rest =>
    ⟨off - 2 * (l.psb * B), Nat.log 2 l.psb, ⟨ir.ch, min (l.samples B) (ir.n - off), fun c i => ir.data c (off + i)⟩⟩ ::
      mkSpecs B ir (off + l.samples B) rest

theorem linConv_split (a b : ℕ) (h x : ℕ → ℝ) (n : ℕ) :
    linConv (a + b) h x n = linConv a h x n + (if a ≤ n then linConv b (fun k => h (a + k)) x (n - a) else 0) := by
  unfold linConv
  rw [sum_range_add]
  congr 1
  by_cases han : a ≤ n
  · rw [if_pos han]
    refine sum_congr rfl fun k _ => ?_
    by_cases hk : a + k ≤ n
    · rw [if_pos hk, if_pos (by omega), Nat.sub_sub]
    · rw [if_neg hk, if_neg (by omega)]
  · rw [if_neg han]
    refine sum_eq_zero fun k _ => ?_
    rw [if_neg (by omega)]

/-- the segments together are the rest of the impulse response -/
theorem full_specs {b : ℕ} {ir : Buf} {x : ℕ → ℕ → ℝ} {ch τ : ℕ} : ∀ (rest : List Layout) (off : ℕ),
    TightRest (2^b) ir.n off rest →
    linConv (min off ir.n) (ir.data (ch % ir.ch)) (x ch) τ + full b (mkSpecs (2^b) ir off rest) x ch τ =
      linConv ir.n (ir.data (ch % ir.ch)) (x ch) τ
  | [], off, h => by
    have h' : ir.n ≤ off := h
    rw [min_eq_right h']
    simp [full, mkSpecs]
  | l :: rest, off, h => by
    obtain ⟨⟨p, hp, hpsb⟩, hnp, hclr, _, hoff, _, hrest⟩ := h
    have ih := full_specs (x := x) (ch := ch) (τ := τ) rest _ hrest
    rw [← ih]
    have hlog : Nat.log 2 l.psb = p := by rw [hpsb]; exact Nat.log_pow (by norm_num) p
    have hP : l.psb * 2^b = 2^(b+p) := by rw [hpsb, ← pow_add, add_comm]
    have e1 : min (off + l.samples (2^b)) ir.n = off + min (l.samples (2^b)) (ir.n - off) := by omega
    rw [e1, linConv_split, min_eq_left hoff.le]
    have hm : mkSpecs (2^b) ir off (l :: rest) = ⟨off - 2 * (l.psb * 2^b), Nat.log 2 l.psb,
        ⟨ir.ch, min (l.samples (2^b)) (ir.n - off), fun c i => ir.data c (off + i)⟩⟩ ::
        mkSpecs (2^b) ir (off + l.samples (2^b)) rest := rfl
    rw [hm]
    unfold full
    simp only [List.map_cons, List.sum_cons]
    rw [← add_assoc]
    refine congrArg₂ (· + ·) (congrArg₂ (· + ·) rfl ?_) rfl
    unfold SubSpec.v dconv
    simp only [hlog]
    rw [hP] at hclr ⊢
    clear ih hrest e1
    generalize 2^(b+p) = P at hclr ⊢
    generalize 2^b = B0 at hclr ⊢
    by_cases h1 : off ≤ τ
    · rw [if_pos h1, if_pos (by omega), if_pos (by omega)]
      congr 1
      omega
    · rw [if_neg h1]
      by_cases h2 : off - 2 * P ≤ τ
      · rw [if_pos h2, if_neg (by omega)]
      · rw [if_neg h2]

/-- the later parts of the scheme count the partitions of their segments right -/
def CountsRest (B L : ℕ) : ℕ → List Layout → Prop
  | _, [] => True
  | off, l :: rest =>
    numPartitionsFor (l.psb * B) (min (l.samples B) (L - off)) =
      (min (l.samples B) (L - off) + l.psb * B - 1) / (l.psb * B) ∧ CountsRest B L (off + l.samples B) rest

theorem TightRest.counts {b L : ℕ} (hL : L ≤ 2^24) : ∀ {off : ℕ} {rest : List Layout}, TightRest (2^b) L off rest →
    CountsRest (2^b) L off rest
  | _, [], _ => trivial
  | _, l :: _, ⟨⟨p, _, hp⟩, _, _, h4, _, _, h7⟩ =>
    ⟨numPartitionsFor_eq (by rw [hp]; positivity) (by omega) h4, TightRest.counts hL h7⟩

theorem buildSubs_of {b nch : ℕ} {ir : Buf} (hch : 0 < nch → 0 < ir.ch) (tail0 : ℕ → ℕ → ℕ → ℕ → ℝ) :
    ∀ (rest : List Layout) (off i : ℕ), TightRest (2^b) ir.n off rest → CountsRest (2^b) ir.n off rest →
    ∃ subs, NUPC.buildSubs (2^b) nch ir tail0 off i rest = some subs ∧ subs.length = rest.length ∧
      ∀ last ∈ subs.getLast?, (∀ x, List.Forall₂ (SubOk b nch last.delay x 0) (mkSpecs (2^b) ir off rest) subs)
  | [], off, i, h, _ => ⟨[], rfl, rfl, by simp⟩
  | l :: rest, off, i, h, hcnt => by
    obtain ⟨⟨p, hp, hpsb⟩, hnp, hclr, h24, hoff, hmono, hrest⟩ := h
    obtain ⟨hc1, hc2⟩ := hcnt
    have hBpos : 0 < 2^b := by positivity
    obtain ⟨tl, e1, hlen, htl⟩ := buildSubs_of hch tail0 rest (off + l.samples (2^b)) (i+1) hrest hc2
    have hlog : Nat.log 2 l.psb = p := by rw [hpsb]; exact Nat.log_pow (by norm_num) p
    have hP : l.psb * 2^b = 2^(b+p) := by rw [hpsb, ← pow_add, add_comm]
    have hsamp : 0 < l.samples (2^b) := by
      unfold Layout.samples
      have : 0 < l.psb := by rw [hpsb]; positivity
      positivity
    have hsub : ir.sub off (min (l.samples (2^b)) (ir.n - off)) =
        some ⟨ir.ch, min (l.samples (2^b)) (ir.n - off), fun c i => ir.data c (off + i)⟩ := by
      unfold Buf.sub; rw [if_pos ⟨hoff, by omega⟩]
    set seg : Buf := ⟨ir.ch, min (l.samples (2^b)) (ir.n - off), fun c i => ir.data c (off + i)⟩ with hseg
    obtain ⟨m, e2, hm⟩ := MInv.create_of (b := b) (p := p) (nch := nch) hp (seg := seg)
      (by show 0 < min (l.samples (2^b)) (ir.n - off); omega) hch
      (by rw [hP] at hc1; exact hc1) (tail0 i)
    rw [← hpsb] at e2
    refine ⟨⟨m, off + 2^b - 2 * (l.psb * 2^b)⟩ :: tl, ?_, by simp [hlen], ?_⟩
    · unfold NUPC.buildSubs
      simp only
      rw [if_pos hoff.le, hsub]
      simp only [Option.bind_eq_bind, Option.bind_some]
      rw [e2]
      simp only [Option.bind_some]
      rw [if_pos (by omega), e1]
      rfl
    · intro last hlast x
      have hdelay : off + 2^b - 2 * (l.psb * 2^b) = (off - 2 * (l.psb * 2^b)) + 2^b := by omega
      have hhead : ∀ S, off - 2 * (l.psb * 2^b) + 2^b ≤ S → SubOk b nch S x 0
          ⟨off - 2 * (l.psb * 2^b), Nat.log 2 l.psb, seg⟩ ⟨m, off + 2^b - 2 * (l.psb * 2^b)⟩ := by
        intro S hS
        refine ⟨hdelay, ?_, hS⟩
        show MInv b (Nat.log 2 l.psb) seg nch x 0 m
        rw [hlog]; exact hm x
      unfold mkSpecs
      rcases htl0 : tl with _ | ⟨t1, ts⟩
      · rw [htl0] at hlast hlen
        simp only [List.getLast?_singleton, Option.mem_def, Option.some.injEq] at hlast
        have hr0 : rest = [] := List.length_eq_zero_iff.mp (by simpa using hlen.symm)
        subst hr0
        subst hlast
        refine List.Forall₂.cons (hhead _ ?_) List.Forall₂.nil
        show _ ≤ off + 2^b - 2 * (l.psb * 2^b)
        omega
      · rw [htl0] at hlast
        rw [List.getLast?_cons_cons, ← htl0] at hlast
        have hF := htl last hlast x
        rw [← htl0]
        refine List.Forall₂.cons (hhead _ ?_) hF
        rcases hrest0 : rest with _ | ⟨l', rest'⟩
        · rw [hrest0, htl0] at hlen; simp at hlen
        · rw [hrest0] at hF hmono
          have h1 := forall₂_specs hF _ (by unfold mkSpecs; exact List.mem_cons_self ..)
          simp only at h1
          have h2 := hmono l' (by simp)
          omega

theorem buildSubs_eq {b nch : ℕ} {ir : Buf} (hch : 0 < nch → 0 < ir.ch) (hn : ir.n ≤ 2^24) (tail0 : ℕ → ℕ → ℕ → ℕ → ℝ)
    (rest : List Layout) (off i : ℕ) (h : TightRest (2^b) ir.n off rest) :
    ∃ subs, NUPC.buildSubs (2^b) nch ir tail0 off i rest = some subs ∧ subs.length = rest.length ∧
      ∀ last ∈ subs.getLast?, (∀ x, List.Forall₂ (SubOk b nch last.delay x 0) (mkSpecs (2^b) ir off rest) subs) :=
  buildSubs_of hch tail0 rest off i h (h.counts hn)

/-- parameters of the convolver built for `ir` with the scheme `⟨1, n0⟩ :: rest` -/
def nPar (B nch : ℕ) (ir : Buf) (n0 : ℕ) (rest : List Layout) : NPar :=
  ⟨B, nch, ⟨ir.ch, min (n0 * B) ir.n, fun c i => ir.data c (0 + i)⟩, mkSpecs B ir (n0 * B) rest⟩

/-- the constructor with any scheme that counts its partitions right -/
theorem NInvT.ofScheme_of {F : RealFFT} (hF : Lawful F) {B nch : ℕ} (hB : 0 < B) (hB' : B ≤ 2^24) {ir : Buf}
    (hn : 0 < ir.n) (hch : 0 < nch → 0 < ir.ch) (g : Garbage) {n0 : ℕ} {rest : List Layout} (hn0 : 0 < n0)
    (hgood : TightRest B ir.n (n0 * B) rest) (hrestB : rest = [] ∨ ∃ b, B = 2^b)
    (hn24 : min (n0 * B) ir.n ≤ 2^24) (hcnt : CountsRest B ir.n (n0 * B) rest) :
    ∃ s, NUPC.ofScheme F B nch ir g (⟨1, n0⟩ :: rest) = some s ∧ (∀ x, NInvT (nPar B nch ir n0 rest) x 0 s) ∧
      (∀ (x : ℕ → ℕ → ℝ) ch τ, linConv (nPar B nch ir n0 rest).seg0.n ((nPar B nch ir n0 rest).seg0.data
          (ch % (nPar B nch ir n0 rest).seg0.ch)) (x ch) τ + (nPar B nch ir n0 rest).subOut x ch τ =
        linConv ir.n (ir.data (ch % ir.ch)) (x ch) τ) := by
  have hn0B : 0 < n0 * B := Nat.mul_pos hn0 hB
  have hs0 : (Layout.mk 1 n0).samples B = n0 * B := by simp [Layout.samples]
  have hsub : ir.sub 0 (min (n0 * B) ir.n) = some ⟨ir.ch, min (n0 * B) ir.n, fun c i => ir.data c (0 + i)⟩ := by
    unfold Buf.sub; rw [if_pos ⟨hn, by omega⟩]
  obtain ⟨u, e2, hu⟩ := UInv.create hF (nch := nch) hB hB' (ir := ⟨ir.ch, min (n0 * B) ir.n, fun c i => ir.data c (0 + i)⟩)
    (by show 0 < min (n0 * B) ir.n; omega) (by show min (n0 * B) ir.n ≤ _; omega) hch g.upcRing
  unfold NUPC.ofScheme
  simp only [Option.bind_eq_bind, Option.bind_some, hs0, hsub, e2]
  rcases hrest0 : rest with _ | ⟨l, rest'⟩
  · subst hrest0
    have hcov : ir.n ≤ n0 * B := hgood
    refine ⟨_, rfl, ?_, ?_⟩
    · intro x
      refine ⟨?_, rfl, by simp [NUPC.reset], Or.inl ⟨rfl, rfl⟩⟩
      exact (hu x).reset x
    · intro x ch τ
      simp only [nPar, mkSpecs, NPar.subOut, full, List.map_nil, List.sum_nil, add_zero, zero_add]
      rw [min_eq_right hcov]
  · obtain ⟨b, rfl⟩ : ∃ b, B = 2^b := by
      rcases hrestB with h | h
      · rw [hrest0] at h; cases h
      · exact h
    have hBpos : 0 < 2^b := by positivity
    have hoff : n0 * 2^b < ir.n := by
      rw [hrest0] at hgood; exact hgood.2.2.2.2.1
    rw [← hrest0]
    obtain ⟨subs, e3, hlen, hsubs⟩ := buildSubs_of (nch := nch) hch g.tail rest (n0 * 2^b) 0 hgood hcnt
    rw [min_eq_left hoff.le, e3]
    simp only [Option.bind_some]
    have hne : subs ≠ [] := by
      intro h0; rw [h0, hrest0] at hlen; simp at hlen
    obtain ⟨last, hlast⟩ : ∃ last, subs.getLast? = some last := ⟨_, List.getLast?_eq_some_getLast hne⟩
    rw [hlast]
    have hF2 := hsubs last hlast
    have hBS : 2^b ≤ last.delay := by
      have hh := hF2 (fun _ _ => 0)
      have := forall₂_specs hh
      rw [hrest0] at this
      have := this _ (by unfold mkSpecs; exact List.mem_cons_self ..)
      omega
    refine ⟨_, rfl, ?_, ?_⟩
    · intro x
      -- the state before `Reset`, with a cleared ring
      refine ⟨?_, rfl, by simp [NUPC.reset], Or.inr ⟨by simp [NUPC.reset, hne], ?_⟩⟩
      · show UInv (uPar (2^b) nch ⟨ir.ch, min (n0 * 2^b) ir.n, _⟩) x 0 u.reset
        exact (hu x).reset x
      · rw [Nat.zero_div, Nat.zero_mod]
        refine ⟨⟨b, last.delay, rfl, hBS, ?_, rfl, rfl, ?_⟩, rfl, rfl, fun ch _ i hi => absurd hi (by omega), rfl, rfl⟩
        · show List.Forall₂ _ (mkSpecs (2^b) ir (n0 * 2^b) rest) (subs.map fun c => { c with td := c.td.reset })
          rw [List.forall₂_map_right_iff]
          exact (hF2 x).imp fun a s' h' => h'.reset x
        · intro ch hc r hr
          have hS : 0 < last.delay := by omega
          show (Buf.clear ⟨nch, last.delay, g.ring⟩).data ch _ = _
          simp only [Buf.clear]
          rw [if_pos ⟨hc, Nat.mod_lt _ hS⟩]
          unfold val
          symm
          apply List.sum_eq_zero
          intro y hy
          obtain ⟨a, ha, rfl⟩ := List.mem_map.mp hy
          unfold contrib
          rw [if_neg (by omega)]
    · intro x ch τ
      have := full_specs (b := b) (x := x) (ch := ch) (τ := τ) rest (n0 * 2^b) hgood
      rw [← this]
      simp only [nPar, NPar.subOut, zero_add]
      rw [Nat.log_pow (by norm_num)]

/-- the constructor with any scheme -/
theorem NInvT.ofScheme {F : RealFFT} (hF : Lawful F) {B nch : ℕ} (hB : 0 < B) (hB' : B ≤ 2^24) {ir : Buf}
    (hn : 0 < ir.n) (hn' : ir.n ≤ 2^24) (hch : 0 < nch → 0 < ir.ch) (g : Garbage) {n0 : ℕ} {rest : List Layout} (hn0 : 0 < n0)
    (hgood : TightRest B ir.n (n0 * B) rest) (hrestB : rest = [] ∨ ∃ b, B = 2^b) :
    ∃ s, NUPC.ofScheme F B nch ir g (⟨1, n0⟩ :: rest) = some s ∧ (∀ x, NInvT (nPar B nch ir n0 rest) x 0 s) ∧
      (∀ (x : ℕ → ℕ → ℝ) ch τ, linConv (nPar B nch ir n0 rest).seg0.n ((nPar B nch ir n0 rest).seg0.data
          (ch % (nPar B nch ir n0 rest).seg0.ch)) (x ch) τ + (nPar B nch ir n0 rest).subOut x ch τ =
        linConv ir.n (ir.data (ch % ir.ch)) (x ch) τ) := by
  refine NInvT.ofScheme_of hF hB hB' hn hch g hn0 hgood hrestB (by omega) ?_
  rcases hrestB with rfl | ⟨b, rfl⟩
  · trivial
  · exact hgood.counts hn'

theorem mkSpecs_clear {B : ℕ} {ir : Buf} : ∀ (rest : List Layout) (off : ℕ), GoodRest B ir.n off rest →
    ∀ a ∈ mkSpecs B ir off rest, B ≤ a.e
  | [], _, _ => by simp [mkSpecs]
  | l :: rest, off, ⟨_, _, h, _, _, _, hr⟩ => by
    intro a ha
    unfold mkSpecs at ha
    rcases List.mem_cons.mp ha with rfl | ha
    · show B ≤ off - 2 * (l.psb * B)
      omega
    · exact mkSpecs_clear rest _ hr a ha

/-- the constructor with any scheme that has enough clearance -/
theorem NInv.ofScheme {F : RealFFT} (hF : Lawful F) {B nch : ℕ} (hB : 0 < B) (hB' : B ≤ 2^24) {ir : Buf}
    (hn : 0 < ir.n) (hn' : ir.n ≤ 2^24) (hch : 0 < nch → 0 < ir.ch) (g : Garbage) {n0 : ℕ} {rest : List Layout} (hn0 : 0 < n0)
    (hgood : GoodRest B ir.n (n0 * B) rest) (hrestB : rest = [] ∨ ∃ b, B = 2^b) :
    ∃ s, NUPC.ofScheme F B nch ir g (⟨1, n0⟩ :: rest) = some s ∧ (∀ x, NInv (nPar B nch ir n0 rest) x 0 s) ∧
      (∀ (x : ℕ → ℕ → ℝ) ch τ, linConv (nPar B nch ir n0 rest).seg0.n ((nPar B nch ir n0 rest).seg0.data
          (ch % (nPar B nch ir n0 rest).seg0.ch)) (x ch) τ + (nPar B nch ir n0 rest).subOut x ch τ =
        linConv ir.n (ir.data (ch % ir.ch)) (x ch) τ) := by
  obtain ⟨s, e, h, hid⟩ := NInvT.ofScheme hF (nch := nch) hB hB' hn hn' hch g hn0 hgood.tight hrestB
  exact ⟨s, e, fun x => ⟨h x, mkSpecs_clear rest _ hgood⟩, hid⟩

/-- the constructor with any scheme that has enough clearance and counts its partitions right -/
theorem NInv.ofScheme_of {F : RealFFT} (hF : Lawful F) {B nch : ℕ} (hB : 0 < B) (hB' : B ≤ 2^24) {ir : Buf}
    (hn : 0 < ir.n) (hch : 0 < nch → 0 < ir.ch) (g : Garbage) {n0 : ℕ} {rest : List Layout} (hn0 : 0 < n0)
    (hgood : GoodRest B ir.n (n0 * B) rest) (hrestB : rest = [] ∨ ∃ b, B = 2^b)
    (hn24 : min (n0 * B) ir.n ≤ 2^24) (hcnt : CountsRest B ir.n (n0 * B) rest) :
    ∃ s, NUPC.ofScheme F B nch ir g (⟨1, n0⟩ :: rest) = some s ∧ (∀ x, NInv (nPar B nch ir n0 rest) x 0 s) ∧
      (∀ (x : ℕ → ℕ → ℝ) ch τ, linConv (nPar B nch ir n0 rest).seg0.n ((nPar B nch ir n0 rest).seg0.data
          (ch % (nPar B nch ir n0 rest).seg0.ch)) (x ch) τ + (nPar B nch ir n0 rest).subOut x ch τ =
        linConv ir.n (ir.data (ch % ir.ch)) (x ch) τ) := by
  obtain ⟨s, e, h, hid⟩ := NInvT.ofScheme_of hF (nch := nch) hB hB' hn hch g hn0 hgood.tight hrestB hn24 hcnt
  exact ⟨s, e, fun x => ⟨h x, mkSpecs_clear rest _ hgood⟩, hid⟩

theorem NInv.create {F : RealFFT} (hF : Lawful F) {B nch : ℕ} (hB : 0 < B) (hB' : B ≤ 2^24) {ir : Buf}
    (hn : 0 < ir.n) (hn' : ir.n ≤ 2^24) (hch : 0 < nch → 0 < ir.ch) (g : Garbage) :
    ∃ s n0 rest, NUPC.create F B nch ir g = some s ∧ (∀ x, NInv (nPar B nch ir n0 rest) x 0 s) ∧
      (∀ (x : ℕ → ℕ → ℝ) ch τ, linConv (nPar B nch ir n0 rest).seg0.n ((nPar B nch ir n0 rest).seg0.data
          (ch % (nPar B nch ir n0 rest).seg0.ch)) (x ch) τ + (nPar B nch ir n0 rest).subOut x ch τ =
        linConv ir.n (ir.data (ch % ir.ch)) (x ch) τ) := by
  obtain ⟨sch, e1, ⟨n0, rest, rfl, hn0, hgood, hrestB⟩⟩ := getPartitionScheme_good hB hB' hn hn'
  obtain ⟨s, e, h1, h2⟩ := NInv.ofScheme hF (nch := nch) hB hB' hn hn' hch g hn0 hgood hrestB
  refine ⟨s, n0, rest, ?_, h1, h2⟩
  unfold NUPC.create
  rw [if_pos hn, e1]
  exact e

end Zones.Proofs
