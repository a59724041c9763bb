import Verif.Proofs.RMemUPC
import Verif.Proofs.RNUPC

/-! # Two runs on streams that agree from some sample on: `TimeDistributedNUPC` -/

open Finset Zones.Spec Zones.Model

namespace Zones.Proofs.R

variable [Arith] {W : ℕ} {x x' : ℕ → ℕ → ℝ}

structure Sub2 (W b nch S : ℕ) (x x' : ℕ → ℕ → ℝ) (nb : ℕ) (a : SubSpec) (s s' : SubConv) : Prop where
  delay : s.delay = a.e + 2^b
  delay' : s'.delay = a.e + 2^b
  inv : M2Inv b a.p a.seg nch x x' nb s.td s'.td
  fits : a.e + 2^b ≤ S
  clear : 2^b ≤ a.e
  win : a.e + (segK (2^(b+a.p)) a.seg + 3) * 2^(b+a.p) ≤ W

theorem Sub2.reset [ZeroBase] {b nch S : ℕ} {nb : ℕ} {a : SubSpec} {s s' : SubConv} (h : Sub2 W b nch S x x' nb a s s')
    (y y' : ℕ → ℕ → ℝ) : Sub2 W b nch S y y' 0 a { s with td := s.td.reset } { s' with td := s'.td.reset } :=
  ⟨h.delay, h.delay', h.inv.reset y y', h.fits, h.clear, h.win⟩

/-- the sub convolvers of the two runs -/
inductive Subs2 (W b nch S : ℕ) (x x' : ℕ → ℕ → ℝ) (nb : ℕ) : List SubSpec → List SubConv → List SubConv → Prop
  | nil : Subs2 W b nch S x x' nb [] [] []
  | cons {a : SubSpec} {s s' : SubConv} {as : List SubSpec} {ss ss' : List SubConv} (h : Sub2 W b nch S x x' nb a s s')
      (t : Subs2 W b nch S x x' nb as ss ss') : Subs2 W b nch S x x' nb (a :: as) (s :: ss) (s' :: ss')

namespace Subs2
variable {b nch S nb : ℕ} {specs : List SubSpec} {subs subs' : List SubConv}

theorem length (h : Subs2 W b nch S x x' nb specs subs subs') : subs.length = specs.length ∧ subs'.length = specs.length := by
  induction h with
  | nil => simp
  | cons _ _ ih => simp [ih.1, ih.2]

theorem specs_ok (h : Subs2 W b nch S x x' nb specs subs subs') : ∀ a ∈ specs, a.e + 2^b ≤ S ∧ 2^b ≤ a.e := by
  induction h with
  | nil => simp
  | cons h _ ih =>
    intro a ha
    rcases List.mem_cons.mp ha with rfl | ha
    · exact ⟨h.fits, h.clear⟩
    · exact ih a ha

theorem win (h : Subs2 W b nch S x x' nb specs subs subs') :
    ∀ a ∈ specs, a.e + (segK (2^(b+a.p)) a.seg + 3) * 2^(b+a.p) ≤ W := by
  induction h with
  | nil => simp
  | cons h _ ih =>
    intro a ha
    rcases List.mem_cons.mp ha with rfl | ha
    · exact h.win
    · exact ih a ha

theorem reset [ZeroBase] (h : Subs2 W b nch S x x' nb specs subs subs') (y y' : ℕ → ℕ → ℝ) :
    Subs2 W b nch S y y' 0 specs (subs.map fun c => { c with td := c.td.reset }) (subs'.map fun c => { c with td := c.td.reset }) := by
  induction h with
  | nil => exact .nil
  | cons h _ ih => exact .cons (h.reset y y') ih

end Subs2

/-- one sub convolver adds its block to the ring -/
theorem addSub_eq {b S nch : ℕ} {a : SubSpec} {ring : Ring} {out : Buf} {delay : ℕ} (hd : delay = a.e + 2^b) (hf : a.e + 2^b ≤ S)
    (h3 : ring.buf.n = S) (h4 : ring.buf.ch = nch) (oc : out.ch = nch) (on : out.n = 2^b) :
    ∃ buf', ring.getNext delay false = some (splitSub S ((ring.head + delay) % S) nch S, ring) ∧
      (splitSub S ((ring.head + delay) % S) nch S).addFromR ring.buf out = some buf' ∧ buf'.n = S ∧ buf'.ch = nch ∧
      ∀ c < nch, ∀ r < S, buf'.data c ((ring.head + 2^b + r) % S) =
        if a.e ≤ r ∧ r - a.e < 2^b then Arith.addF (ring.buf.data c ((ring.head + 2^b + r) % S)) (out.data c (r - a.e))
        else ring.buf.data c ((ring.head + 2^b + r) % S) := by
  have hB : 0 < 2^b := by positivity
  have hS : 0 < S := by omega
  have e2 := getNext_eq (r := ring) (by rw [h3]; exact hS) delay false
  simp only [h3, h4] at e2
  set nx := (ring.head + delay) % S with hnx
  have hnxlt : nx < S := Nat.mod_lt _ hS
  obtain ⟨buf', e3, bn, bc, bd⟩ := split_addFrom (n := S) (nx := nx) (ch := nch) (k := S) hnxlt hS le_rfl (r := ring.buf)
    (block := out) h3 h4 oc (by rw [on]; omega)
  refine ⟨buf', by simpa using e2, e3, bn, bc, ?_⟩
  intro c hc r hr
  by_cases hra : a.e ≤ r
  · have hslot : (ring.head + 2^b + r) % S = slot S nx (r - a.e) := by
      rw [← slot_eq_mod hnxlt (by omega), hnx, Nat.mod_add_mod, hd]
      congr 1; omega
    rw [hslot, bd c _ (by omega)]
    by_cases hlt : r - a.e < 2^b
    · simp only [hra, hlt, and_self, if_true, hc, on]
    · have hn1 : ¬ (a.e ≤ r ∧ r - a.e < 2^b) := by tauto
      have hn2 : ¬ (c < nch ∧ r - a.e < out.n) := by rw [on]; tauto
      simp only [hn1, hn2, if_false]
  · have hslot : (ring.head + 2^b + r) % S = slot S nx (r + S - a.e) := by
      rw [← slot_eq_mod hnxlt (by omega), hnx, Nat.mod_add_mod, hd]
      rw [show ring.head + (a.e + 2^b) + (r + S - a.e) = ring.head + 2^b + r + S by omega, Nat.add_mod_right]
    rw [hslot, bd c _ (by omega)]
    have hn1 : ¬ (a.e ≤ r ∧ r - a.e < 2^b) := by tauto
    have hn2 : ¬ (c < nch ∧ r + S - a.e < out.n) := by rw [on]; intro h; omega
    simp only [hn1, hn2, if_false]

theorem stepSubs2 {b nch S nb : ℕ} {saved saved' : Buf} (hsc : saved.ch = nch) (hsn : saved.n = 2^b) (hsc' : saved'.ch = nch) (hsn' : saved'.n = 2^b)
    (hsd : ∀ c < nch, ∀ i < 2^b, saved.data c i = x c (nb * 2^b + i))
    (hsd' : ∀ c < nch, ∀ i < 2^b, saved'.data c i = x' c (nb * 2^b + i)) :
    ∀ {specs : List SubSpec} {subs subs' : List SubConv}, Subs2 W b nch S x x' nb specs subs subs' →
    ∀ (proc proc' : Buf) (ring ring' : Ring), proc.ch = nch → proc.n = 2^b → proc'.ch = nch → proc'.n = 2^b →
    ring.buf.n = S → ring.buf.ch = nch → ring'.buf.n = S → ring'.buf.ch = nch → ring'.head = ring.head →
    ∃ subs1 proc1 ring1 subs1' proc1' ring1', NUPC.stepSubsR saved subs proc ring = some (subs1, proc1, ring1) ∧
      NUPC.stepSubsR saved' subs' proc' ring' = some (subs1', proc1', ring1') ∧
      Subs2 W b nch S x x' (nb+1) specs subs1 subs1' ∧ proc1.ch = nch ∧ proc1.n = 2^b ∧ proc1'.ch = nch ∧ proc1'.n = 2^b ∧
      ring1.buf.n = S ∧ ring1.buf.ch = nch ∧ ring1'.buf.n = S ∧ ring1'.buf.ch = nch ∧ ring1.head = ring.head ∧ ring1'.head = ring.head ∧
      ∀ c < nch, ∀ r < S, ∀ a0, SameFrom a0 (x c) (x' c) → (∀ a ∈ specs, a.e ≤ r → r - a.e < 2^b →
          a0 ≤ nb * 2^b + (r - a.e) + 1 - (segK (2^(b+a.p)) a.seg + 3) * 2^(b+a.p)) →
        ring.buf.data c ((ring.head + 2^b + r) % S) = ring'.buf.data c ((ring.head + 2^b + r) % S) →
        ring1.buf.data c ((ring.head + 2^b + r) % S) = ring1'.buf.data c ((ring.head + 2^b + r) % S) := by
  intro specs subs subs' h
  induction h with
  | nil =>
    intro proc proc' ring ring' h1 h2 h1' h2' h3 h4 h3' h4' hh
    exact ⟨[], proc, ring, [], proc', ring', rfl, rfl, .nil, h1, h2, h1', h2', h3, h4, h3', h4', rfl, hh, fun c _ r _ a0 _ _ h => h⟩
  | @cons a s s' specs subs subs' hs hrest ih =>
    intro proc proc' ring ring' h1 h2 h1' h2' h3 h4 h3' h4' hh
    obtain ⟨m1, out, m1', out', e1, e1', oc, on, oc', on', od, hm⟩ := hs.inv.step (blk := proc.copyFrom saved) (blk' := proc'.copyFrom saved') h1 h2 h1' h2' (by
      intro c hc i hi
      simp only [Buf.copyFrom]
      rw [if_pos ⟨by omega, by omega⟩, hsd c hc i hi]) (by
      intro c hc i hi
      simp only [Buf.copyFrom]
      rw [if_pos ⟨by omega, by omega⟩, hsd' c hc i hi])
    obtain ⟨buf1, e2, e3, bn, bc, bd⟩ := addSub_eq hs.delay hs.fits h3 h4 oc on
    obtain ⟨buf1', e2', e3', bn', bc', bd'⟩ := addSub_eq hs.delay' hs.fits h3' h4' oc' on'
    obtain ⟨subs1, proc1, ring1, subs1', proc1', ring1', e4, e4', f4, pc, pn, pc', pn', rn, rc, rn', rc', rh, rh', rd⟩ :=
      ih out out' { ring with buf := buf1 } { ring' with buf := buf1' } oc on oc' on' bn bc bn' bc' hh
    refine ⟨{ s with td := m1 } :: subs1, proc1, ring1, { s' with td := m1' } :: subs1', proc1', ring1', ?_, ?_, ?_,
      pc, pn, pc', pn', rn, rc, rn', rc', rh, rh', ?_⟩
    · unfold NUPC.stepSubsR
      simp only [e1, e2, e3, e4, Option.bind_eq_bind, Option.bind_some, Option.pure_def]
    · unfold NUPC.stepSubsR
      simp only [e1', e2', e3', e4', Option.bind_eq_bind, Option.bind_some, Option.pure_def]
    · exact .cons ⟨hs.delay, hs.delay', hm, hs.fits, hs.clear, hs.win⟩ f4
    · intro c hc r hr a0 hsame hX hcell
      refine rd c hc r hr a0 hsame (fun a ha => hX a (List.mem_cons_of_mem _ ha)) ?_
      have k' := bd' c hc r hr
      rw [hh] at k'
      show buf1.data c ((ring.head + 2^b + r) % S) = buf1'.data c ((ring.head + 2^b + r) % S)
      rw [bd c hc r hr, k']
      by_cases hra : a.e ≤ r ∧ r - a.e < 2^b
      · rw [if_pos hra, if_pos hra, hcell, od c hc _ hra.2 a0 hsame (hX a (List.mem_cons_self ..) hra.1 hra.2)]
      · rw [if_neg hra, if_neg hra, hcell]

/-- contents of the rings seen from position `p0` -/
structure Ring2 (W b nch S : ℕ) (x x' : ℕ → ℕ → ℝ) (nb col p0 : ℕ) (buf buf' : Buf) : Prop where
  n : buf.n = S
  ch : buf.ch = nch
  n' : buf'.n = S
  ch' : buf'.ch = nch
  data : ∀ c < nch, ∀ r < S, ∀ a, SameFrom a (x c) (x' c) → a ≤ rtime (2^b) S nb col r + 1 - W →
    buf.data c ((p0 + r) % S) = buf'.data c ((p0 + r) % S)

/-- reading and clearing the next `k` results -/
theorem Ring2.read {b nch S : ℕ} {nb col p0 : ℕ} {buf buf' : Buf}
    (h : Ring2 W b nch S x x' nb col p0 buf buf')
    (hBS : 2^b ≤ S) {k : ℕ} (hk : 0 < k) (hck : col + k ≤ 2^b)
    {sub sub' : Buf} (hsn : sub.n = k) (hsc : sub.ch = nch) (hsn' : sub'.n = k) (hsc' : sub'.ch = nch) :
    ∃ out out', (splitSub S ((p0 + col) % S) nch k).addToR buf sub = some out ∧
      (splitSub S ((p0 + col) % S) nch k).addToR buf' sub' = some out' ∧ out.n = k ∧ out.ch = nch ∧ out'.n = k ∧ out'.ch = nch ∧
      (∀ c < nch, ∀ i < k, ∀ a, SameFrom a (x c) (x' c) → a ≤ nb * 2^b + col + i + 1 - W → sub.data c i = sub'.data c i →
        out.data c i = out'.data c i) ∧
      Ring2 W b nch S x x' nb (col + k) p0 ((splitSub S ((p0 + col) % S) nch k).clear buf)
        ((splitSub S ((p0 + col) % S) nch k).clear buf') := by
  have hB : 0 < 2^b := by positivity
  have hS : 0 < S := by omega
  have hnx : (p0 + col) % S < S := Nat.mod_lt _ hS
  obtain ⟨out, e1, on, oc, od⟩ := split_addTo (n := S) (nx := (p0 + col) % S) (ch := nch) (k := k) hnx hk (by omega)
    (r := buf) (block := sub) hsn hsc
  obtain ⟨out', e1', on', oc', od'⟩ := split_addTo (n := S) (nx := (p0 + col) % S) (ch := nch) (k := k) hnx hk (by omega)
    (r := buf') (block := sub') hsn' hsc'
  obtain ⟨cn, cc, cd⟩ := split_clear (n := S) (nx := (p0 + col) % S) (ch := nch) (k := k) hnx hk (by omega)
    (r := buf) h.n h.ch
  obtain ⟨cn', cc', cd'⟩ := split_clear (n := S) (nx := (p0 + col) % S) (ch := nch) (k := k) hnx hk (by omega)
    (r := buf') h.n' h.ch'
  have hpos : ∀ j, (((p0 + col) % S) + j) % S = (p0 + (col + j)) % S := by
    intro j; rw [Nat.mod_add_mod, add_assoc]
  refine ⟨out, out', e1, e1', on, oc, on', oc', ?_, ⟨cn, cc, cn', cc', ?_⟩⟩
  · intro c hc i hi a hsame ha hv
    rw [od c i hi, if_pos hc, od' c i hi, if_pos hc, ← slot_eq_mod hnx (by omega), hpos, hv]
    rw [h.data c hc (col + i) (by omega) a hsame (by unfold rtime; rw [if_neg (by omega), ← add_assoc]; exact ha)]
  · intro c hc r hr a hsame ha
    obtain ⟨j, hj, hjr, hcase⟩ : ∃ j < S, (p0 + r) % S = slot S ((p0 + col) % S) j ∧
        ((col ≤ r ∧ j = r - col) ∨ (r < col ∧ j = r + S - col)) := by
      by_cases hcr : col ≤ r
      · refine ⟨r - col, by omega, ?_, Or.inl ⟨hcr, rfl⟩⟩
        rw [← slot_eq_mod hnx (by omega), hpos]; congr 2; omega
      · refine ⟨r + S - col, by omega, ?_, Or.inr ⟨by omega, rfl⟩⟩
        rw [← slot_eq_mod hnx (by omega), hpos, show p0 + (col + (r + S - col)) = p0 + r + S by omega,
          Nat.add_mod_right]
    rw [hjr, cd c j hj, cd' c j hj]
    by_cases hjk : j < k
    · rw [if_pos ⟨hc, hjk⟩, if_pos ⟨hc, hjk⟩]
    · rw [if_neg (by tauto), if_neg (by tauto), ← hjr]
      have ht : rtime (2^b) S nb (col + k) r = rtime (2^b) S nb col r := by
        unfold rtime
        by_cases hcr : r < col
        · rw [if_pos hcr, if_pos (by omega)]
        · rw [if_neg hcr, if_neg (by omega)]
      rw [ht] at ha
      exact h.data c hc r hr a hsame ha

/-- the next block starts -/
theorem Ring2.next {b nch S : ℕ} {nb p0 : ℕ} {buf buf' : Buf} (hBS : 2^b ≤ S)
    (h : Ring2 W b nch S x x' nb (2^b) p0 buf buf') : Ring2 W b nch S x x' (nb+1) 0 (p0 + 2^b) buf buf' := by
  refine ⟨h.n, h.ch, h.n', h.ch', fun c hc r hr a hsame ha => ?_⟩
  have h1 : (nb+1) * 2^b = nb * 2^b + 2^b := by ring
  by_cases hlt : r + 2^b < S
  · have ht : rtime (2^b) S (nb+1) 0 r = rtime (2^b) S nb (2^b) (r + 2^b) := by
      unfold rtime
      rw [if_neg (by omega), if_neg (by omega), h1]
      omega
    rw [show p0 + 2^b + r = p0 + (r + 2^b) by omega]
    rw [ht] at ha
    exact h.data c hc _ hlt a hsame ha
  · have ht : rtime (2^b) S (nb+1) 0 r = rtime (2^b) S nb (2^b) (r + 2^b - S) := by
      unfold rtime
      rw [if_neg (by omega), if_pos (by omega), h1]
      omega
    rw [show p0 + 2^b + r = p0 + (r + 2^b - S) + S by omega, Nat.add_mod_right]
    rw [ht] at ha
    exact h.data c hc _ (by omega) a hsame ha

/-! ## The whole convolver -/

/-- the parts of the states that are only used when there are sub convolvers -/
structure NSubs2 (W : ℕ) (c : NPar) (x x' : ℕ → ℕ → ℝ) (nb col : ℕ) (s s' : NUPC) : Prop where
  ex : ∃ b S, c.B = 2^b ∧ 2^b ≤ S ∧ Subs2 W b c.nch S x x' nb c.specs s.subs s'.subs ∧
    Ring2 W b c.nch S x x' nb col (s.ring.head + 2^b) s.ring.buf s'.ring.buf
  head : s'.ring.head = s.ring.head
  savedCh : s.saved.ch = c.nch
  savedN : s.saved.n = c.B
  saved : ∀ ch < c.nch, ∀ i < col, s.saved.data ch i = x ch (nb * c.B + i)
  procCh : s.proc.ch = c.nch
  procN : s.proc.n = c.B
  savedCh' : s'.saved.ch = c.nch
  savedN' : s'.saved.n = c.B
  saved' : ∀ ch < c.nch, ∀ i < col, s'.saved.data ch i = x' ch (nb * c.B + i)
  procCh' : s'.proc.ch = c.nch
  procN' : s'.proc.n = c.B

/-- states after `t` samples since the start or the last reset -/
structure N2Inv (W : ℕ) (c : NPar) (x x' : ℕ → ℕ → ℝ) (t : ℕ) (s s' : NUPC) : Prop where
  upc : U2Inv (uPar c.B c.nch c.seg0) x x' t s.upc s'.upc
  win : (uPar c.B c.nch c.seg0).N + segK c.B c.seg0 * c.B ≤ W
  blockSize : s.blockSize = c.B
  blockSize' : s'.blockSize = c.B
  col : s.collected = t % c.B
  col' : s'.collected = t % c.B
  subs : (c.specs = [] ∧ s.subs = [] ∧ s'.subs = []) ∨ (s.subs ≠ [] ∧ s'.subs ≠ [] ∧ NSubs2 W c x x' (t / c.B) (t % c.B) s s')

/-- what `collect` stores -/
theorem collect_saved {c : NPar} {x : ℕ → ℕ → ℝ} {nb col k : ℕ} {saved sub : Buf} (hc0 : saved.ch = c.nch) (hn0 : saved.n = c.B)
    (hs : ∀ ch < c.nch, ∀ i < col, saved.data ch i = x ch (nb * c.B + i)) (hk : 0 < k) (hck : col + k ≤ c.B) (hsn : sub.n = k)
    (hsc : sub.ch = c.nch) (hin : ∀ ch < c.nch, ∀ i < k, sub.data ch i = x ch (nb * c.B + col + i)) :
    ∃ dst, saved.sub col (saved.n - col) = some dst ∧
      ∀ ch < c.nch, ∀ i < col + k, (saved.put col (dst.copyFrom sub)).data ch i = x ch (nb * c.B + i) := by
  refine ⟨⟨c.nch, c.B - col, fun ch i => saved.data ch (col + i)⟩, ?_, ?_⟩
  · unfold Buf.sub; rw [hn0, hc0, if_pos ⟨by omega, by omega⟩]
  · intro ch hc i hi
    simp only [Buf.put, Buf.copyFrom, hc0, hsn, hsc]
    by_cases hlt : i < col
    · rw [if_neg (by omega), hs ch hc i hlt]
    · rw [if_pos ⟨hc, by omega, by omega⟩, if_pos ⟨by omega, by omega⟩, hin ch hc _ (by omega)]
      congr 1; omega

/-- the sub convolver part of one iteration: collect, then (with any uniform convolver state) add the results -/
theorem NSubs2.step {c : NPar} {nb col : ℕ} {s s' : NUPC} (h : NSubs2 W c x x' nb col s s') (hne : s.subs ≠ []) (hne' : s'.subs ≠ [])
    (hbs : s.blockSize = c.B) (hcol : s.collected = col) (hbs' : s'.blockSize = c.B) (hcol' : s'.collected = col)
    {k : ℕ} (hk : 0 < k) (hck : col + k ≤ c.B)
    {sub sub' : Buf} (hsn : sub.n = k) (hsc : sub.ch = c.nch) (hsn' : sub'.n = k) (hsc' : sub'.ch = c.nch)
    (hin : ∀ ch < c.nch, ∀ i < k, sub.data ch i = x ch (nb * c.B + col + i))
    (hin' : ∀ ch < c.nch, ∀ i < k, sub'.data ch i = x' ch (nb * c.B + col + i)) :
    ∃ s1 s1', s.collectR sub k = some s1 ∧ s'.collectR sub' k = some s1' ∧ s1.upc = s.upc ∧ s1'.upc = s'.upc ∧
      ∀ (u u' : UPC) (o o' : Buf), o.n = k → o.ch = c.nch → o'.n = k → o'.ch = c.nch →
        ∃ s2 out s2' out', { s1 with upc := u }.addResultsR o k = some (s2, out) ∧
          { s1' with upc := u' }.addResultsR o' k = some (s2', out') ∧ out.n = k ∧ out.ch = c.nch ∧ out'.n = k ∧ out'.ch = c.nch ∧
          (∀ ch < c.nch, ∀ i < k, ∀ a, SameFrom a (x ch) (x' ch) → a ≤ nb * c.B + col + i + 1 - W → o.data ch i = o'.data ch i →
            out.data ch i = out'.data ch i) ∧
          s2.upc = u ∧ s2.subs ≠ [] ∧ s2.blockSize = c.B ∧ s2.collected = col ∧
          s2'.upc = u' ∧ s2'.subs ≠ [] ∧ s2'.blockSize = c.B ∧ s2'.collected = col ∧
          (col + k < c.B → NSubs2 W c x x' nb (col + k) s2 s2') ∧ (col + k = c.B → NSubs2 W c x x' (nb+1) 0 s2 s2') := by
  obtain ⟨b, S, hB, hBS, hF, hR⟩ := h.ex
  have hBpos : 0 < 2^b := by positivity
  have hS : 0 < S := by omega
  have hspecs := hF.specs_ok
  have hwin := hF.win
  have hlen : 0 < s.subs.length := List.length_pos_iff.mpr hne
  have hlen' : 0 < s'.subs.length := List.length_pos_iff.mpr hne'
  obtain ⟨dst, hsub, hsv⟩ := collect_saved h.savedCh h.savedN h.saved hk hck hsn hsc hin
  obtain ⟨dst', hsub', hsv'⟩ := collect_saved h.savedCh' h.savedN' h.saved' hk hck hsn' hsc' hin'
  rw [← hcol] at hsub hsv
  rw [← hcol'] at hsub' hsv'
  set saved1 := s.saved.put s.collected (dst.copyFrom sub) with hsaved1
  set saved1' := s'.saved.put s'.collected (dst'.copyFrom sub') with hsaved1'
  by_cases hfull : col + k = c.B
  · have hmod : (s.collected + k) % s.blockSize = 0 := by rw [hcol, hbs, hfull, Nat.mod_self]
    have hmod' : (s'.collected + k) % s'.blockSize = 0 := by rw [hcol', hbs', hfull, Nat.mod_self]
    obtain ⟨subs1, proc1, ring1, subs1', proc1', ring1', e1, e1', f1, pc, pn, pc', pn', rn, rc, rn', rc', rh, rh', rd⟩ :=
      stepSubs2 (W := W) (x := x) (x' := x') (saved := saved1) (saved' := saved1') (S := S) (nb := nb) (b := b) (nch := c.nch)
      h.savedCh (by rw [← hB]; exact h.savedN) h.savedCh' (by rw [← hB]; exact h.savedN')
      (by intro ch hc i hi; rw [← hB]; exact hsv ch hc i (by omega))
      (by intro ch hc i hi; rw [← hB]; exact hsv' ch hc i (by omega))
      hF s.proc s'.proc s.ring s'.ring h.procCh (by rw [← hB]; exact h.procN) h.procCh' (by rw [← hB]; exact h.procN')
      hR.n hR.ch hR.n' hR.ch' h.head
    have e2 := getNext_eq (r := ring1) (by rw [rn]; exact hS) s.blockSize true
    have e2' := getNext_eq (r := ring1') (by rw [rn']; exact hS) s'.blockSize true
    have l0 := hF.length
    have l1 := f1.length
    have hlen1 : 0 < subs1.length := by omega
    have hlen1' : 0 < subs1'.length := by omega
    have hne1 : subs1 ≠ [] := List.length_pos_iff.mp hlen1
    have hne1' : subs1' ≠ [] := List.length_pos_iff.mp hlen1'
    refine ⟨{ s with
        saved := saved1
        subs := subs1
        proc := proc1
        ring := { ring1 with head := (ring1.head + s.blockSize) % ring1.buf.n } }, { s' with
        saved := saved1'
        subs := subs1'
        proc := proc1'
        ring := { ring1' with head := (ring1'.head + s'.blockSize) % ring1'.buf.n } }, ?_, ?_, rfl, rfl, ?_⟩
    · unfold NUPC.collectR
      rw [if_pos hlen]
      simp only [hsub, Option.bind_eq_bind, Option.bind_some]
      rw [if_pos hmod]
      simp only [← hsaved1, e1, Option.bind_some]
      rw [e2]
      rfl
    · unfold NUPC.collectR
      rw [if_pos hlen']
      simp only [hsub', Option.bind_eq_bind, Option.bind_some]
      rw [if_pos hmod']
      simp only [← hsaved1', e1', Option.bind_some]
      rw [e2']
      rfl
    · intro u u' o o' on oc on' oc'
      have hmid : Ring2 W b c.nch S x x' nb col (s.ring.head + 2^b) ring1.buf ring1'.buf := by
        refine ⟨rn, rc, rn', rc', fun ch hc r hr a0 hsame ha => ?_⟩
        refine rd ch hc r hr a0 hsame (fun a ha' h1 h2 => ?_) (hR.data ch hc r hr a0 hsame ha)
        have h3 := hspecs a ha'
        have h4 := hwin a ha'
        unfold rtime at ha
        rw [if_neg (by omega)] at ha
        omega
      obtain ⟨out, out', e3, e3', on2, oc2, on2', oc2', od, hclr⟩ := hmid.read hBS hk (by omega) on oc on' oc'
      have hp : ((ring1.head + s.blockSize) % ring1.buf.n +
          (s.collected + if (s.collected + k) % s.blockSize = 0 then 0 else s.blockSize)) % S =
          (s.ring.head + 2^b + col) % S := by
        rw [if_pos hmod, rn, Nat.mod_add_mod, rh, hbs, hB, hcol, add_zero]
      have hp' : ((ring1'.head + s'.blockSize) % ring1'.buf.n +
          (s'.collected + if (s'.collected + k) % s'.blockSize = 0 then 0 else s'.blockSize)) % S =
          (s.ring.head + 2^b + col) % S := by
        rw [if_pos hmod', rn', Nat.mod_add_mod, rh', hbs', hB, hcol', add_zero]
      refine ⟨_, out, _, out', addResults_some hlen1 rn rc hS hk (by omega) hp e3,
        addResults_some hlen1' rn' rc' hS hk (by omega) hp' e3', on2, oc2, on2', oc2', ?_, rfl, hne1, hbs, hcol, rfl, hne1', hbs', hcol', ?_, ?_⟩
      · intro ch hc i hi a hsame ha hv
        rw [hB] at ha
        exact od ch hc i hi a hsame ha hv
      · intro hh; omega
      · intro _
        refine ⟨⟨b, S, hB, hBS, f1, ?_⟩, ?_, h.savedCh, h.savedN, fun ch _ i hi => absurd hi (by omega), pc, by rw [hB]; exact pn,
          h.savedCh', h.savedN', fun ch _ i hi => absurd hi (by omega), pc', by rw [hB]; exact pn'⟩
        · have hckB : col + k = 2^b := by omega
          rw [hckB] at hclr
          have hfin := hclr.next hBS
          refine ⟨hfin.n, hfin.ch, hfin.n', hfin.ch', fun ch hc r hr a hsame ha => ?_⟩
          have := hfin.data ch hc r hr a hsame ha
          have hpos : ((ring1.head + s.blockSize) % ring1.buf.n + 2^b + r) % S = (s.ring.head + 2^b + 2^b + r) % S := by
            rw [rn, add_assoc, Nat.mod_add_mod, rh, hbs, hB]
            congr 1; omega
          rw [← hpos] at this
          exact this
        · show (ring1'.head + s'.blockSize) % ring1'.buf.n = (ring1.head + s.blockSize) % ring1.buf.n
          rw [rh, rh', rn, rn', hbs, hbs']
  · have hmod : ¬ (s.collected + k) % s.blockSize = 0 := by
      rw [hcol, hbs, Nat.mod_eq_of_lt (by omega)]; omega
    have hmod' : ¬ (s'.collected + k) % s'.blockSize = 0 := by
      rw [hcol', hbs', Nat.mod_eq_of_lt (by omega)]; omega
    refine ⟨{ s with saved := saved1 }, { s' with saved := saved1' }, ?_, ?_, rfl, rfl, ?_⟩
    · unfold NUPC.collectR
      rw [if_pos hlen]
      simp only [hsub, Option.bind_eq_bind, Option.bind_some]
      rw [if_neg hmod]
    · unfold NUPC.collectR
      rw [if_pos hlen']
      simp only [hsub', Option.bind_eq_bind, Option.bind_some]
      rw [if_neg hmod']
    · intro u u' o o' on oc on' oc'
      obtain ⟨out, out', e3, e3', on2, oc2, on2', oc2', od, hclr⟩ := hR.read hBS hk (by omega) on oc on' oc'
      have hp : (s.ring.head +
          (s.collected + if (s.collected + k) % s.blockSize = 0 then 0 else s.blockSize)) % S =
          (s.ring.head + 2^b + col) % S := by
        rw [if_neg hmod, hbs, hB, hcol]; congr 1; omega
      have hp' : (s'.ring.head +
          (s'.collected + if (s'.collected + k) % s'.blockSize = 0 then 0 else s'.blockSize)) % S =
          (s.ring.head + 2^b + col) % S := by
        rw [if_neg hmod', hbs', hB, hcol', h.head]; congr 1; omega
      refine ⟨_, out, _, out', addResults_some hlen hR.n hR.ch hS hk (by omega) hp e3,
        addResults_some hlen' hR.n' hR.ch' hS hk (by omega) hp' e3', on2, oc2, on2', oc2', ?_, rfl, hne, hbs, hcol, rfl, hne', hbs', hcol', ?_, ?_⟩
      · intro ch hc i hi a hsame ha hv
        rw [hB] at ha
        exact od ch hc i hi a hsame ha hv
      · intro _
        rw [hcol] at hsv
        rw [hcol'] at hsv'
        exact ⟨⟨b, S, hB, hBS, hF, hclr⟩, h.head, h.savedCh, h.savedN, hsv, h.procCh, h.procN,
          h.savedCh', h.savedN', hsv', h.procCh', h.procN'⟩
      · intro hh; omega

/-- a sub block of the given block -/
theorem sub_some {blk : Buf} {nch done k : ℕ} (hk : 0 < k) (hd : done + k ≤ blk.n) (hch : blk.ch = nch) :
    blk.sub done k = some ⟨nch, k, fun ch i => blk.data ch (done + i)⟩ := by
  unfold Buf.sub; rw [if_pos ⟨by omega, hd⟩, hch]

/-- the given block with a part of it replaced -/
theorem put_at {blk out : Buf} {nch done k : ℕ} (hch : blk.ch = nch) (hon : out.n = k) {ch i : ℕ} (hc : ch < nch) :
    (blk.put done out).data ch i = if done ≤ i ∧ i < done + k then out.data ch (i - done) else blk.data ch i := by
  simp only [Buf.put, hon, hch, hc, true_and]

theorem N2Inv.body {E : RealFFT} (hE : HalfSpectrum E) {c : NPar} {t : ℕ} {s s' : NUPC} (h : N2Inv W c x x' t s s')
    (hB : 0 < c.B) {blk blk' : Buf} {done k : ℕ} (hk : 0 < k) (hck : t % c.B + k ≤ c.B) (hd : done + k ≤ blk.n) (hd' : done + k ≤ blk'.n)
    (hch : blk.ch = c.nch) (hch' : blk'.ch = c.nch) (hin : ∀ ch < c.nch, ∀ i < k, blk.data ch (done + i) = x ch (t + i))
    (hin' : ∀ ch < c.nch, ∀ i < k, blk'.data ch (done + i) = x' ch (t + i)) :
    ∃ s1 out s1' out', s.bodyR E blk done k = some (s1, out) ∧ s'.bodyR E blk' done k = some (s1', out') ∧
      out.n = blk.n ∧ out.ch = c.nch ∧ out'.n = blk'.n ∧ out'.ch = c.nch ∧
      (∀ ch < c.nch, ∀ i < blk.n, done ≤ i → i < done + k → ∀ a, SameFrom a (x ch) (x' ch) → a ≤ t + (i - done) + 1 - W →
        out.data ch i = out'.data ch i) ∧
      (∀ ch < c.nch, ∀ i < blk.n, ¬ (done ≤ i ∧ i < done + k) → out.data ch i = blk.data ch i ∧ out'.data ch i = blk'.data ch i) ∧
      N2Inv W c x x' (t + k) s1 s1' := by
  have hsub := sub_some (nch := c.nch) hk hd hch
  have hsub' := sub_some (nch := c.nch) hk hd' hch'
  set sub : Buf := ⟨c.nch, k, fun ch i => blk.data ch (done + i)⟩ with hsubdef
  set sub' : Buf := ⟨c.nch, k, fun ch i => blk'.data ch (done + i)⟩ with hsubdef'
  have hdm := Nat.div_add_mod t c.B
  have hnbt : t / c.B * c.B + t % c.B = t := by rw [mul_comm]; exact hdm
  have hlt := Nat.mod_lt t hB
  obtain ⟨u, o, u', o', eu, eu', on, oc, on', oc', od, hu⟩ := h.upc.step hE (blk := sub) (blk' := sub') rfl rfl rfl hin hin'
  have od' : ∀ ch < c.nch, ∀ i < k, ∀ a, SameFrom a (x ch) (x' ch) → a ≤ t + i + 1 - W → o.data ch i = o'.data ch i := by
    intro ch hc i hi a hsame ha
    have hw := h.win
    exact od ch hc i hi a hsame (by
      show a ≤ t + i + 1 - ((uPar c.B c.nch c.seg0).N + segK c.B c.seg0 * c.B)
      omega)
  have hmod : (t + k) % c.B = (t % c.B + k) % c.B := by rw [Nat.mod_add_mod]
  unfold NUPC.bodyR
  simp only [hsub, hsub', Option.bind_eq_bind, Option.bind_some]
  have fin : ∀ (out out' : Buf), out.n = k → out'.n = k → (∀ ch < c.nch, ∀ i < k, ∀ a, SameFrom a (x ch) (x' ch) → a ≤ t + i + 1 - W →
        out.data ch i = out'.data ch i) →
      (∀ ch < c.nch, ∀ i < blk.n, done ≤ i → i < done + k → ∀ a, SameFrom a (x ch) (x' ch) → a ≤ t + (i - done) + 1 - W →
        (blk.put done out).data ch i = (blk'.put done out').data ch i) := by
    intro out out' hon hon' hout ch hc i hi h1 h2 a hsame ha
    rw [put_at hch hon hc, put_at hch' hon' hc, if_pos ⟨h1, h2⟩, if_pos ⟨h1, h2⟩]
    exact hout ch hc _ (by omega) a hsame ha
  have fin' : ∀ (out out' : Buf), out.n = k → out'.n = k → ∀ ch < c.nch, ∀ i < blk.n, ¬ (done ≤ i ∧ i < done + k) →
      (blk.put done out).data ch i = blk.data ch i ∧ (blk'.put done out').data ch i = blk'.data ch i := by
    intro out out' hon hon' ch hc i hi h1
    rw [put_at hch hon hc, put_at hch' hon' hc, if_neg h1, if_neg h1]
    exact ⟨rfl, rfl⟩
  rcases h.subs with ⟨hs1, hs2, hs2'⟩ | ⟨hne, hne', hns⟩
  · have hcl : s.collectR sub k = some s := by
      unfold NUPC.collectR; rw [if_neg (by rw [hs2]; simp)]
    have hcl' : s'.collectR sub' k = some s' := by
      unfold NUPC.collectR; rw [if_neg (by rw [hs2']; simp)]
    rw [hcl, hcl']
    simp only [Option.bind_some, eu, eu']
    have har : NUPC.addResultsR { s with upc := u } o k = some ({ s with upc := u }, o) := by
      unfold NUPC.addResultsR; rw [if_neg (by simp only [hs2]; simp)]
    have har' : NUPC.addResultsR { s' with upc := u' } o' k = some ({ s' with upc := u' }, o') := by
      unfold NUPC.addResultsR; rw [if_neg (by simp only [hs2']; simp)]
    rw [har, har']
    simp only [Option.bind_some]
    refine ⟨_, _, _, _, rfl, rfl, rfl, hch, rfl, hch', fin o o' on on' od', fin' o o' on on',
      ⟨hu, h.win, h.blockSize, h.blockSize', ?_, ?_, Or.inl ⟨hs1, hs2, hs2'⟩⟩⟩
    · show (s.collected + k) % s.blockSize = (t + k) % c.B
      rw [h.col, h.blockSize, hmod]
    · show (s'.collected + k) % s'.blockSize = (t + k) % c.B
      rw [h.col', h.blockSize', hmod]
  · obtain ⟨s1, s1', e1, e1', u1, u1', hres⟩ := hns.step hne hne' h.blockSize h.col h.blockSize' h.col' (sub := sub) (sub' := sub') hk hck rfl rfl rfl rfl
      (by intro ch hc i hi; rw [hnbt]; exact hin ch hc i hi) (by intro ch hc i hi; rw [hnbt]; exact hin' ch hc i hi)
    obtain ⟨s2, out, s2', out', e2, e2', on2, oc2, on2', oc2', od2, u2, ne2, b2, c2, u2', ne2', b2', c2', hA, hC⟩ := hres u u' o o' on oc on' oc'
    rw [e1, e1']
    simp only [Option.bind_some]
    rw [u1, eu, u1', eu']
    simp only [Option.bind_some]
    rw [e2, e2']
    simp only [Option.bind_some]
    refine ⟨_, _, _, _, rfl, rfl, rfl, hch, rfl, hch', fin out out' on2 on2' ?_, fin' out out' on2 on2',
      ⟨?_, h.win, b2, b2', ?_, ?_, Or.inr ⟨ne2, ne2', ?_⟩⟩⟩
    · intro ch hc i hi a hsame ha
      exact od2 ch hc i hi a hsame (by rw [hnbt]; exact ha) (od' ch hc i hi a hsame ha)
    · show U2Inv _ _ _ _ s2.upc s2'.upc
      rw [u2, u2']; exact hu
    · show (s2.collected + k) % s2.blockSize = (t + k) % c.B
      rw [b2, c2, hmod]
    · show (s2'.collected + k) % s2'.blockSize = (t + k) % c.B
      rw [b2', c2', hmod]
    · have conv : ∀ {nb col : ℕ}, NSubs2 W c x x' nb col s2 s2' →
          NSubs2 W c x x' nb col { s2 with collected := (s2.collected + k) % s2.blockSize }
            { s2' with collected := (s2'.collected + k) % s2'.blockSize } := by
        intro nb col hh
        exact ⟨hh.ex, hh.head, hh.savedCh, hh.savedN, hh.saved, hh.procCh, hh.procN, hh.savedCh', hh.savedN', hh.saved', hh.procCh', hh.procN'⟩
      rcases Nat.lt_or_ge (t % c.B + k) c.B with hlt2 | hge
      · have h1 : (t + k) / c.B = t / c.B := by
          apply Nat.div_eq_of_lt_le
          · omega
          · rw [Nat.add_mul]; omega
        rw [h1, hmod, Nat.mod_eq_of_lt hlt2]
        exact conv (hA hlt2)
      · have heq : t % c.B + k = c.B := by omega
        have h1 : (t + k) / c.B = t / c.B + 1 := by
          apply Nat.div_eq_of_lt_le
          · rw [Nat.add_mul]; omega
          · rw [Nat.add_mul, Nat.add_mul]; omega
        rw [h1, hmod, heq, Nat.mod_self]
        exact conv (hC heq)

theorem N2Inv.loop {E : RealFFT} (hE : HalfSpectrum E) {c : NPar} (hB : 0 < c.B) (fuel : ℕ) :
    ∀ {t : ℕ} {s s' : NUPC} {blk blk' : Buf} {done : ℕ}, N2Inv W c x x' t s s' → blk.ch = c.nch → blk'.ch = c.nch → blk'.n = blk.n →
    done ≤ blk.n →
    (done < blk.n → blk.n - done + t % c.B ≤ fuel * c.B) →
    (∀ ch < c.nch, ∀ i < blk.n - done, blk.data ch (done + i) = x ch (t + i)) →
    (∀ ch < c.nch, ∀ i < blk.n - done, blk'.data ch (done + i) = x' ch (t + i)) →
    ∃ s1 out s1' out', NUPC.loopR E fuel s blk done = some (s1, out) ∧ NUPC.loopR E fuel s' blk' done = some (s1', out') ∧
      out.n = blk.n ∧ out.ch = c.nch ∧ out'.n = blk.n ∧ out'.ch = c.nch ∧
      (∀ ch < c.nch, ∀ i < blk.n, done ≤ i → ∀ a, SameFrom a (x ch) (x' ch) → a ≤ t + (i - done) + 1 - W →
        out.data ch i = out'.data ch i) ∧
      (∀ ch < c.nch, ∀ i < blk.n, i < done → out.data ch i = blk.data ch i ∧ out'.data ch i = blk'.data ch i) ∧
      N2Inv W c x x' (t + (blk.n - done)) s1 s1' := by
  induction fuel with
  | zero =>
    intro t s s' blk blk' done h hch hch' hnn hdn hfuel hin hin'
    have hdn' : ¬ done < blk.n := fun hc => by have := hfuel hc; omega
    exact ⟨s, blk, s', blk', by unfold NUPC.loopR; rw [if_neg hdn'], by unfold NUPC.loopR; rw [if_neg (by rw [hnn]; exact hdn')], rfl, hch, hnn, hch',
      fun ch _ i hi hdi => by omega, fun _ _ _ _ _ => ⟨rfl, rfl⟩, by rw [show blk.n - done = 0 by omega]; exact h⟩
  | succ fuel ih =>
    intro t s s' blk blk' done h hch hch' hnn hdn hfuel hin hin'
    by_cases hlt : done < blk.n
    · have hm := Nat.mod_lt t hB
      set k := min (blk.n - done) (c.B - t % c.B) with hkdef
      have hk : 0 < k := by omega
      obtain ⟨s1, b1, s1', b1', e1, e1', n1, c1, n1', c1', g1, d1, h1⟩ := h.body hE hB (blk := blk) (blk' := blk') (done := done) (k := k) hk (by omega)
        (by omega) (by omega) hch hch'
        (fun ch hc i hi => hin ch hc i (by omega)) (fun ch hc i hi => hin' ch hc i (by omega))
      obtain ⟨s2, b2, s2', b2', e2, e2', n2, c2, n2', c2', g2, d2, h2⟩ := ih h1 (blk := b1) (blk' := b1') (done := done + k) c1 c1' (by omega) (by omega)
        (by
          intro hlt2
          rw [n1] at hlt2 ⊢
          have hf := hfuel hlt
          have hmod : (t + k) % c.B = 0 := by
            have : t % c.B + k = c.B := by omega
            rw [← Nat.mod_add_mod, this, Nat.mod_self]
          rw [Nat.add_mul, one_mul] at hf
          omega)
        (by
          intro ch hc i hi
          rw [n1] at hi
          rw [(d1 ch hc _ (by omega) (by omega)).1, show done + k + i = done + (k + i) by omega,
            hin ch hc _ (by omega)]
          congr 1; omega)
        (by
          intro ch hc i hi
          rw [n1] at hi
          rw [(d1 ch hc _ (by omega) (by omega)).2, show done + k + i = done + (k + i) by omega,
            hin' ch hc _ (by omega)]
          congr 1; omega)
      refine ⟨s2, b2, s2', b2', ?_, ?_, by rw [n2, n1], c2, by rw [n2', n1], c2', ?_, ?_, ?_⟩
      · unfold NUPC.loopR
        rw [if_pos hlt]
        simp only [h.col, h.blockSize, Option.bind_eq_bind]
        rw [← hkdef, e1]
        exact e2
      · unfold NUPC.loopR
        rw [if_pos (by rw [hnn]; exact hlt)]
        simp only [h.col', h.blockSize', Option.bind_eq_bind, hnn]
        rw [← hkdef, e1']
        exact e2'
      · intro ch hc i hi hdi a hsame ha
        by_cases h3 : done + k ≤ i
        · exact g2 ch hc i (by rw [n1]; exact hi) h3 a hsame (by omega)
        · have hh := d2 ch hc i (by rw [n1]; exact hi) (by omega)
          rw [hh.1, hh.2]
          exact g1 ch hc i hi hdi (by omega) a hsame ha
      · intro ch hc i hi hdi
        have hh := d2 ch hc i (by rw [n1]; exact hi) (by omega)
        rw [hh.1, hh.2]
        exact d1 ch hc i hi (by omega)
      · rw [n1, show t + k + (blk.n - (done + k)) = t + (blk.n - done) by omega] at h2
        exact h2
    · exact ⟨s, blk, s', blk', by unfold NUPC.loopR; rw [if_neg hlt], by unfold NUPC.loopR; rw [if_neg (by rw [hnn]; exact hlt)], rfl, hch, hnn, hch',
        fun ch _ i hi hdi => by omega, fun _ _ _ _ _ => ⟨rfl, rfl⟩, by rw [show blk.n - done = 0 by omega]; exact h⟩

theorem N2Inv.step {E : RealFFT} (hE : HalfSpectrum E) {c : NPar}
    (hB : 0 < c.B) {t : ℕ} {s s' : NUPC} {blk blk' : Buf} (h : N2Inv W c x x' t s s') (hch : blk.ch = c.nch) (hch' : blk'.ch = c.nch)
    (hnn : blk'.n = blk.n) (hin : ∀ ch < c.nch, ∀ i < blk.n, blk.data ch i = x ch (t + i))
    (hin' : ∀ ch < c.nch, ∀ i < blk.n, blk'.data ch i = x' ch (t + i)) :
    ∃ s1 out s1' out', s.processR E blk = some (s1, out) ∧ s'.processR E blk' = some (s1', out') ∧
      out.n = blk.n ∧ out.ch = c.nch ∧ out'.n = blk.n ∧ out'.ch = c.nch ∧
      (∀ ch < c.nch, ∀ i < blk.n, ∀ a, SameFrom a (x ch) (x' ch) → a ≤ t + i + 1 - W → out.data ch i = out'.data ch i) ∧
      N2Inv W c x x' (t + blk.n) s1 s1' := by
  obtain ⟨s1, out, s1', out', e, e', n, cc, n', cc', g, _, h'⟩ := h.loop hE hB blk.n (blk := blk) (blk' := blk') (done := 0) hch hch' hnn (by omega)
    (fun hn => fuel_enough (Nat.mod_lt _ hB) hn) (by intro ch hc i hi; rw [zero_add]; exact hin ch hc i hi)
    (by intro ch hc i hi; rw [zero_add]; exact hin' ch hc i hi)
  exact ⟨s1, out, s1', out', e, by unfold NUPC.processR; rw [hnn]; exact e', n, cc, n', cc', fun ch hc i hi => g ch hc i hi (by omega), h'⟩

theorem N2Inv.reset [ZeroBase] {c : NPar} {t : ℕ} {s s' : NUPC} (h : N2Inv W c x x' t s s')
    (y y' : ℕ → ℕ → ℝ) : N2Inv W c y y' 0 s.reset s'.reset := by
  refine ⟨h.upc.reset y y', h.win, h.blockSize, h.blockSize', by simp [NUPC.reset], by simp [NUPC.reset], ?_⟩
  rcases h.subs with ⟨h1, h2, h2'⟩ | ⟨hne, hne', hns⟩
  · exact Or.inl ⟨h1, by simp [NUPC.reset, h2], by simp [NUPC.reset, h2']⟩
  · refine Or.inr ⟨by simp [NUPC.reset, hne], by simp [NUPC.reset, hne'], ?_⟩
    obtain ⟨b, S, hb, hBS, hF, hR⟩ := hns.ex
    rw [Nat.zero_div, Nat.zero_mod]
    refine ⟨⟨b, S, hb, hBS, hF.reset y y', hR.n, hR.ch, hR.n', hR.ch', ?_⟩, hns.head, hns.savedCh, hns.savedN, fun ch _ i hi => absurd hi (by omega),
      hns.procCh, hns.procN, hns.savedCh', hns.savedN', fun ch _ i hi => absurd hi (by omega), hns.procCh', hns.procN'⟩
    intro ch hc r hr a _ _
    have hS : 0 < S := by have : 0 < 2^b := by positivity
                          omega
    show s.ring.buf.clear.data ch _ = s'.ring.buf.clear.data ch _
    simp only [Buf.clear, hR.n, hR.ch, hR.n', hR.ch']
    rw [if_pos ⟨hc, Nat.mod_lt _ hS⟩, if_pos ⟨hc, Nat.mod_lt _ hS⟩]

/-! ## Construction -/

theorem buildSubs2 [ZeroBase] {b nch : ℕ} {ir : Buf} (hch : 0 < nch → 0 < ir.ch) (hn : ir.n ≤ 2^24) (tail0 tail0' : ℕ → ℕ → ℕ → ℕ → ℝ) :
    ∀ (rest : List Layout) (off i : ℕ), GoodRest (2^b) ir.n off rest →
    ∃ subs subs', NUPC.buildSubsR (2^b) nch ir tail0 off i rest = some subs ∧ NUPC.buildSubsR (2^b) nch ir tail0' off i rest = some subs' ∧
      subs.length = rest.length ∧ subs'.length = rest.length ∧
      ∀ last ∈ subs.getLast?, ∃ last' ∈ subs'.getLast?, last'.delay = last.delay ∧ ∀ (W : ℕ), (∀ a ∈ mkSpecs (2^b) ir off rest,
        a.e + (segK (2^(b+a.p)) a.seg + 3) * 2^(b+a.p) ≤ W) → (∀ a ∈ mkSpecs (2^b) ir off rest, ZeroFilter b a.p a.seg) →
        (∀ x x', Subs2 W b nch last.delay x x' 0 (mkSpecs (2^b) ir off rest) subs subs')
  | [], off, i, h => ⟨[], [], rfl, rfl, rfl, rfl, by simp⟩
  | l :: rest, off, i, h => by
    obtain ⟨⟨p, hp, hpsb⟩, hnp, hclr, h24, hoff, hmono, hrest⟩ := h
    have hBpos : 0 < 2^b := by positivity
    obtain ⟨tl, tl', e1, e1', hlen, hlen', htl⟩ := buildSubs2 hch hn tail0 tail0' rest (off + l.samples (2^b)) (i+1) hrest
    have hlog : Nat.log 2 l.psb = p := by rw [hpsb]; exact Nat.log_pow (by norm_num) p
    have hP : l.psb * 2^b = 2^(b+p) := by rw [hpsb, ← pow_add, add_comm]
    have hsamp : 0 < l.samples (2^b) := by
      unfold Layout.samples
      have : 0 < l.psb := by rw [hpsb]; positivity
      positivity
    have hsub : ir.sub off (min (l.samples (2^b)) (ir.n - off)) =
        some ⟨ir.ch, min (l.samples (2^b)) (ir.n - off), fun c i => ir.data c (off + i)⟩ := by
      unfold Buf.sub; rw [if_pos ⟨hoff, by omega⟩]
    set seg : Buf := ⟨ir.ch, min (l.samples (2^b)) (ir.n - off), fun c i => ir.data c (off + i)⟩ with hseg
    obtain ⟨m, m', e2, e2', hm⟩ := M2Inv.create (b := b) (p := p) (nch := nch) hp (seg := seg)
      (by show 0 < min (l.samples (2^b)) (ir.n - off); omega) hch
      (by show min (l.samples (2^b)) (ir.n - off) ≤ 2^24; omega) (by rw [← hP]; exact h24) (tail0 i) (tail0' i)
    rw [← hpsb] at e2 e2'
    refine ⟨⟨m, off + 2^b - 2 * (l.psb * 2^b)⟩ :: tl, ⟨m', off + 2^b - 2 * (l.psb * 2^b)⟩ :: tl', ?_, ?_, by simp [hlen], by simp [hlen'], ?_⟩
    · unfold NUPC.buildSubsR
      simp only
      rw [if_pos hoff.le, hsub]
      simp only [Option.bind_eq_bind, Option.bind_some]
      rw [e2]
      simp only [Option.bind_some]
      rw [if_pos (by omega), e1]
      rfl
    · unfold NUPC.buildSubsR
      simp only
      rw [if_pos hoff.le, hsub]
      simp only [Option.bind_eq_bind, Option.bind_some]
      rw [e2']
      simp only [Option.bind_some]
      rw [if_pos (by omega), e1']
      rfl
    · intro last hlast
      have hdelay : off + 2^b - 2 * (l.psb * 2^b) = (off - 2 * (l.psb * 2^b)) + 2^b := by omega
      have hhead : ∀ W, (∀ a ∈ mkSpecs (2^b) ir off (l :: rest), a.e + (segK (2^(b+a.p)) a.seg + 3) * 2^(b+a.p) ≤ W) →
          (∀ a ∈ mkSpecs (2^b) ir off (l :: rest), ZeroFilter b a.p a.seg) → ∀ x x' S,
          off - 2 * (l.psb * 2^b) + 2^b ≤ S → Sub2 W b nch S x x' 0
          ⟨off - 2 * (l.psb * 2^b), Nat.log 2 l.psb, seg⟩ ⟨m, off + 2^b - 2 * (l.psb * 2^b)⟩ ⟨m', off + 2^b - 2 * (l.psb * 2^b)⟩ := by
        intro W hW hZ x x' S hS
        have hcl : 2^b ≤ off - 2 * (l.psb * 2^b) := by omega
        have hk := hW _ (by unfold mkSpecs; exact List.mem_cons_self ..)
        refine ⟨hdelay, hdelay, ?_, hS, hcl, hk⟩
        show M2Inv b (Nat.log 2 l.psb) seg nch x x' 0 m m'
        have hz := hZ _ (by unfold mkSpecs; exact List.mem_cons_self ..)
        simp only [hlog] at hz
        rw [hlog]; exact hm hz x x'
      rcases htl0 : tl with _ | ⟨t1, ts⟩
      · rw [htl0] at hlast hlen
        simp only [List.getLast?_singleton, Option.mem_def, Option.some.injEq] at hlast
        have hr0 : rest = [] := List.length_eq_zero_iff.mp (by simpa using hlen.symm)
        subst hr0
        subst hlast
        have htl0' : tl' = [] := List.length_eq_zero_iff.mp (by simpa using hlen')
        subst htl0'
        refine ⟨⟨m', off + 2^b - 2 * (l.psb * 2^b)⟩, by simp, rfl, fun W hW hZ x x' => ?_⟩
        have hh := hhead W hW hZ x x' (off + 2^b - 2 * (l.psb * 2^b)) (by omega)
        unfold mkSpecs
        exact .cons hh .nil
      · rw [htl0] at hlast
        rw [List.getLast?_cons_cons, ← htl0] at hlast
        obtain ⟨last', hl', hdel, hF⟩ := htl last hlast
        have hl2 : last' ∈ (⟨m', off + 2^b - 2 * (l.psb * 2^b)⟩ :: tl').getLast? := by
          rcases htl0' : tl' with _ | ⟨t1', ts'⟩
          · rw [htl0'] at hl'; simp at hl'
          · rw [List.getLast?_cons_cons, ← htl0']; exact hl'
        refine ⟨last', hl2, hdel, fun W hW hZ x x' => ?_⟩
        have hF := hF W (fun a ha => hW a (by unfold mkSpecs; exact List.mem_cons_of_mem _ ha))
          (fun a ha => hZ a (by unfold mkSpecs; exact List.mem_cons_of_mem _ ha)) x x'
        rw [← htl0]
        unfold mkSpecs
        refine .cons (hhead W hW hZ x x' _ ?_) hF
        rcases hrest0 : rest with _ | ⟨l', rest'⟩
        · rw [hrest0, htl0] at hlen; simp at hlen
        · rw [hrest0] at hF hmono
          have h1 := hF.specs_ok _ (by unfold mkSpecs; exact List.mem_cons_self ..)
          simp only at h1
          have h2 := hmono l' (by simp)
          omega

theorem N2Inv.create [ZeroBase] {E : RealFFT} {B nch : ℕ} (hB : 0 < B) (hB' : B ≤ 2^24) {ir : Buf}
    (hn : 0 < ir.n) (hn' : ir.n ≤ 2^24) (hch : 0 < nch → 0 < ir.ch) (g g' : Garbage) :
    ∃ s s' n0 rest, NUPC.createR E B nch ir g = some s ∧ NUPC.createR E B nch ir g' = some s' ∧
      getPartitionScheme kGarciaResults B ir.n = some (⟨1, n0⟩ :: rest) ∧
      GoodRest B ir.n (n0 * B) rest ∧ (rest = [] ∨ ∃ b, B = 2^b) ∧ 0 < n0 ∧
      (∀ (W : ℕ), (uPar B nch (nPar B nch ir n0 rest).seg0).N + segK B (nPar B nch ir n0 rest).seg0 * B ≤ W →
        (∀ a ∈ (nPar B nch ir n0 rest).specs, a.e + (segK (2^(Nat.log 2 B+a.p)) a.seg + 3) * 2^(Nat.log 2 B+a.p) ≤ W) →
        (∀ a ∈ (nPar B nch ir n0 rest).specs, ZeroFilter (Nat.log 2 B) a.p a.seg) →
        ∀ x x', N2Inv W (nPar B nch ir n0 rest) x x' 0 s s') := by
  obtain ⟨sch, e1, ⟨n0, rest, rfl, hn0, hgood, hrestB⟩⟩ := getPartitionScheme_good hB hB' hn hn'
  have hn0B : 0 < n0 * B := Nat.mul_pos hn0 hB
  have hs0 : (Layout.mk 1 n0).samples B = n0 * B := by simp [Layout.samples]
  have hsub : ir.sub 0 (min (n0 * B) ir.n) = some ⟨ir.ch, min (n0 * B) ir.n, fun c i => ir.data c (0 + i)⟩ := by
    unfold Buf.sub; rw [if_pos ⟨hn, by omega⟩]
  obtain ⟨v, v', e2, e2', hu⟩ := U2Inv.create (E := E) (nch := nch) hB hB' (ir := ⟨ir.ch, min (n0 * B) ir.n, fun c i => ir.data c (0 + i)⟩)
    (by show 0 < min (n0 * B) ir.n; omega) (by show min (n0 * B) ir.n ≤ _; omega) hch g.upcRing g'.upcRing
  unfold NUPC.createR
  rw [if_pos hn, if_pos hn, e1]
  simp only [Option.bind_eq_bind, Option.bind_some, hs0, hsub, e2, e2']
  rcases hrest0 : rest with _ | ⟨l, rest'⟩
  · subst hrest0
    refine ⟨_, _, n0, [], rfl, rfl, rfl, hgood, Or.inl rfl, hn0, ?_⟩
    intro W hw _ _ x x'
    refine ⟨?_, hw, rfl, rfl, by simp [NUPC.reset], by simp [NUPC.reset], Or.inl ⟨rfl, rfl, rfl⟩⟩
    exact (hu x x').reset x x'
  · obtain ⟨b, rfl⟩ : ∃ b, B = 2^b := by
      rcases hrestB with h | h
      · rw [hrest0] at h; cases h
      · exact h
    have hBpos : 0 < 2^b := by positivity
    have hoff : n0 * 2^b < ir.n := by
      rw [hrest0] at hgood; exact hgood.2.2.2.2.1
    rw [← hrest0]
    obtain ⟨subs, subs', e3, e3', hlen, hlen', hsubs⟩ := buildSubs2 (nch := nch) hch hn' g.tail g'.tail rest (n0 * 2^b) 0 hgood
    rw [min_eq_left hoff.le, e3, e3']
    simp only [Option.bind_some]
    have hne : subs ≠ [] := by
      intro h0; rw [h0, hrest0] at hlen; simp at hlen
    have hne' : subs' ≠ [] := by
      intro h0; rw [h0, hrest0] at hlen'; simp at hlen'
    obtain ⟨last, hlast⟩ : ∃ last, subs.getLast? = some last := ⟨_, List.getLast?_eq_some_getLast hne⟩
    obtain ⟨last', hlast', hdel, hF2⟩ := hsubs last hlast
    rw [Option.mem_def] at hlast'
    rw [hlast, hlast']
    refine ⟨_, _, n0, rest, rfl, rfl, by rw [hrest0], hgood, Or.inr ⟨b, rfl⟩, hn0, ?_⟩
    intro W hw hk2 hk3 x x'
    rw [Nat.log_pow (by norm_num)] at hk2 hk3
    have hF := hF2 W hk2 hk3 x x'
    have hBS : 2^b ≤ last.delay := by
      have := hF.specs_ok
      rw [hrest0] at this
      have := this _ (by unfold mkSpecs; exact List.mem_cons_self ..)
      omega
    refine ⟨?_, hw, rfl, rfl, by simp [NUPC.reset], by simp [NUPC.reset], Or.inr ⟨by simp [NUPC.reset, hne], by simp [NUPC.reset, hne'], ?_⟩⟩
    · show U2Inv (uPar (2^b) nch ⟨ir.ch, min (n0 * 2^b) ir.n, _⟩) x x' 0 v.reset v'.reset
      exact (hu x x').reset x x'
    · rw [Nat.zero_div, Nat.zero_mod]
      refine ⟨⟨b, last.delay, rfl, hBS, hF.reset x x', rfl, rfl, hdel, rfl, ?_⟩, rfl, rfl, rfl, fun ch _ i hi => absurd hi (by omega), rfl, rfl,
        rfl, rfl, fun ch _ i hi => absurd hi (by omega), rfl, rfl⟩
      intro ch hc r hr a _ _
      have hS : 0 < last.delay := by omega
      show (Buf.clear ⟨nch, last.delay, g.ring⟩).data ch _ = (Buf.clear ⟨nch, last'.delay, g'.ring⟩).data ch _
      simp only [Buf.clear, hdel]
      rw [if_pos ⟨hc, Nat.mod_lt _ hS⟩, if_pos ⟨hc, Nat.mod_lt _ hS⟩]

end Zones.Proofs.R
