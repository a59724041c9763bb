import Verif.Proofs.RRel
import Verif.Spec.Bits

/-! # Two runs that agree on a channel: `UniformPartitionedConvolver` -/

open Finset Zones.Spec Zones.Model

namespace Zones.Proofs.R

/-- what `f` leaves in the first `m` floats depends on these only -/
def LocalFn (m : ℕ) (f : (ℕ → ℝ) → (ℕ → ℝ)) : Prop :=
  ∀ d d' : ℕ → ℝ, (∀ i < m, d i = d' i) → ∀ i < m, f d i = f d' i

theorem putChannel_same {b : Buf} {c i : ℕ} {s : ℕ → ℝ} (hi : i < b.n) : (b.putChannel c s).data c i = s i := by
  unfold Buf.putChannel; simp [hi]

theorem putChannel_ne {b : Buf} {c j i : ℕ} {s : ℕ → ℝ} (hj : c ≠ j) : (b.putChannel j s).data c i = b.data c i := by
  unfold Buf.putChannel; simp only; rw [if_neg (by tauto)]

theorem floats_get {b : CBuf} {c k : ℕ} : (⟨b.floats.data c (2*k), b.floats.data c (2*k+1)⟩ : ℂ) = b.get c k := by
  rw [floats_data_even, floats_data_odd]

/-- rewriting the floats of another channel -/
theorem ofFloats_keep {b : CBuf} {c j : ℕ} {s : ℕ → ℝ} (hj : j ≠ c) (hc : c < b.ch) :
    RowC c c b (b.ofFloats (b.floats.putChannel j s)) := by
  refine ⟨rfl, hc, hc, fun k hk => ?_⟩
  rw [get_ofFloats hc hk, putChannel_ne (Ne.symm hj), putChannel_ne (Ne.symm hj), floats_get]

/-- rewriting the floats of this channel with equal data -/
theorem ofFloats_set {b b' : CBuf} {c c' : ℕ} {s s' : ℕ → ℝ} (h : RowC c c' b b') (hs : ∀ i < 2 * b.np, s i = s' i) :
    RowC c c' (b.ofFloats (b.floats.putChannel c s)) (b'.ofFloats (b'.floats.putChannel c' s')) := by
  refine ⟨h.np, h.lt1, h.lt2, fun k hk => ?_⟩
  have hk' : k < b.np := hk
  have hn := h.np
  have h1 : 2 * k + 1 < b.floats.n := by show _ < 2 * b.np; omega
  have h2 : 2 * k + 1 < b'.floats.n := by show _ < 2 * b'.np; omega
  rw [get_ofFloats h.lt1 hk', get_ofFloats h.lt2 (by omega), putChannel_same (by omega), putChannel_same h1,
    putChannel_same (by omega), putChannel_same h2, hs _ (by omega), hs _ (by omega)]

theorem transform_keep {f : (ℕ → ℝ) → (ℕ → ℝ)} {c j : ℕ} {b b' : CBuf} (hj : j ≠ c)
    (h : UPC.transformChannel f b j = some b') (hc : c < b.ch) : RowC c c b b' := by
  unfold UPC.transformChannel at h
  split at h
  · cases h; exact ofFloats_keep hj hc
  · cases h

theorem transform_rel {f : (ℕ → ℝ) → (ℕ → ℝ)} {c c' : ℕ} {b b' : CBuf} (h : RowC c c' b b') (hf : LocalFn (2 * b.np) f) :
    OR (fun x y => RowC c c' x y ∧ x.np = b.np) (UPC.transformChannel f b c) (UPC.transformChannel f b' c') := by
  unfold UPC.transformChannel
  refine OR.guard fun _ _ => OR.some ⟨ofFloats_set h (hf _ _ fun i hi => h.floats.data i hi), rfl⟩

theorem transforms_rel {f : (ℕ → ℝ) → (ℕ → ℝ)} {c c' m m' : ℕ} {b b' : CBuf} (h : RowC c c' b b') (hf : LocalFn (2 * b.np) f)
    (hm : c < m) (hm' : c' < m') :
    OR (fun x y => RowC c c' x y ∧ x.np = b.np) ((List.range m).foldlM (UPC.transformChannel f) b)
      ((List.range m').foldlM (UPC.transformChannel f) b') := by
  intro x hx y hy
  have keep : ∀ c, ∀ s j s', j ≠ c → UPC.transformChannel f s j = some s' → (c < s.ch → RowC c c s s') :=
    fun c s j s' hj e hc => transform_keep hj e hc
  have refl : ∀ c, ∀ s : CBuf, (c < s.ch → RowC c c s s) := fun c s hc => ⟨rfl, hc, hc, fun _ _ => rfl⟩
  have tr : ∀ c, ∀ a b d : CBuf, (c < a.ch → RowC c c a b) → (c < b.ch → RowC c c b d) → (c < a.ch → RowC c c a d) :=
    fun c a b d h1 h2 hc => (h1 hc).trans (h2 (h1 hc).lt2)
  have h1 := foldlM_one (K := fun s s' : CBuf => c < s.ch → RowC c c s s') (refl c) (tr c) (keep c) m hx
  have h2 := foldlM_one (K := fun s s' : CBuf => c' < s.ch → RowC c' c' s s') (refl c') (tr c') (keep c') m' hy
  rw [if_pos hm] at h1
  rw [if_pos hm'] at h2
  obtain ⟨p1, p2, k1, e1, k2⟩ := h1
  obtain ⟨q1, q2, l1, e2, l2⟩ := h2
  have k1 := k1 h.lt1
  have l1 := l1 h.lt2
  have r := (k1.symm.trans h).trans l1
  obtain ⟨r2, n2⟩ := transform_rel r (by rw [← k1.np]; exact hf) _ e1 _ e2
  refine ⟨((k2 r2.lt1).symm.trans r2).trans (l2 r2.lt2), ?_⟩
  rw [← (k2 r2.lt1).np, n2, k1.np]

/-- two convolvers whose channels `c` and `c'` are in the same state -/
structure URel (c c' : ℕ) (s s' : UPC) : Prop where
  partSize : s.partSize = s'.partSize
  order : s.order = s'.order
  discard : s.discard = s'.discard
  collected : s.collected = s'.collected
  ring : GRel c c' s.ring s'.ring
  numFilters : s.numFilters = s'.numFilters
  filters : ∀ i < s.numFilters, RowC c c' (s.filters i) (s'.filters i)
  fdl : DRel c c' (2^s.order) s.fdl s'.fdl
  conv : RowC c c' s.conv s'.conv
  ifft : RowC c c' s.ifft s'.ifft
  ifftn : s.ifft.np = 2^s.order

namespace URel
variable {c c' : ℕ} {s s' : UPC}

theorem reset (h : URel c c' s s') : URel c c' s.reset s'.reset where
  partSize := h.partSize
  order := h.order
  discard := h.discard
  collected := rfl
  ring := ⟨h.ring.head, h.ring.buf.clear⟩
  numFilters := h.numFilters
  filters := h.filters
  fdl := h.fdl.clear
  conv := h.conv.clear
  ifft := h.ifft.clear
  ifftn := h.ifftn

variable [Arith]

theorem preludeR (h : URel c c' s s') : OR (URel c c') s.preludeR s'.preludeR := by
  unfold UPC.preludeR
  refine OR.cond (by rw [h.collected]) (fun _ => ?_) (fun _ => OR.some h)
  simp only [Option.bind_eq_bind]
  refine OR.bind h.fdl.getNext ?_
  intro f f' hf
  rw [← h.numFilters]
  refine OR.bind (R := RowC c c') (OR.foldlM _ ?_ h.conv.clear) ?_
  · intro i _ x y hxy
    unfold UPC.macOneR
    simp only [Option.bind_eq_bind]
    refine OR.bind (hf.getOffset i) ?_
    rintro p q ⟨hpq, _⟩
    refine OR.guard fun h1 _ => (hxy.mulAccFromR hpq (h.filters i h1)).mono fun _ _ h => h.1
  · intro x y hxy
    rw [← h.partSize]
    refine OR.bind (h.ring.getNext _ _) ?_
    rintro w w' ⟨_, hw, _, _⟩
    exact OR.some { h with partSize := rfl, numFilters := rfl, ring := hw, fdl := hf, conv := hxy }

theorem bodyR {F : RealFFT} (hF : InPlace F) (h : URel c c' s s') {blk blk' : Buf} (hb : RowEq c c' blk blk') (done k : ℕ) :
    OR (fun x y => URel c c' x.1 y.1 ∧ RowEq c c' x.2 y.2 ∧ x.2.n = blk.n) (s.bodyR F blk done k) (s'.bodyR F blk' done k) := by
  unfold UPC.bodyR
  simp only [Option.bind_eq_bind]
  refine OR.bind (h.fdl.getOffset 0) ?_
  rintro f f' ⟨hf, hfn⟩
  refine OR.bind (hb.sub done k) ?_
  rintro inp inp' ⟨hinp, _, hdone⟩
  rw [← h.discard, ← h.collected]
  refine OR.bind (h.ring.getNext _ _) ?_
  rintro w w' ⟨hw, _, _, _⟩
  refine OR.bind (hw.copyFrom h.ring.buf hinp) ?_
  rintro buf buf' ⟨hbuf, _⟩
  refine OR.bind ((show GRel c c' { s.ring with buf := buf } { s'.ring with buf := buf' } from ⟨h.ring.head, hbuf⟩).getNext 0 false) ?_
  rintro w2 w2' ⟨hw2, _, _, _⟩
  refine OR.bind (hw2.copyTo hbuf hf.clear.floats) ?_
  rintro fl fl' ⟨hfl, hfln⟩
  have h1 : RowC c c' (f.clear.ofFloats fl) (f'.clear.ofFloats fl') := hf.clear.ofFloats hfl hfln
  have hfwd : LocalFn (2 * (f.clear.ofFloats fl).np) (F.fwd s.order) := by
    show LocalFn (2 * f.np) _
    rw [hfn]; exact hF.fwd _
  rw [← h.order]
  refine OR.bind (transforms_rel h1 hfwd (hb.lt1 hdone) (hb.lt2 hdone)) ?_
  rintro g g' ⟨hg, hgn⟩
  refine OR.guard fun hn0 _ => ?_
  refine OR.bind (h.ifft.mulFromR hg (h.filters 0 hn0)) ?_
  rintro i1 i1' ⟨hi1, hi1n⟩
  refine OR.bind (hi1.addFromR h.conv) ?_
  rintro i2 i2' ⟨hi2, hi2n⟩
  have hinv : LocalFn (2 * i2.np) (F.inv s.order) := by
    rw [hi2n, hi1n, h.ifftn]; exact hF.inv _
  refine OR.bind (transforms_rel hi2 hinv (hb.lt1 hdone) (hb.lt2 hdone)) ?_
  rintro i3 i3' ⟨hi3, hi3n⟩
  refine OR.bind (hb.sub done k) ?_
  rintro out out' ⟨hout, _⟩
  refine OR.bind (hi3.floats.sub _ _) ?_
  rintro src src' ⟨hsrc, _⟩
  refine OR.some ⟨?_, hb.put (hout.copyFrom hsrc) _, rfl⟩
  exact { h with
    order := rfl, discard := rfl, ring := ⟨h.ring.head, hbuf⟩, fdl := h.fdl.setOffset 0 hg (by rw [hgn]; exact hfn), ifft := hi3,
    ifftn := by show i3.np = _; rw [hi3n, hi2n, hi1n, h.ifftn]
    collected := by show (s.collected + k) % s.partSize = (s.collected + k) % s'.partSize; rw [h.partSize] }

theorem loopR {F : RealFFT} (hF : InPlace F) (fuel : ℕ) : ∀ {s s' : UPC} (_ : URel c c' s s') {blk blk' : Buf}
    (_ : RowEq c c' blk blk') (done : ℕ),
    OR (fun x y => URel c c' x.1 y.1 ∧ RowEq c c' x.2 y.2 ∧ x.2.n = blk.n) (UPC.loopR F fuel s blk done) (UPC.loopR F fuel s' blk' done) := by
  induction fuel with
  | zero =>
    intro s s' h blk blk' hb done
    unfold UPC.loopR
    rw [← hb.n]
    exact OR.guardn fun _ _ => OR.some ⟨h, hb, rfl⟩
  | succ fuel ih =>
    intro s s' h blk blk' hb done
    unfold UPC.loopR
    rw [← hb.n]
    refine OR.cond Iff.rfl (fun _ => ?_) (fun _ => OR.some ⟨h, hb, rfl⟩)
    simp only [Option.bind_eq_bind]
    refine OR.bind h.preludeR ?_
    intro t t' ht
    rw [← ht.partSize, ← ht.collected]
    refine OR.bind (ht.bodyR hF hb _ _) ?_
    rintro ⟨u, bu⟩ ⟨u', bu'⟩ ⟨hu, hbu, hn⟩
    exact (ih hu hbu _).mono fun x y h => ⟨h.1, h.2.1, h.2.2.trans hn⟩

theorem processR {F : RealFFT} (hF : InPlace F) (h : URel c c' s s') {blk blk' : Buf} (hb : RowEq c c' blk blk') :
    OR (fun x y => URel c c' x.1 y.1 ∧ RowEq c c' x.2 y.2 ∧ x.2.n = blk.n) (s.processR F blk) (s'.processR F blk') := by
  unfold UPC.processR
  rw [← hb.n]
  exact loopR hF _ h hb 0

end URel

/-! ## Construction -/

theorem OR.buildVec {α β : Type} {R : ℕ → α → β → Prop} {d : α} {d' : β} {f : ℕ → Option α} {g : ℕ → Option β}
    (n : ℕ) (h : ∀ i < n, OR (R i) (f i) (g i)) :
    OR (fun v w => ∀ i < n, R i (v i) (w i)) (Model.buildVec d f n) (Model.buildVec d' g n) := by
  induction n with
  | zero => exact OR.some fun i hi => by omega
  | succ n ih =>
    unfold Model.buildVec
    simp only [Option.bind_eq_bind]
    refine OR.bind (ih fun i hi => h i (by omega)) ?_
    intro v w hvw
    refine OR.bind (h n (by omega)) ?_
    intro a b hab
    refine OR.some fun i hi => ?_
    by_cases hin : i = n
    · subst hin; rw [Function.update_self, Function.update_self]; exact hab
    · rw [Function.update_of_ne hin, Function.update_of_ne hin]; exact hvw i (by omega)

theorem filterChannel_keep {F : RealFFT} {o c j : ℕ} {part : Buf} {b b' : CBuf} (hj : j ≠ c)
    (h : UPC.filterChannel F o part b j = some b') (hc : c < b.ch) : RowC c c b b' := by
  unfold UPC.filterChannel at h
  split at h
  · cases h
  · simp only [Option.bind_eq_bind, Option.bind_eq_some_iff] at h
    obtain ⟨src, _, dst, _, h⟩ := h
    have h1 := ofFloats_keep (b := b) (s := (dst.copyFrom src).data 0) hj hc
    exact h1.trans (transform_keep hj h h1.lt2)

theorem filterChannel_rel {F : RealFFT} (hF : InPlace F) {o c c' : ℕ} {part part' : Buf} {b b' : CBuf} (h : RowC c c' b b')
    (hn : b.np = 2^o) (hp : RowEq c c' part part') (hc : c < part.ch) (hc' : c' < part'.ch) :
    OR (fun x y => RowC c c' x y ∧ x.np = b.np) (UPC.filterChannel F o part b c) (UPC.filterChannel F o part' b' c') := by
  unfold UPC.filterChannel
  refine OR.guardn fun _ _ => ?_
  rw [Nat.mod_eq_of_lt hc, Nat.mod_eq_of_lt hc']
  simp only [Option.bind_eq_bind]
  unfold Buf.single
  rw [if_pos hc, if_pos hc', if_pos (show c < b.floats.ch from h.lt1), if_pos (show c' < b'.floats.ch from h.lt2)]
  simp only [Option.bind_some]
  have e : ∀ i < 2 * b.np,
      (Buf.copyFrom ⟨1, b.floats.n, fun _ i => b.floats.data c i⟩ ⟨1, part.n, fun _ i => part.data c i⟩).data 0 i =
      (Buf.copyFrom ⟨1, b'.floats.n, fun _ i => b'.floats.data c' i⟩ ⟨1, part'.n, fun _ i => part'.data c' i⟩).data 0 i := by
    have r1 : RowEq 0 0 ⟨1, b.floats.n, fun _ i => b.floats.data c i⟩ ⟨1, b'.floats.n, fun _ i => b'.floats.data c' i⟩ :=
      ⟨h.floats.n, fun _ => ⟨Nat.one_pos, Nat.one_pos⟩, h.floats.data⟩
    have r2 : RowEq 0 0 ⟨1, part.n, fun _ i => part.data c i⟩ ⟨1, part'.n, fun _ i => part'.data c' i⟩ :=
      ⟨hp.n, fun _ => ⟨Nat.one_pos, Nat.one_pos⟩, hp.data⟩
    exact (r1.copyFrom r2).data
  refine transform_rel (ofFloats_set h e) ?_
  show LocalFn (2 * b.np) _
  rw [hn]; exact hF.fwd _

theorem filterPartition_rel {F : RealFFT} (hF : InPlace F) {P o c c' : ℕ} {ir ir' : Buf} (h : RowEq c c' ir ir')
    (hc : c < ir.ch) (hc' : c' < ir'.ch) (i : ℕ) :
    OR (fun x y => RowC c c' x y ∧ x.np = 2^o) (UPC.filterPartition F P o ir.ch ir i) (UPC.filterPartition F P o ir'.ch ir' i) := by
  unfold UPC.filterPartition
  simp only [Option.bind_eq_bind, ← h.n]
  intro x hx y hy
  obtain ⟨part, hpart, hx⟩ := Option.bind_eq_some_iff.mp hx
  obtain ⟨part', hpart', hy⟩ := Option.bind_eq_some_iff.mp hy
  obtain ⟨hp, _⟩ := h.sub _ _ _ hpart _ hpart'
  have hpc : part.ch = ir.ch := by unfold Buf.sub at hpart; split at hpart <;> cases hpart; rfl
  have hpc' : part'.ch = ir'.ch := by unfold Buf.sub at hpart'; split at hpart' <;> cases hpart'; rfl
  have refl : ∀ c, ∀ s : CBuf, (c < s.ch → RowC c c s s) := fun c s hc => ⟨rfl, hc, hc, fun _ _ => rfl⟩
  have tr : ∀ c, ∀ a b d : CBuf, (c < a.ch → RowC c c a b) → (c < b.ch → RowC c c b d) → (c < a.ch → RowC c c a d) :=
    fun c a b d h1 h2 hc => (h1 hc).trans (h2 (h1 hc).lt2)
  have h1 := foldlM_one (K := fun s s' : CBuf => c < s.ch → RowC c c s s') (refl c) (tr c)
    (fun s j s' hj e hc => filterChannel_keep hj e hc) _ hx
  have h2 := foldlM_one (K := fun s s' : CBuf => c' < s.ch → RowC c' c' s s') (refl c') (tr c')
    (fun s j s' hj e hc => filterChannel_keep hj e hc) _ hy
  rw [if_pos hc] at h1
  rw [if_pos hc'] at h2
  obtain ⟨p1, p2, k1, e1, k2⟩ := h1
  obtain ⟨q1, q2, l1, e2, l2⟩ := h2
  have h0 : RowC c c' (CBuf.mk0 (2^o) ir.ch).clear (CBuf.mk0 (2^o) ir'.ch).clear := RowC.cleared rfl hc hc'
  have k1 := k1 h0.lt1
  have l1 := l1 h0.lt2
  have r := (k1.symm.trans h0).trans l1
  obtain ⟨r2, n2⟩ := filterChannel_rel hF r (by rw [← k1.np]; rfl) hp (by rw [hpc]; exact hc) (by rw [hpc']; exact hc') _ e1 _ e2
  refine ⟨((k2 r2.lt1).symm.trans r2).trans (l2 r2.lt2), ?_⟩
  rw [← (k2 r2.lt1).np, n2, ← k1.np]; rfl

theorem URel.create {F : RealFFT} (hF : InPlace F) {P c c' : ℕ} {ir ir' : Buf} (h : RowEq c c' ir ir')
    (hc : c < ir.ch) (hc' : c' < ir'.ch) (g g' : ℕ → ℕ → ℝ) :
    OR (URel c c') (UPC.create F P ir.ch ir g) (UPC.create F P ir'.ch ir' g') := by
  unfold UPC.create
  refine OR.guardn fun _ _ => ?_
  simp only [Option.bind_eq_bind, ← h.n]
  refine OR.bind (OR.buildVec _ fun i _ => filterPartition_rel hF h hc hc' i) ?_
  intro v w hvw
  refine OR.some ?_
  unfold UPC.reset
  exact
    { partSize := rfl, order := rfl, discard := rfl, collected := rfl
      ring := ⟨rfl, RowEq.cleared rfl fun _ => ⟨hc, hc'⟩⟩
      numFilters := rfl, filters := fun i hi => (hvw i hi).1
      fdl := DRel.clear ⟨rfl, rfl, fun i _ => ⟨RowC.cleared rfl hc hc', rfl⟩⟩
      conv := RowC.cleared rfl hc hc'
      ifft := RowC.cleared rfl hc hc'
      ifftn := rfl }

end Zones.Proofs.R
