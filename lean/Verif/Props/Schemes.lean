import Verif.Spec.Schemes
import Verif.Props.SubConvolvers
import Verif.Props.Garcia

/-!
# C84: which partition schemes work

`UsableScheme`, `Clear`, `withStarts` are defined in `Verif.Spec.Schemes`; `feed`, `stream`, `totalLen` in
`Verif.Spec.Stream`, `linConv` in `Verif.Spec.Signal`.
-/

open Finset Zones.Spec Zones.Model Zones.Proofs

namespace Zones.Props

theorem tight_of {B L : ℕ} : ∀ (rest : List Layout) (off : ℕ), (∀ l ∈ rest, ∃ p, 1 ≤ p ∧ l.psb = 2 ^ p) → (∀ l ∈ rest, 0 < l.np) →
    (∀ l ∈ rest, l.psb * B ≤ 2^24) → (∀ q ∈ withStarts B off rest, q.1 < L) → L ≤ off + partSamples B rest →
    (∀ q ∈ withStarts B off rest, 2 * (q.2.psb * B) ≤ q.1) →
    (withStarts B off rest).Pairwise (fun q q' => q.1 - 2 * (q.2.psb * B) ≤ q'.1 - 2 * (q'.2.psb * B)) →
    TightRest B L off rest
  | [], off, _, _, _, _, h5, _, _ => by simpa [TightRest, partSamples] using h5
  | l :: rest, off, h1, h2, h3, h4, h5, h6, h7 => by
    have hin : ∀ q ∈ withStarts B (off + l.psb * l.np * B) rest, q ∈ withStarts B off (l :: rest) := fun q hq => by
      rw [withStarts]; exact List.mem_cons_of_mem _ hq
    have hhead : (off, l) ∈ withStarts B off (l :: rest) := by rw [withStarts]; exact List.mem_cons_self ..
    rw [withStarts, List.pairwise_cons] at h7
    refine ⟨h1 l (by simp), h2 l (by simp), h6 _ hhead, h3 l (by simp), h4 _ hhead, ?_, ?_⟩
    · intro l' hl'
      obtain ⟨rest', rfl⟩ : ∃ rest', rest = l' :: rest' := by
        rcases rest with _ | ⟨a, r⟩
        · simp at hl'
        · simp only [List.head?_cons, Option.mem_def, Option.some.injEq] at hl'; subst hl'; exact ⟨r, rfl⟩
      have hm : (off + l.psb * l.np * B, l') ∈ withStarts B (off + l.psb * l.np * B) (l' :: rest') := by
        rw [withStarts]; exact List.mem_cons_self ..
      have a1 := h7.1 _ hm
      have a2 := h6 _ hhead
      have a3 := h6 _ (hin _ hm)
      simp only at a1 a2 a3
      unfold Layout.samples
      omega
    · refine tight_of rest _ (fun a ha => h1 a (by simp [ha])) (fun a ha => h2 a (by simp [ha])) (fun a ha => h3 a (by simp [ha]))
        (fun q hq => h4 q (hin q hq)) ?_ (fun q hq => h6 q (hin q hq)) h7.2
      unfold Layout.samples
      unfold partSamples at h5 ⊢
      simp only [List.map_cons, List.sum_cons] at h5
      omega

theorem good_of {B L : ℕ} : ∀ (rest : List Layout) (off : ℕ), TightRest B L off rest →
    (∀ q ∈ withStarts B off rest, 2 * (q.2.psb * B) + B ≤ q.1) → GoodRest B L off rest
  | [], _, h, _ => h
  | l :: rest, off, ⟨h1, h2, _, h4, h5, h6, h7⟩, hc => by
    refine ⟨h1, h2, hc (off, l) (by rw [withStarts]; exact List.mem_cons_self ..), h4, h5, h6, good_of rest _ h7 ?_⟩
    intro q hq
    exact hc q (by rw [withStarts]; exact List.mem_cons_of_mem _ hq)

theorem usable_tight {B L n0 : ℕ} {rest : List Layout} (h : UsableScheme B L n0 rest) : TightRest B L (n0 * B) rest :=
  tight_of rest _ h.power h.parts h.small h.inside h.covers h.twoPartitions h.inOrder

/-- The convolver computes, for impulse responses of `L` samples and any input, the exact convolution in calls of the
kind `ok`. -/
def ExactOn (F : RealFFT) (B nch L : ℕ) (scheme : List Layout) (ok : Buf → Prop) : Prop :=
  ∀ ir : Buf, ir.n = L → 0 < ir.ch → ∀ g : Garbage, ∃ s, NUPC.ofScheme F B nch ir g scheme = some s ∧
    ∀ blocks : List Buf, (∀ b ∈ blocks, b.ch = nch ∧ ok b) →
      ∃ s' outs, feed (NUPC.process F) s blocks = some (s', outs) ∧ SameShape blocks outs ∧
        ∀ ch < nch, ∀ n < totalLen blocks,
          stream outs ch n = linConv ir.n (ir.data (ch % ir.ch)) (stream blocks ch) n

/-- **C84 (whole blocks).** Whatever usable scheme the tables contain, the convolver built from it is exact when every
call's length is a multiple of the block size. -/
theorem C84_whole_blocks_are_exact {F : RealFFT} (hF : Lawful F) {b nch L n0 : ℕ} {rest : List Layout}
    (hB' : 2^b ≤ 2^24) (hL : 0 < L) (hL' : L ≤ 2^24) (h : UsableScheme (2^b) L n0 rest) :
    ExactOn F (2^b) nch L (⟨1, n0⟩ :: rest) (fun blk => 2^b ∣ blk.n) := by
  intro ir hir hch g
  subst hir
  obtain ⟨s, e, hs, hid⟩ := NInvT.ofScheme hF (nch := nch) (by positivity) hB' hL hL' (fun _ => hch) g h.first (usable_tight h) (Or.inr ⟨b, rfl⟩)
  refine ⟨s, e, fun blocks hb => ?_⟩
  refine exact_of_inv (y := fun x o n => linConv ir.n (ir.data (o % ir.ch)) (x o) n) (ok := fun blk => 2^b ∣ blk.n)
    (Inv := fun x t s => NInvT (nPar (2^b) nch ir n0 rest) x t s ∧ 2^b ∣ t) ?_ (fun x => ⟨hs x, dvd_zero _⟩) blocks hb
  rintro x t s blk ⟨hi, ht⟩ hok hc hin
  obtain ⟨s', blk', e, n, cc, d, h'⟩ := hi.step hF (show 0 < 2^b by positivity)
    (Or.inr ⟨Nat.mod_eq_zero_of_dvd ht, hok⟩) (blk := blk) hc hin
  exact ⟨s', blk', e, n, cc, fun o ho i hi => (d o ho i hi).trans (hid x o (t + i)), h', dvd_add ht hok⟩

/-- **C84 (clearance).** If every part starts at least two of its partitions and one block into the impulse response, the
convolver is exact for calls of any lengths. -/
theorem C84_clear_schemes_are_exact {F : RealFFT} (hF : Lawful F) {b nch L n0 : ℕ} {rest : List Layout}
    (hB' : 2^b ≤ 2^24) (hL : 0 < L) (hL' : L ≤ 2^24) (h : UsableScheme (2^b) L n0 rest) (hc : Clear (2^b) n0 rest) :
    ExactOn F (2^b) nch L (⟨1, n0⟩ :: rest) (fun _ => True) := by
  intro ir hir hch g
  subst hir
  obtain ⟨s, e, hs, hid⟩ := NInv.ofScheme hF (nch := nch) (by positivity) hB' hL hL' (fun _ => hch) g h.first
    (good_of rest _ (usable_tight h) hc) (Or.inr ⟨b, rfl⟩)
  refine ⟨s, e, fun blocks hb => ?_⟩
  refine exact_of_inv (y := fun x o n => linConv ir.n (ir.data (o % ir.ch)) (x o) n) (ok := fun _ => True)
    (Inv := NInv (nPar (2^b) nch ir n0 rest)) ?_ hs blocks hb
  intro x t s blk hi _ hc hin
  obtain ⟨s', blk', e, n, cc, d, h'⟩ := hi.step hF (show 0 < 2^b by positivity) (blk := blk) hc hin
  exact ⟨s', blk', e, n, cc, fun o ho i hi => (d o ho i hi).trans (hid x o (t + i)), h'⟩

/-! ## One block less -/

theorem le_start {B : ℕ} : ∀ (rest : List Layout) (off : ℕ), ∀ q ∈ withStarts B off rest, off ≤ q.1
  | [], _, _, h => by simp [withStarts] at h
  | l :: rest, off, q, h => by
    rw [withStarts] at h
    rcases List.mem_cons.mp h with rfl | h
    · exact le_rfl
    · have := le_start rest _ q h; omega

/-- the impulse at sample `D` -/
noncomputable def impulse (D : ℕ) (i : ℕ) : ℝ := if i = D then 1 else 0

theorem linConv_impulse {L : ℕ} {h x : ℕ → ℝ} {n : ℕ} (hx : ∀ i ≤ n, x i = impulse 0 i) :
    linConv L h x n = if n < L then h n else 0 := by
  unfold linConv
  by_cases hn : n < L
  · rw [if_pos hn, Finset.sum_eq_single n]
    · rw [if_pos le_rfl, Nat.sub_self, hx 0 (by omega)]; simp [impulse]
    · intro k _ hk
      by_cases hkn : k ≤ n
      · rw [if_pos hkn, hx _ (by omega)]
        unfold impulse
        rw [if_neg (by omega), mul_zero]
      · rw [if_neg hkn]
    · intro h; exact absurd (mem_range.mpr hn) h
  · rw [if_neg hn]
    apply sum_eq_zero
    intro k hk
    have := mem_range.mp hk
    rw [if_pos (by omega), hx _ (by omega)]
    unfold impulse
    rw [if_neg (by omega), mul_zero]

theorem contrib_none {b : ℕ} {ir : Buf} {D : ℕ} {x : ℕ → ℕ → ℝ} {c : ℕ} (hx : ∀ i ≤ D, x c i = impulse 0 i) :
    ∀ (rest : List Layout) (off : ℕ), TightRest (2^b) ir.n off rest →
      (D < off ∨ ∃ l, (D, l) ∈ withStarts (2^b) off rest ∧ 2 * (l.psb * 2^b) = D) →
      ∀ nb, nb * 2^b = D → ∀ a ∈ mkSpecs (2^b) ir off rest, contrib b x nb c D a = 0
  | [], _, _, _, _, _, a, ha => by simp [mkSpecs] at ha
  | l :: rest, off, ⟨⟨p, hp, hpsb⟩, _, hclr, _, _, _, hrest⟩, hD, nb, hnb, a, ha => by
    have hlog : Nat.log 2 l.psb = p := by rw [hpsb]; exact Nat.log_pow (by norm_num) p
    have hP : l.psb * 2^b = 2^(b+p) := by rw [hpsb, ← pow_add, add_comm]
    unfold mkSpecs at ha
    -- where the impulse is
    have hcase : (D < off ∨ 2 * (l.psb * 2^b) = off ∨ off + l.samples (2^b) ≤ D) ∧
        (D < off + l.samples (2^b) ∨ ∃ l', (D, l') ∈ withStarts (2^b) (off + l.samples (2^b)) rest ∧ 2 * (l'.psb * 2^b) = D) := by
      rcases hD with h | ⟨l', hl', e⟩
      · exact ⟨Or.inl h, Or.inl (by omega)⟩
      · rw [withStarts] at hl'
        rcases List.mem_cons.mp hl' with h | h
        · cases h
          have : 0 < l.samples (2^b) := by
            unfold Layout.samples
            have h1 : 0 < l.psb := by rw [hpsb]; positivity
            have : 0 < l.np := by assumption
            positivity
          exact ⟨Or.inr (Or.inl e), Or.inl (by omega)⟩
        · exact ⟨Or.inr (Or.inr (le_start _ _ _ h)), Or.inr ⟨l', h, e⟩⟩
    rcases List.mem_cons.mp ha with rfl | ha
    · unfold contrib SubSpec.v dconv
      simp only [hlog]
      rw [hP] at hclr hcase ⊢
      split
      · rename_i h1
        split
        · rename_i h2
          rw [linConv_impulse (fun i hi => hx i (by omega)), if_neg]
          show ¬ D - (off - 2 * 2^(b+p)) - 2 * 2^(b+p) < min (l.samples (2^b)) (ir.n - off)
          rcases hcase.1 with h | h | h
          · omega
          · omega
          · omega
        · rfl
      · rfl
    · exact contrib_none hx rest _ hrest hcase.2 nb hnb a ha

/-- **C84 (one block less).** If some part starts exactly two of its partitions into the impulse response, at sample `D`,
then calls shorter than a block get wrong samples: with an impulse response that is an impulse at `D` and an input that is an
impulse at the start, given in one call of `D` samples and one of `k`, fewer than a block, output sample `D` is 0 instead
of 1. -/
theorem C84_one_block_less_is_wrong {F : RealFFT} (hF : Lawful F) {b nch L n0 : ℕ} {rest : List Layout}
    (hB' : 2^b ≤ 2^24) (hL' : L ≤ 2^24) (h : UsableScheme (2^b) L n0 rest) {D : ℕ} {l : Layout}
    (hD : (D, l) ∈ withStarts (2^b) (n0 * 2^b) rest) (htight : D = 2 * (l.psb * 2^b)) {k : ℕ} (hk : 0 < k) (hkB : k < 2^b)
    {nir : ℕ} (hch : 0 < nir) (g : Garbage) :
    ∃ s s' outs, NUPC.ofScheme F (2^b) nch ⟨nir, L, fun _ => impulse D⟩ g (⟨1, n0⟩ :: rest) = some s ∧
      feed (NUPC.process F) s [⟨nch, D, fun _ => impulse 0⟩, ⟨nch, k, fun _ _ => 0⟩] = some (s', outs) ∧
      ∀ ch < nch, stream outs ch D = 0 ∧
        linConv L (impulse D) (stream [⟨nch, D, fun _ => impulse 0⟩, ⟨nch, k, fun _ _ => 0⟩] ch) D = 1 := by
  have hDL : D < L := h.inside _ hD
  have hB : 0 < 2^b := by positivity
  have hn0D : n0 * 2^b ≤ D := le_start _ _ _ hD
  have hD0 : 0 < D := by have := Nat.mul_pos h.first hB; omega
  have hdvd : D = 2 * l.psb * 2^b := by rw [htight, mul_assoc]
  obtain ⟨s, e, hs, _⟩ := NInvT.ofScheme hF (nch := nch) hB hB' (ir := ⟨nir, L, fun _ => impulse D⟩) (by show 0 < L; omega) hL' (fun _ => hch) g
    h.first (usable_tight h) (Or.inr ⟨b, rfl⟩)
  set blocks : List Buf := [⟨nch, D, fun _ => impulse 0⟩, ⟨nch, k, fun _ _ => 0⟩] with hblocks
  have hx : ∀ ch i, stream blocks ch i = impulse 0 i := by
    intro ch i
    simp only [hblocks, stream]
    split
    · rfl
    · have : i ≠ 0 := by omega
      simp [impulse, this]
  have hb1 : ∀ ch < nch, ∀ i < D, (impulse 0 i : ℝ) = stream blocks ch (0 + i) := fun ch _ i _ => by rw [hx, zero_add]
  obtain ⟨s1, o1, e1, n1, c1, _, h1⟩ := (hs (stream blocks)).step hF hB (Or.inr ⟨Nat.zero_mod _, ⟨2 * l.psb, by
    show D = 2^b * (2 * l.psb)
    rw [mul_comm]; exact hdvd⟩⟩) (blk := ⟨nch, D, fun _ => impulse 0⟩) rfl hb1
  have hDm : (0 + D) % 2^b = 0 := by rw [zero_add, hdvd]; exact Nat.mul_mod_left _ _
  have hDd : (0 + D) / 2^b = 2 * l.psb := by rw [zero_add, hdvd]; exact Nat.mul_div_cancel _ hB
  obtain ⟨s2, o2, e2, n2, c2, d2, h2⟩ := h1.body_val hF hB (blk := ⟨nch, k, fun _ _ => 0⟩) (done := 0) (k := k) hk
    (by show (0 + D) % 2^b + k ≤ 2^b; omega) (Or.inr (Or.inl hDm)) (by simp) rfl (by
      intro ch _ i hi
      rw [hx]
      have : (0 + D) + i ≠ 0 := by omega
      show (0:ℝ) = impulse 0 (0 + D + i)
      simp only [impulse, if_neg this])
  have hp2 : NUPC.process F s1 ⟨nch, k, fun _ _ => 0⟩ = some (s2, o2) := by
    obtain ⟨k', rfl⟩ : ∃ k', k = k' + 1 := ⟨k - 1, by omega⟩
    show NUPC.loop F (k' + 1) s1 ⟨nch, k' + 1, fun _ _ => 0⟩ 0 = _
    unfold NUPC.loop
    have hb : s1.blockSize = 2^b := h1.blockSize
    have hc : s1.collected = 0 := by rw [h1.col]; exact hDm
    have hm : min (k' + 1 - 0) (s1.blockSize - s1.collected) = k' + 1 := by rw [hb, hc]; omega
    rw [if_pos (by show 0 < k' + 1; omega)]
    simp only [hm, e2, Option.bind_eq_bind, Option.bind_some]
    unfold NUPC.loop
    rcases k' with _ | k'' <;> (simp only; rw [if_neg (by rw [n2]; simp)])
  refine ⟨s, s2, [o1, o2], e, ?_, ?_⟩
  · rw [hblocks]
    simp only [feed]
    rw [e1]
    simp only [Option.bind_some]
    rw [hp2]
    rfl
  · intro ch hc
    constructor
    · have n1' : o1.n = D := n1
      simp only [stream, n1', lt_irrefl, if_false, Nat.sub_self, n2, hk, if_true]
      rw [d2 ch hc 0 hk, if_pos ⟨le_rfl, by omega⟩]
      have hne : ¬ ((0 + D) % 2^b + k = 2^b) := by omega
      have z1 : ∀ τ, τ = D → linConv (min (n0 * 2^b) L) (fun i => impulse D (0 + i)) (stream blocks ch) τ = 0 := by
        rintro τ rfl
        rw [linConv_impulse (fun i _ => hx ch i), if_neg (by omega)]
      have z2 : ∀ τ, τ = D → (nPar (2^b) nch ⟨nir, L, fun _ => impulse D⟩ n0 rest).subVal (stream blocks)
          (2 * l.psb) ch τ = 0 := by
        rintro τ rfl
        unfold NPar.subVal
        show val (Nat.log 2 (2^b)) (mkSpecs (2^b) ⟨nir, L, fun _ => impulse τ⟩ (n0 * 2^b) rest) _ _ _ _ = 0
        rw [Nat.log_pow (by norm_num)]
        unfold Proofs.val
        apply List.sum_eq_zero
        intro y hy
        obtain ⟨a, ha, rfl⟩ := List.mem_map.mp hy
        exact contrib_none (fun i _ => hx ch i) rest _ (usable_tight h) (Or.inr ⟨l, hD, htight.symm⟩) _ hdvd.symm a ha
      have a1 := z1 (0 + D + (0 - 0)) (by omega)
      have a2 := z2 (0 + D + (0 - 0)) (by omega)
      have ee : (if (0 + D) % 2^b + k = 2^b then (0 + D) / 2^b + 1 else (0 + D) / 2^b) = 2 * l.psb := by
        rw [if_neg hne, hDd]
      show linConv (min (n0 * 2^b) L) (fun i => impulse D (0 + i)) (stream blocks ch) _ +
        NPar.subVal _ _ (if (0 + D) % 2^b + k = 2^b then (0 + D) / 2^b + 1 else (0 + D) / 2^b) _ _ = 0
      rw [ee, a1, a2, add_zero]
    · rw [linConv_impulse (fun i _ => hx ch i), if_pos hDL]
      simp [impulse]

/-- **C84.** With blocks of at least two samples, the convolver built from a usable scheme is exact for all impulse
responses, inputs and call lengths if and only if every part starts at least two of its partitions and one block into
the impulse response. -/
theorem C84_exact_iff_clear {F : RealFFT} (hF : Lawful F) {b nch L n0 : ℕ} {rest : List Layout} (hb : 0 < b)
    (hB' : 2^b ≤ 2^24) (hL : 0 < L) (hL' : L ≤ 2^24) (hnch : 0 < nch) (h : UsableScheme (2^b) L n0 rest) :
    ExactOn F (2^b) nch L (⟨1, n0⟩ :: rest) (fun _ => True) ↔ Clear (2^b) n0 rest := by
  refine ⟨fun hex => ?_, fun hc => C84_clear_schemes_are_exact hF hB' hL hL' h hc⟩
  by_contra hnc
  unfold Clear at hnc
  push Not at hnc
  obtain ⟨⟨D, l⟩, hD, hlt⟩ := hnc
  have h2 := h.twoPartitions _ hD
  -- starts are whole blocks
  have hblk : ∀ (rest : List Layout) (off : ℕ), 2^b ∣ off → ∀ q ∈ withStarts (2^b) off rest, 2^b ∣ q.1 := by
    intro rest
    induction rest with
    | nil => intro off _ q hq; simp [withStarts] at hq
    | cons l rest ih =>
      intro off ho q hq
      rw [withStarts] at hq
      rcases List.mem_cons.mp hq with rfl | hq
      · exact ho
      · exact ih _ (dvd_add ho (Dvd.intro_left _ rfl)) q hq
  have hDB := hblk rest _ (Dvd.intro_left _ rfl) _ hD
  have htight : D = 2 * (l.psb * 2^b) := by
    simp only at h2 hlt hDB
    have hd : 2^b ∣ D - 2 * (l.psb * 2^b) := Nat.dvd_sub hDB ⟨2 * l.psb, by ring⟩
    have : D - 2 * (l.psb * 2^b) < 2^b := by omega
    have := Nat.eq_zero_of_dvd_of_lt hd this
    omega
  have h1B : 1 < 2^b := Nat.one_lt_two_pow (by omega)
  let g : Garbage := ⟨fun _ _ => 0, fun _ _ _ _ => 0, fun _ _ => 0, fun _ _ => 0, fun _ _ => 0⟩
  obtain ⟨s, s', outs, e, e', hw⟩ := C84_one_block_less_is_wrong hF (nch := nch) hB' hL' h hD htight (k := 1) one_pos h1B
    (nir := 1) one_pos g
  obtain ⟨t, et, hall⟩ := hex ⟨1, L, fun _ => impulse D⟩ rfl one_pos g
  rw [e] at et
  obtain rfl := Option.some.inj et
  obtain ⟨s'', outs', e'', _, d⟩ := hall [⟨nch, D, fun _ => impulse 0⟩, ⟨nch, 1, fun _ _ => 0⟩] (by
    intro b hb
    simp only [List.mem_cons, List.not_mem_nil, or_false] at hb
    rcases hb with rfl | rfl <;> exact ⟨rfl, trivial⟩)
  rw [e'] at e''
  obtain ⟨rfl, rfl⟩ := Prod.mk.inj (Option.some.inj e'')
  obtain ⟨w1, w2⟩ := hw 0 hnch
  have := d 0 hnch D (by simp [totalLen])
  rw [w1] at this
  exact absurd (this.trans w2) (by norm_num)

/-- A usable scheme without the extra block: block size 16, impulse response of 384 samples, 8 partitions of 1 block and
4 of 4 blocks. Its second part starts at sample 128, two partitions of 64 samples into the response. -/
theorem tight_example : UsableScheme (2^4) 384 8 [⟨4, 4⟩] where
  first := by norm_num
  power := by intro l hl; simp only [List.mem_singleton] at hl; subst hl; exact ⟨2, by norm_num, rfl⟩
  parts := by intro l hl; simp only [List.mem_singleton] at hl; subst hl; norm_num
  small := by intro l hl; simp only [List.mem_singleton] at hl; subst hl; norm_num
  inside := by intro q hq; simp only [withStarts, List.mem_singleton] at hq; subst hq; norm_num
  covers := by simp [partSamples]
  twoPartitions := by intro q hq; simp only [withStarts, List.mem_singleton] at hq; subst hq; norm_num
  inOrder := by simp [withStarts]

/-- It is exact in whole blocks of 16 samples and not in general; with one more partition of one block it is exact in
general. -/
example : ExactOn referenceFFT (2^4) 2 384 [⟨1, 8⟩, ⟨4, 4⟩] (fun blk => 2^4 ∣ blk.n) ∧
    ¬ ExactOn referenceFFT (2^4) 2 384 [⟨1, 8⟩, ⟨4, 4⟩] (fun _ => True) ∧
    ExactOn referenceFFT (2^4) 2 384 [⟨1, 9⟩, ⟨4, 4⟩] (fun _ => True) := by
  refine ⟨C84_whole_blocks_are_exact referenceFFT_lawful (by norm_num) (by norm_num) (by norm_num) tight_example, ?_, ?_⟩
  · rw [C84_exact_iff_clear referenceFFT_lawful (by norm_num) (by norm_num) (by norm_num) (by norm_num) (by norm_num) tight_example]
    intro h
    have := h (8 * 2^4, ⟨4, 4⟩) (by simp [withStarts])
    norm_num at this
  · refine C84_clear_schemes_are_exact referenceFFT_lawful (by norm_num) (by norm_num) (by norm_num) ?_ ?_
    · exact
      { first := by norm_num
        power := by intro l hl; simp only [List.mem_singleton] at hl; subst hl; exact ⟨2, by norm_num, rfl⟩
        parts := by intro l hl; simp only [List.mem_singleton] at hl; subst hl; norm_num
        small := by intro l hl; simp only [List.mem_singleton] at hl; subst hl; norm_num
        inside := by intro q hq; simp only [withStarts, List.mem_singleton] at hq; subst hq; norm_num
        covers := by simp [partSamples]
        twoPartitions := by intro q hq; simp only [withStarts, List.mem_singleton] at hq; subst hq; norm_num
        inOrder := by simp [withStarts] }
    · intro q hq; simp only [withStarts, List.mem_singleton] at hq; subst hq; norm_num

/-! ## What the generator of the tables guarantees -/

/-- The only viable partitioning of 23 blocks (of 16 samples) that costs at most as much as 7 partitions of one block and 4 of
four blocks. -/
theorem cheapest_23 {bs : List ℕ} (hv : Viable bs) (hc : CoversBlocks 23 bs) (hle : 5 * partitioningCost 16 bs ≤ 438) :
    (∀ b ∈ bs, b = 1 ∨ b = 4) ∧ bs.count 1 = 7 ∧ bs.count 4 = 4 := by
  have hsmall : ∀ pre b post, bs = pre ++ b :: post → pre ≠ [] → 2 * b ≤ 23 := by
    intro pre b post e hp
    have h1 := hv.clearance pre b post e hp
    have h2 : bs.dropLast.sum = pre.sum + (b :: post).dropLast.sum := by
      rw [e, List.dropLast_append_of_ne_nil (by simp), List.sum_append]
    have := hc.1
    omega
  have hexp : ∀ pre j post, bs = pre ++ 2 ^ j :: post → pre ≠ [] → j < 4 := by
    intro pre j post e hp
    have h1 := hsmall pre _ post e hp
    have : (2:ℕ) ^ j < 2 ^ 4 := by omega
    exact (Nat.pow_lt_pow_iff_right (by norm_num)).mp this
  have hmax : ∀ b ∈ bs, b ≤ 2 ^ 12 := by
    intro b hb
    obtain ⟨pre, post, e⟩ := List.append_of_mem hb
    by_cases hp : pre = []
    · subst hp
      have := hv.first
      rw [e] at this
      simp at this
      rw [this]
      norm_num
    · have := hsmall pre b post e hp
      omega
  obtain ⟨js, i1, i2, _, i4, i5, i6⟩ := Garcia.lower_bound 4 bs hv hmax
  have hsub : js.Sublist (List.range' (0 + 1) 3) := Garcia.sublist_range js 0 i1 fun j hj => by
    obtain ⟨pre, post, e, hp⟩ := i2 j hj
    have := hexp pre j post e hp
    omega
  have hmem := List.mem_sublists.mpr hsub
  have hsum := hc.2
  have e16 : ((2:ℕ) ^ 4) = 16 := by norm_num
  rw [e16] at i5
  have hcost : (20 * bs.length + Garcia.newCost 4 js : ℝ) ≤ 458 := by linarith
  have hcost' : 20 * bs.length + Garcia.newCost 4 js ≤ 458 := by exact_mod_cast hcost
  have hjs : js = [2] ∧ bs.length = 11 ∧ bs.sum = 23 := by
    have hl : (List.range' (0 + 1) 3).sublists = [[], [1], [2], [1, 2], [3], [1, 3], [2, 3], [1, 2, 3]] := by decide
    rw [hl] at hmem
    simp only [List.mem_cons, List.not_mem_nil, or_false] at hmem
    rcases hmem with rfl | rfl | rfl | rfl | rfl | rfl | rfl | rfl <;>
      simp [Garcia.newCost, Garcia.weight, Garcia.W] at i4 hcost' <;> first | omega | exact ⟨rfl, by omega, by omega⟩
  obtain ⟨rfl, hlen, hs⟩ := hjs
  have h14 : ∀ b ∈ bs, b = 1 ∨ b = 4 := by
    intro b hb
    refine (i6 b hb).imp_right ?_
    rintro ⟨j, hj, rfl⟩
    rw [List.mem_singleton] at hj
    subst hj; norm_num
  have hcount : ∀ l : List ℕ, (∀ b ∈ l, b = 1 ∨ b = 4) → l.length = l.count 1 + l.count 4 ∧ l.sum = l.count 1 + 4 * l.count 4 := by
    intro l
    induction l with
    | nil => simp
    | cons a l ih =>
      intro h
      obtain ⟨h1, h2⟩ := ih fun b hb => h b (by simp [hb])
      rcases h a (by simp) with rfl | rfl
      · simp only [List.length_cons, List.sum_cons, List.count_cons, h1, h2]; simp; omega
      · simp only [List.length_cons, List.sum_cons, List.count_cons, h1, h2]; simp; omega
  obtain ⟨c1, c2⟩ := hcount bs h14
  exact ⟨h14, by omega, by omega⟩

theorem table_23 {bs : List ℕ} {table : List (ℕ × ℕ)} (h : (∀ b ∈ bs, b = 1 ∨ b = 4) ∧ bs.count 1 = 7 ∧ bs.count 4 = 4)
    (hT : Tabulates 16 bs table) : table = [(16, 7), (64, 4)] := by
  obtain ⟨h1, h2, h3⟩ := h
  have m1 : (1:ℕ) ∈ bs := List.count_pos_iff.mp (by omega)
  have m4 : (4:ℕ) ∈ bs := List.count_pos_iff.mp (by omega)
  have hm : ∀ e : ℕ × ℕ, e ∈ table ↔ e = (16, 7) ∨ e = (64, 4) := by
    rintro ⟨s, c⟩
    rw [hT.2 s c]
    constructor
    · rintro ⟨b, hb, rfl, rfl⟩
      rcases h1 b hb with rfl | rfl
      · left; rw [h2]
      · right; rw [h3]
    · rintro (h | h) <;> cases h
      · exact ⟨1, m1, by norm_num, h2.symm⟩
      · exact ⟨4, m4, by norm_num, h3.symm⟩
  have hp := hT.1
  rcases table with _ | ⟨a, _ | ⟨b, _ | ⟨c, t⟩⟩⟩
  · have := (hm (16, 7)).mpr (Or.inl rfl); simp at this
  · have w1 := (hm (16, 7)).mpr (Or.inl rfl)
    have w2 := (hm (64, 4)).mpr (Or.inr rfl)
    simp only [List.mem_singleton] at w1 w2
    rw [← w1] at w2; simp at w2
  · have wa := (hm a).mp (by simp)
    have wb := (hm b).mp (by simp)
    simp only [List.map_cons, List.map_nil, List.pairwise_cons, List.mem_singleton, forall_eq] at hp
    rcases wa with rfl | rfl <;> rcases wb with rfl | rfl <;> simp at hp ⊢
  · have wa := (hm a).mp (by simp)
    have wb := (hm b).mp (by simp)
    have wc := (hm c).mp (by simp)
    simp only [List.map_cons, List.pairwise_cons, List.mem_cons] at hp
    have p1 := hp.1 b.1 (Or.inl rfl)
    have p2 := hp.2.1 c.1 (Or.inl rfl)
    rcases wa with rfl | rfl <;> rcases wb with rfl | rfl <;> rcases wc with rfl | rfl <;> simp at p1 p2

/-- **C84 (the generator).** The script that makes the tables doesn't ensure the extra block: for a block size of 16 samples and an
impulse response of 368 samples its only result is 7 partitions of 16 samples and 4 of 64. Compiled into the library and looked up for
such a response, this table gives a usable scheme with which the convolver is exact in whole blocks only. -/
theorem C84_generated_tables_can_be_wrong :
    (∃ tables, Garcia.findOptimum 16 368 = some tables ∧ tables ≠ [] ∧ ∀ table ∈ tables, table = [(16, 7), (64, 4)]) ∧
    ∃ layout scheme, layout = (Garcia.normaliseResult [(16, 7), (64, 4)] 16).map (fun e => Layout.mk e.1 e.2) ∧
      getPartitionScheme [(16, [⟨368, layout⟩])] 16 368 = some scheme ∧
      ∀ F, Lawful F → ∀ nch, 0 < nch → ExactOn F 16 nch 368 scheme (fun blk => 16 ∣ blk.n) ∧ ¬ ExactOn F 16 nch 368 scheme (fun _ => True) := by
  constructor
  · obtain ⟨tables, h1, h2, h3⟩ := C58_generator_is_optimal (latency := 16) (irSize := 368) (by norm_num) (by norm_num)
    refine ⟨tables, h1, h2, fun table ht => ?_⟩
    obtain ⟨bs, hv, hc, hT, hopt⟩ := h3 table ht
    have e23 : 368 / 16 = 23 := by norm_num
    rw [e23] at hc hopt
    obtain ⟨r1, r2⟩ : Viable (Garcia.expand [⟨1, 7⟩, ⟨4, 4⟩]) ∧ 5 * partitioningCost (2^4) (Garcia.expand [⟨1, 7⟩, ⟨4, 4⟩]) = (438 : ℕ) := by
      obtain ⟨e1, ⟨pre', e2⟩, e3⟩ := Garcia.extend_same (2 ^ 4) 6 [] 1 Garcia.viable_single
      rw [List.nil_append] at e1 e2 e3
      have := Garcia.rowFold_spec (lg := 4) [⟨4, 4⟩] pre' 1 120 438 (by rw [← e2]; exact e1) (by
        rw [← e2, e3]; simp [partitioningCost]; norm_num) (by rw [← e2]; decide)
      rw [← e2] at this
      exact this
    have e16 : ((2:ℕ) ^ 4) = 16 := by norm_num
    rw [e16] at r2
    have := hopt _ r1 (by unfold CoversBlocks; decide)
    refine table_23 (cheapest_23 hv hc ?_) hT
    push_cast at r2
    linarith
  · have hu : UsableScheme (2^4) 368 8 [⟨4, 4⟩] :=
      { tight_example with
        inside := by intro q hq; simp only [withStarts, List.mem_singleton] at hq; subst hq; norm_num
        covers := by simp [partSamples] }
    refine ⟨[⟨1, 7⟩, ⟨4, 4⟩], [⟨1, 8⟩, ⟨4, 4⟩], by decide, ?_, fun F hF nch hnch => ⟨?_, ?_⟩⟩
    · have hz : fdiv 0 64 = 0 := by simp [fdiv, f32]
      simp [getPartitionScheme, findNearest, sortSchemes, findInSorted, findLoop, reduceRev, bumpFront, Layout.samples, hz]
    · exact C84_whole_blocks_are_exact (b := 4) hF (by norm_num) (by norm_num) (by norm_num) hu
    · have := (C84_exact_iff_clear (b := 4) (nch := nch) hF (by norm_num) (by norm_num) (by norm_num) (by norm_num) hnch hu).not
      refine this.mpr ?_
      intro h
      have := h (8 * 2^4, ⟨4, 4⟩) (by simp [withStarts])
      norm_num at this

end Zones.Props
