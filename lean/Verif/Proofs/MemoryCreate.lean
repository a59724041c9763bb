import Verif.Spec.Memory
import Verif.Proofs.Memory

/-!
# The size of a new convolver's buffers
-/

namespace Zones.Proofs
open Zones.Model Zones.Spec

theorem buildVec_get {α : Type} {dflt : α} {f : ℕ → Option α} : ∀ {n : ℕ} {v : ℕ → α}, buildVec dflt f n = some v → ∀ i < n, f i = some (v i)
  | 0, _, _, i, hi => absurd hi (by omega)
  | n+1, v, h, i, hi => by
    obtain ⟨w, e1, h⟩ := Option.bind_eq_some_iff.mp h
    obtain ⟨a, e2, h⟩ := Option.bind_eq_some_iff.mp h
    cases h
    by_cases hn : i = n
    · subst hn; rw [Function.update_self]; exact e2
    · rw [Function.update_of_ne hn]; exact buildVec_get e1 i (by omega)

theorem multiFilter_cells {P : ℕ} {seg : Buf} {i : ℕ} {b : CBuf} (h : multiFilter P seg i = some b) : b.cells = 2 * (2 * P * seg.ch) := by
  unfold multiFilter at h
  obtain ⟨blk, e1, h⟩ := Option.bind_eq_some_iff.mp h
  obtain ⟨fp, e2, h⟩ := Option.bind_eq_some_iff.mp h
  rw [foldlM_keeps (size := CBuf.cells) ?_ _ _ _ h]
  · unfold CBuf.copyFromAudioBlock at e2
    split at e2
    · cases e2; rfl
    · cases e2
  · intro a c a' e
    unfold fftChannel at e
    obtain ⟨d, _, e⟩ := Option.bind_eq_some_iff.mp e
    obtain ⟨d', _, e⟩ := Option.bind_eq_some_iff.mp e
    cases e
    rfl

theorem filterPartition_cells {F : RealFFT} {P o n : ℕ} {ir : Buf} {i : ℕ} {b : CBuf} (h : UPC.filterPartition F P o n ir i = some b) : b.cells = 2 * (2^o * n) := by
  unfold UPC.filterPartition at h
  obtain ⟨part, e1, h⟩ := Option.bind_eq_some_iff.mp h
  rw [foldlM_keeps (size := CBuf.cells) ?_ _ _ _ h]
  · rfl
  · intro a c a' e
    unfold UPC.filterChannel at e
    split at e
    · cases e
    obtain ⟨d, _, e⟩ := Option.bind_eq_some_iff.mp e
    obtain ⟨d', _, e⟩ := Option.bind_eq_some_iff.mp e
    unfold UPC.transformChannel at e
    simp only at e
    split at e
    · cases e; rfl
    · cases e

theorem sum_const_range {f : ℕ → ℕ} {n c : ℕ} (h : ∀ i < n, f i = c) : ((List.range n).map f).sum = n * c := by
  rw [List.map_congr_left (g := fun _ => c) fun i hi => h i (List.mem_range.mp hi)]
  simp

theorem FDL.mk0_sum (c k p : ℕ) : (FDL.mk0 c k p).buffers.sum = k * (2 * (p * c)) :=
  sum_const_range fun _ _ => rfl

theorem TDUPC.create_sum (B psb k : ℕ) (fl : ℕ → CBuf) (fc off nd : ℕ) (t0 : ℕ → ℕ → ℝ) :
    (TDUPC.create B psb k fl fc off nd t0).buffers.sum = k * (2 * (2 * (psb * B))) + 3 * (2 * (2 * (psb * B))) + psb * B := by
  unfold TDUPC.create
  simp only
  rw [(tdReset_mem _).1]
  unfold TDUPC.buffers
  simp only [List.sum_append, FDL.mk0_sum, List.sum_cons, List.sum_nil]
  rw [show (Stages.mk0 (2 * (B * psb))).buffers.sum = 3 * (2 * ((2 * (B * psb)) * 1)) from sum_const_range fun _ _ => rfl]
  simp only [Buf.cells]
  ring

theorem Multi.create_sum {B nch psb : ℕ} {seg : Buf} {tail0 : ℕ → ℕ → ℕ → ℝ} {m : Multi} (hseg : seg.ch = nch) (h : Multi.create B nch psb seg tail0 = some m) :
    m.buffers.sum = nch * (2 * numPartitionsFor (psb * B) seg.n * (2 * (2 * (psb * B))) + 3 * (2 * (2 * (psb * B))) + psb * B) := by
  unfold Multi.create at h
  simp only at h
  split at h
  · cases h
  simp only [bind, Option.bind_eq_some_iff] at h
  obtain ⟨v, e, h⟩ := h
  split at h
  · cases h
  simp only [pure, Option.some.injEq] at h
  subst h
  unfold Multi.buffers
  simp only [channelPlans_length]
  by_cases h0 : nch = 0
  · subst h0; simp
  rw [if_neg h0, List.sum_append, List.flatMap_def, List.sum_flatten, List.map_map]
  rw [sum_const_range (n := nch) (c := numPartitionsFor (psb * B) seg.n * (2 * (2 * (psb * B))) + 3 * (2 * (2 * (psb * B))) + psb * B)
    (fun c _ => (by exact TDUPC.create_sum _ _ _ _ _ _ _ _))]
  change ((List.range (numPartitionsFor (psb * B) seg.n)).map fun i => (v i).cells).sum + _ = _
  rw [sum_const_range (n := numPartitionsFor (psb * B) seg.n) (c := 2 * (2 * (psb * B) * nch)) fun i hi => by
    have := multiFilter_cells (buildVec_get e i hi)
    rw [hseg] at this
    exact this]
  ring

theorem UPC.create_sum {F : RealFFT} {b n : ℕ} {ir : Buf} {r0 : ℕ → ℕ → ℝ} {u : UPC} (h : UPC.create F (2^b) n ir r0 = some u) :
    u.buffers.sum = n * (2 * 2^b + 2 * numPartitionsFor (2^b) ir.n * (2 * (2 * 2^b)) + 2 * (2 * (2 * 2^b))) := by
  unfold UPC.create at h
  rw [if_neg (by positivity)] at h
  obtain ⟨fl, e, h⟩ := Option.bind_eq_some_iff.mp h
  cases h
  have ho : fftOrder (2^b) = b + 1 := by
    unfold fftOrder; rw [← pow_succ, Nat.clog_pow _ _ (by norm_num)]
  rw [ureset_mem]
  unfold UPC.buffers
  simp only [List.sum_append, FDL.mk0_sum, List.sum_cons, List.sum_nil]
  rw [sum_const_range (n := numPartitionsFor (2^b) ir.n) fun i hi => filterPartition_cells (buildVec_get e i hi), ho]
  simp only [Buf.cells, CBuf.cells, CBuf.size, CBuf.mk0]
  rw [pow_succ]
  ring

/-- what the stages need, and where the last of them starts -/
theorem buildSubs_sum {b L : ℕ} {ir : Buf} {tail0 : ℕ → ℕ → ℕ → ℕ → ℝ} (hL : ir.n = L) (hL' : L ≤ 2^24) : ∀ {rest : List Layout} {off i : ℕ} {subs : List SubConv},
    GoodRest (2^b) L off rest → NUPC.buildSubs (2^b) ir.ch ir tail0 off i rest = some subs →
    (subs.flatMap fun c => c.td.buffers).sum =
        ir.ch * ((stagesOf (2^b) L off rest).map fun st => 2 * st.2 * (2 * (2 * (st.1 * 2^b))) + 3 * (2 * (2 * (st.1 * 2^b))) + st.1 * 2^b).sum ∧
      subs.getLast?.map (fun c => c.delay) = rest.getLast?.map (fun l => off + lastStart (2^b) rest + 2^b - 2 * (l.psb * 2^b))
  | [], off, i, subs, _, e => by cases e; exact ⟨by simp [stagesOf], rfl⟩
  | l :: rest, off, i, subs, ⟨⟨p, hp, hl⟩, h2, h3, h4, h5, h6, h7⟩, e => by
    unfold NUPC.buildSubs at e
    simp only at e
    split at e
    · obtain ⟨seg, e1, e⟩ := Option.bind_eq_some_iff.mp e
      obtain ⟨td, e2, e⟩ := Option.bind_eq_some_iff.mp e
      split at e
      · obtain ⟨tl, e3, e⟩ := Option.bind_eq_some_iff.mp e
        cases e
        obtain ⟨k1, k2⟩ := buildSubs_sum hL hL' h7 e3
        have hseg : seg.n = min (l.samples (2^b)) (ir.n - off) ∧ seg.ch = ir.ch := by
          unfold Buf.sub at e1
          split at e1
          · cases e1; exact ⟨rfl, rfl⟩
          · cases e1
        constructor
        · unfold stagesOf
          rw [List.flatMap_cons, List.sum_append, k1, List.map_cons, List.sum_cons, Nat.mul_add, Multi.create_sum hseg.2 e2,
            numPartitionsFor_eq (by rw [hl]; positivity) (by rw [hseg.1]; omega) h4, hseg.1, hL]
          rfl
        · cases rest with
          | nil => cases e3; rfl
          | cons l' rest =>
            have hne : tl ≠ [] := by
              rintro rfl
              simp [List.getLast?_cons] at k2
            rw [List.getLast?_cons_of_ne_nil hne, k2, List.getLast?_cons_cons]
            show _ = Option.map (fun k : Layout => off + (l.psb * l.np * 2^b + lastStart (2^b) (l' :: rest)) + 2^b - 2 * (k.psb * 2^b)) _
            congr 1
            funext k
            rw [Nat.add_assoc off]
            rfl
      · cases e
    · cases e

theorem create_sum {F : RealFFT} {ir : Buf} {maxB : ℕ} {spec : ConvolverSpec} {g : Garbage} {r0 : ℕ → ℕ → ℝ} {c : Convolver} {b n0 : ℕ} {rest : List Layout}
    (hn : 0 < ir.n) (hn' : ir.n ≤ 2^24) (hb : b ≤ 24)
    (e : Convolver.create F ir maxB spec g r0 = some c) (hB : internalBlockSize Convolver.po2Fuel maxB spec.internalBlockSize = some (2^b))
    (hsch : getPartitionScheme kGarciaResults (2^b) ir.n = some (⟨1, n0⟩ :: rest)) (hg : GoodRest (2^b) ir.n (n0 * 2^b) rest) :
    c.buffers.sum = ir.ch * floatsPerChannel (2^b) ir.n ⟨1, n0⟩ rest := by
  unfold Convolver.create at e
  rw [hB] at e
  rw [Option.bind_eq_bind, Option.bind_some] at e
  obtain ⟨nu, e1, e⟩ := Option.bind_eq_some_iff.mp e
  cases e
  unfold NUPC.create at e1
  rw [if_pos hn, hsch] at e1
  change NUPC.ofScheme F (2^b) ir.ch ir g (⟨1, n0⟩ :: rest) = some nu at e1
  unfold NUPC.ofScheme at e1
  obtain ⟨seg, e2, e1⟩ := Option.bind_eq_some_iff.mp e1
  obtain ⟨u, e3, e1⟩ := Option.bind_eq_some_iff.mp e1
  obtain ⟨subs, e4, e1⟩ := Option.bind_eq_some_iff.mp e1
  have e1 := Option.some.inj e1
  have hs0 : (Layout.mk 1 n0).samples (2^b) = n0 * 2^b := by simp [Layout.samples]
  rw [hs0] at e2 e4
  have hseg : seg.n = min (n0 * 2^b) ir.n := by
    unfold Buf.sub at e2
    split at e2
    · cases e2; rfl
    · cases e2
  have hu := UPC.create_sum e3
  rw [numPartitionsFor_eq (by positivity) (by rw [hseg]; omega) (Nat.pow_le_pow_right (by norm_num) hb), hseg] at hu
  have hoff : rest ≠ [] → min (n0 * 2^b) ir.n = n0 * 2^b := by
    intro h
    cases rest with
    | nil => exact absurd rfl h
    | cons l rest =>
      obtain ⟨_, _, _, _, h5, _, _⟩ := id hg
      exact min_eq_left h5.le
  unfold Convolver.buffers
  rw [← e1, nreset_mem]
  unfold NUPC.buffers floatsPerChannel
  simp only [List.sum_cons, List.sum_append, List.sum_nil, hu]
  cases rest with
  | nil =>
    cases e4
    simp only [List.getLast?_nil, stagesOf, List.map_nil, List.sum_nil, List.flatMap_nil, Buf.cells]
    show _ = ir.ch * (_ + _ + 2 * partitionsNeeded (2^b) (min (n0 * 2^b) ir.n) * _ + _ + _ + _)
    rw [show ∀ n, (n + 2^b - 1) / 2^b = partitionsNeeded (2^b) n from fun _ => rfl]
    ring
  | cons l rest =>
    rw [hoff (by simp)] at e4
    obtain ⟨k1, k2⟩ := buildSubs_sum rfl hn' hg e4
    have hne : subs ≠ [] := by
      rintro rfl
      simp [List.getLast?_cons] at k2
    rw [k1]
    rw [List.getLast?_eq_some_getLast hne, List.getLast?_eq_some_getLast (l := l :: rest) (by simp), Option.map_some, Option.map_some, Option.some.injEq] at k2
    rw [List.getLast?_eq_some_getLast hne, List.getLast?_eq_some_getLast (l := l :: rest) (by simp)]
    simp only [Buf.cells, k2]
    rw [show lastStart (2^b) (⟨1, n0⟩ :: l :: rest) = n0 * 2^b + lastStart (2^b) (l :: rest) by show 1 * n0 * 2^b + _ = _; rw [Nat.one_mul]]
    rw [show ∀ n, (n + 2^b - 1) / 2^b = partitionsNeeded (2^b) n from fun _ => rfl]
    ring

/-! ## A linear bound -/

theorem stages_le {b L : ℕ} : ∀ {rest : List Layout} {off : ℕ}, rest ≠ [] → GoodRest (2^b) L off rest → 
    ∃ l, rest.getLast? = some l ∧ off + lastStart (2^b) rest < L ∧ 2 * (l.psb * 2^b) + 2^b ≤ off + lastStart (2^b) rest ∧
      ((stagesOf (2^b) L off rest).map fun st => st.1 * 2^b).sum ≤ lastStart (2^b) rest + l.psb * 2^b ∧
      ((stagesOf (2^b) L off rest).map fun st => st.2 * (st.1 * 2^b)).sum ≤ L - off + l.psb * 2^b
  | [], off, h, _ => absurd rfl h
  | [l], off, _, ⟨⟨p, hp, hl⟩, h2, h3, h4, h5, h6, h7⟩ => by
    refine ⟨l, rfl, h5, h3, by simp [stagesOf, lastStart], ?_⟩
    simp only [stagesOf, List.map_cons, List.map_nil, List.sum_cons, List.sum_nil, add_zero]
    unfold partitionsNeeded
    have := Nat.div_mul_le_self (min (l.psb * l.np * 2^b) (L - off) + l.psb * 2^b - 1) (l.psb * 2^b)
    omega
  | l :: l' :: rest, off, _, ⟨⟨p, hp, hl⟩, h2, h3, h4, h5, h6, h7⟩ => by
    have h7' : GoodRest (2^b) L (off + l.psb * l.np * 2^b) (l' :: rest) := h7
    obtain ⟨k, k0, k1, k2, k3, k4⟩ := stages_le (by simp) h7'
    have hP : 0 < l.psb * 2^b := by rw [hl]; positivity
    have hle : l.psb * 2^b ≤ l.psb * l.np * 2^b := by
      rw [Nat.mul_right_comm]; exact Nat.le_mul_of_pos_right _ h2
    refine ⟨k, by rw [List.getLast?_cons_cons]; exact k0, ?_, ?_, ?_, ?_⟩
    · show off + (l.psb * l.np * 2^b + lastStart (2^b) (l' :: rest)) < L
      omega
    · show _ ≤ off + (l.psb * l.np * 2^b + lastStart (2^b) (l' :: rest))
      omega
    · rw [stagesOf, List.map_cons, List.sum_cons]
      show _ ≤ (l.psb * l.np * 2^b + lastStart (2^b) (l' :: rest)) + _
      simp only
      omega
    · rw [stagesOf, List.map_cons, List.sum_cons]
      simp only
      have : partitionsNeeded (l.psb * 2^b) (min (l.psb * l.np * 2^b) (L - off)) * (l.psb * 2^b) ≤ l.psb * l.np * 2^b := by
        refine le_trans (Nat.mul_le_mul_right _ (m := l.np) ?_) (le_of_eq (by ring))
        unfold partitionsNeeded
        rw [Nat.div_le_iff_le_mul_add_pred hP]
        have := Nat.min_le_left (l.psb * l.np * 2^b) (L - off)
        rw [show l.psb * 2^b * l.np = l.psb * l.np * 2^b by ring]
        omega
      omega

theorem floats_le {b L n0 : ℕ} {rest : List Layout} (hL : 0 < L) (hg : GoodRest (2^b) L (n0 * 2^b) rest) :
    floatsPerChannel (2^b) L ⟨1, n0⟩ rest ≤ 33 * L + 19 * 2^b := by
  unfold floatsPerChannel
  simp only
  have h0 : partitionsNeeded (2^b) (min (n0 * 2^b) L) * 2^b ≤ min (n0 * 2^b) L + 2^b := by
    unfold partitionsNeeded
    exact (Nat.div_mul_le_self (min (n0 * 2^b) L + 2^b - 1) (2^b)).trans (Nat.sub_le _ _)
  have hB : 0 < 2^b := by positivity
  have hs : ∀ l : List (ℕ × ℕ), (l.map fun st => 2 * st.2 * (2 * (2 * (st.1 * 2^b))) + 3 * (2 * (2 * (st.1 * 2^b))) + st.1 * 2^b).sum =
      8 * (l.map fun st => st.2 * (st.1 * 2^b)).sum + 13 * (l.map fun st => st.1 * 2^b).sum := by
    intro l
    induction l with
    | nil => rfl
    | cons a l ih => simp only [List.map_cons, List.sum_cons, ih]; ring
  rw [hs]
  rw [show 2 * partitionsNeeded (2^b) (min (n0 * 2^b) L) * (2 * (2 * 2^b)) = 8 * (partitionsNeeded (2^b) (min (n0 * 2^b) L) * 2^b) by ring]
  by_cases hr : rest = []
  · subst hr
    simp only [stagesOf, List.map_nil, List.sum_nil, List.getLast?_nil]
    generalize partitionsNeeded (2^b) (min (n0 * 2^b) L) * 2^b = q at *
    generalize n0 * 2^b = m at *
    omega
  · obtain ⟨l, k0, k1, k2, k3, k4⟩ := stages_le hr hg
    rw [k0]
    simp only
    have e : lastStart (2^b) (⟨1, n0⟩ :: rest) = n0 * 2^b + lastStart (2^b) rest := by
      cases rest with
      | nil => exact absurd rfl hr
      | cons a rest => show 1 * n0 * 2^b + _ = _; rw [Nat.one_mul]
    rw [e]
    have h1 : partitionsNeeded (2^b) (min (n0 * 2^b) L) * 2^b ≤ n0 * 2^b := by
      refine Nat.mul_le_mul_right _ ?_
      unfold partitionsNeeded
      rw [Nat.div_le_iff_le_mul_add_pred (by positivity), Nat.mul_comm (2^b)]
      omega
    omega

end Zones.Proofs
