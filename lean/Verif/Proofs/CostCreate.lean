import Verif.Proofs.CostCall
import Verif.Proofs.NUPC

/-!
# The cost of a convolver's calls, from its creation on
-/

namespace Zones.Proofs
open Zones.Model Zones.Spec

theorem passesBegun_mod (B t n : ℕ) : passesBegun B (t % B) n = passesBegun B t n := by
  unfold passesBegun
  congr 1
  refine Finset.filter_congr fun i _ => ?_
  rw [Nat.dvd_iff_mod_eq_zero (n := t % B + i), Nat.dvd_iff_mod_eq_zero (n := t + i), Nat.mod_add_mod]

theorem passesBegun_add {B : ℕ} (t c : ℕ) : passesBegun B t (B + c) = passesBegun B t B + passesBegun B t c := by
  unfold passesBegun
  simp only [Finset.card_filter]
  rw [Finset.sum_range_add]
  congr 1
  refine Finset.sum_congr rfl fun i _ => ?_
  have h1 : B ∣ B + i ↔ B ∣ i := (Nat.dvd_add_right (dvd_refl B))
  have h2 : B ∣ t + (B + i) ↔ B ∣ t + i := by
    rw [show t + (B + i) = B + (t + i) by omega]; exact Nat.dvd_add_right (dvd_refl B)
  rw [if_congr (or_congr h1 h2) rfl rfl]

theorem passesBegun_small {B col n : ℕ} (hc : col < B) (hn : n ≤ B) : passesBegun B col n = passesIn B col n := by
  unfold passesBegun passesIn
  by_cases h0 : n = 0
  · subst h0; simp
  rw [if_neg h0]
  by_cases hz : col = 0
  · subst hz
    rw [Nat.div_eq_of_lt (by omega), zero_add, Finset.card_eq_one]
    refine ⟨0, Finset.ext fun i => ?_⟩
    simp only [Finset.mem_filter, Finset.mem_range, Finset.mem_singleton, zero_add, or_self]
    constructor
    · rintro ⟨h1, h2⟩
      exact Nat.eq_zero_of_dvd_of_lt h2 (by omega)
    · rintro rfl
      exact ⟨by omega, dvd_zero _⟩
  · by_cases hx : B < col + n
    · rw [show col + n - 1 = (col + n - 1 - B) + B by omega, Nat.add_div_right _ (by omega), Nat.div_eq_of_lt (by omega), Finset.card_eq_two]
      refine ⟨0, B - col, by omega, Finset.ext fun i => ?_⟩
      simp only [Finset.mem_filter, Finset.mem_range, Finset.mem_singleton, Finset.mem_insert]
      constructor
      · rintro ⟨h1, h2 | h2⟩
        · exact Or.inl (Nat.eq_zero_of_dvd_of_lt h2 (by omega))
        · obtain ⟨k, hk⟩ := h2
          rcases k with _ | _ | k
          · omega
          · right; omega
          · rw [Nat.mul_add, Nat.mul_add] at hk; omega
      · rintro (rfl | rfl)
        · exact ⟨by omega, Or.inl (dvd_zero _)⟩
        · exact ⟨by omega, Or.inr (by rw [show col + (B - col) = B by omega])⟩
    · rw [Nat.div_eq_of_lt (by omega), zero_add, Finset.card_eq_one]
      refine ⟨0, Finset.ext fun i => ?_⟩
      simp only [Finset.mem_filter, Finset.mem_range, Finset.mem_singleton]
      constructor
      · rintro ⟨h1, h2 | h2⟩
        · exact Nat.eq_zero_of_dvd_of_lt h2 (by omega)
        · have := Nat.eq_zero_of_dvd_of_lt h2 (by omega); omega
      · rintro rfl
        exact ⟨by omega, Or.inl (dvd_zero _)⟩

theorem callPasses_eq {B t : ℕ} (hB : 0 < B) (n : ℕ) : callPasses B (t % B) n = passesBegun B t n := by
  have hc := Nat.mod_lt t hB
  rw [← passesBegun_mod]
  induction n using Nat.strong_induction_on with
  | _ n ih =>
    by_cases h : n < B
    · rw [passesBegun_small hc (by omega)]
      unfold callPasses
      rw [Nat.div_eq_of_lt h, Nat.mod_eq_of_lt h, Nat.zero_mul, zero_add]
    · obtain ⟨m, rfl⟩ : ∃ m, n = B + m := ⟨n - B, by omega⟩
      rw [passesBegun_add, passesBegun_small hc le_rfl, passesIn_full hc, ← ih m (by omega)]
      unfold callPasses
      rw [Nat.add_div_left _ hB, Nat.add_mod_left, Nat.succ_mul]
      omega

/-- the stages by logarithms of partition sizes -/
def logStages (l : List (ℕ × ℕ)) : List (ℕ × ℕ) := l.map fun st => (Nat.log 2 st.1, st.2)

theorem buildSubs_shape {b nch L : ℕ} {ir : Buf} {tail0 : ℕ → ℕ → ℕ → ℕ → ℝ} (hL : ir.n = L) (hL' : L ≤ 2^24) : ∀ {rest : List Layout} {off i : ℕ} {subs : List SubConv},
    GoodRest (2^b) L off rest → NUPC.buildSubs (2^b) nch ir tail0 off i rest = some subs →
    List.Forall₂ (fun st (c : SubConv) => 1 ≤ st.1 ∧ MShape b st.1 st.2 ir.ch nch 0 c.td) (logStages (stagesOf (2^b) L off rest)) subs
  | [], off, i, subs, _, e => by cases e; exact .nil
  | l :: rest, off, i, subs, ⟨⟨p, hp, hl⟩, h2, h3, h4, h5, h6, h7⟩, e => by
    unfold NUPC.buildSubs at e
    simp only at e
    split at e
    · obtain ⟨seg, e1, e⟩ := Option.bind_eq_some_iff.mp e
      obtain ⟨td, e2, e⟩ := Option.bind_eq_some_iff.mp e
      split at e
      · obtain ⟨tl, e3, e⟩ := Option.bind_eq_some_iff.mp e
        cases e
        unfold stagesOf logStages
        rw [List.map_cons]
        refine .cons ⟨?_, ?_⟩ (buildSubs_shape hL hL' h7 e3)
        · show 1 ≤ Nat.log 2 l.psb
          rw [hl, Nat.log_pow (by norm_num)]; exact hp
        · have hseg : seg.n = min (l.samples (2^b)) (ir.n - off) ∧ seg.ch = ir.ch := by
            unfold Buf.sub at e1
            split at e1
            · cases e1; exact ⟨rfl, rfl⟩
            · cases e1
          rw [hl] at e2
          have hm := MShape.create e2
          have hP : 2^(b+p) = l.psb * 2^b := by rw [hl, ← pow_add, add_comm]
          rw [hseg.2, hP, numPartitionsFor_eq (by rw [hl]; positivity) (by rw [hseg.1]; omega) h4, hseg.1, hL] at hm
          show MShape b (Nat.log 2 l.psb) _ ir.ch nch 0 td
          rw [hl, Nat.log_pow (by norm_num), ← hl]
          exact hm
      · cases e
    · cases e

theorem CShape.create {F : RealFFT} {ir : Buf} {maxB : ℕ} {spec : ConvolverSpec} {g : Garbage} {r0 : ℕ → ℕ → ℝ} {c : Convolver} {b n0 : ℕ} {rest : List Layout}
    (hn : 0 < ir.n) (hn' : ir.n ≤ 2^24) (hb : b ≤ 24)
    (e : Convolver.create F ir maxB spec g r0 = some c) (hB : internalBlockSize Convolver.po2Fuel maxB spec.internalBlockSize = some (2^b))
    (hsch : getPartitionScheme kGarciaResults (2^b) ir.n = some (⟨1, n0⟩ :: rest)) (hg : GoodRest (2^b) ir.n (n0 * 2^b) rest) :
    CShape b ir.ch ir.ch (2^(b+1)) (partitionsNeeded (2^b) (min (n0 * 2^b) ir.n)) (logStages (stagesOf (2^b) ir.n (n0 * 2^b) rest)) 0 0 c := by
  unfold Convolver.create at e
  rw [hB] at e
  rw [Option.bind_eq_bind, Option.bind_some] at e
  obtain ⟨nu, e1, e⟩ := Option.bind_eq_some_iff.mp e
  cases e
  unfold NUPC.create at e1
  rw [if_pos hn, hsch] at e1
  change NUPC.ofScheme F (2^b) ir.ch ir g (⟨1, n0⟩ :: rest) = some nu at e1
  unfold NUPC.ofScheme at e1
  obtain ⟨seg, e2, e1⟩ := Option.bind_eq_some_iff.mp e1
  obtain ⟨u, e3, e1⟩ := Option.bind_eq_some_iff.mp e1
  obtain ⟨subs, e4, e1⟩ := Option.bind_eq_some_iff.mp e1
  have e1 := Option.some.inj e1
  have hs0 : (Layout.mk 1 n0).samples (2^b) = n0 * 2^b := by simp [Layout.samples]
  rw [hs0] at e2 e4
  have hseg : seg.n = min (n0 * 2^b) ir.n := by
    unfold Buf.sub at e2
    split at e2
    · cases e2; rfl
    · cases e2
  have hsubs : List.Forall₂ (fun st (c : SubConv) => 1 ≤ st.1 ∧ MShape b st.1 st.2 ir.ch ir.ch 0 c.td)
      (logStages (stagesOf (2^b) ir.n (n0 * 2^b) rest)) subs := by
    cases rest with
    | nil => cases e4; exact .nil
    | cons l rest =>
      obtain ⟨_, _, _, _, h5, _, _⟩ := id hg
      rw [min_eq_left h5.le] at e4
      exact buildSubs_shape rfl hn' hg e4
  have hu : UShape ir.ch (2^(b+1)) (partitionsNeeded (2^b) (min (n0 * 2^b) ir.n)) u ∧ u.partSize = 2^b ∧ u.collected = 0 := by
    unfold UPC.create at e3
    rw [if_neg (by positivity)] at e3
    obtain ⟨fl, e5, e3⟩ := Option.bind_eq_some_iff.mp e3
    have e3 := Option.some.inj e3
    subst e3
    have ho : fftOrder (2^b) = b + 1 := by
      unfold fftOrder; rw [← pow_succ, Nat.clog_pow _ _ (by norm_num)]
    refine ⟨⟨?_, ?_, ?_⟩, rfl, rfl⟩
    · show (2^fftOrder (2^b)) * ir.ch = _
      rw [ho, mul_comm]
    · show (2^fftOrder (2^b)) * ir.ch = _
      rw [ho, mul_comm]
    · show numPartitionsFor (2^b) seg.n = _
      rw [numPartitionsFor_eq (by positivity) (by rw [hseg]; omega) (Nat.pow_le_pow_right (by norm_num) hb), hseg]
      rfl
  refine ⟨rfl, rfl, rfl, ?_⟩
  rw [← e1]
  refine NShape.reset (col := 0) ⟨⟨?_, hu.2.1, hu.2.2⟩, rfl, rfl, hu.1, ?_, ?_⟩
  · show 0 < 2^b
    positivity
  · intro hne
    have hne : subs ≠ [] := hne
    show (match subs.getLast? with
      | none => ((⟨0, 0, g.saved⟩ : Buf), (⟨0, 0, g.proc⟩ : Buf), (⟨0, 0, g.ring⟩ : Buf))
      | some last => (⟨ir.ch, 2^b, g.saved⟩, ⟨ir.ch, 2^b, g.proc⟩, ⟨ir.ch, last.delay, g.ring⟩)).2.1.ch = ir.ch
    rw [List.getLast?_eq_some_getLast hne]
  · simpa using hsubs

end Zones.Proofs
