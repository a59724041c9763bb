import Verif.Spec.EngineBitsThreads
import Verif.Props.EngineBits
import Verif.Props.EngineFormats
import Verif.Props.EngineCutsThreads
import Verif.Props.EngineLevelThreads

/-!
# C94 in the concurrent system
-/

open Zones.Spec Zones.Model Zones.Proofs Zones.Proofs.R

namespace Zones.Props

theorem other_out {V : Type} {ops : ConvOps V} {c : Core V} {batch : List (Held V)} {k : Call} {r : Core V × Core.Effects V} (h : c.call ops batch k = some r) (hk : ∀ b, k ≠ .process b) : r.2.out = none := by
  unfold Core.call at h
  cases k with
  | process b => exact absurd rfl (hk b)
  | reset => simp only [Core.callBody, Option.some.injEq] at h; subst h; rfl
  | clear => simp only [Core.callBody, Option.some.injEq] at h; subst h; rfl
  | prepare p g => simp only [Core.callBody, Option.some.injEq] at h; subst h; rfl

theorem perform_snoc_out {V : Type} {ops : ConvOps V} {c : Core V} {xs : List (List (Held V) × Call)} {y : List (Held V) × Call} {r : Core V × List Buf}
    (h : perform ops c (xs ++ [y]) = some r) : ∃ q x, perform ops c xs = some q ∧ q.1.call ops y.1 y.2 = some x ∧ r.2 = q.2 ++ x.2.out.toList := by
  rw [perform_append, Option.bind_eq_some_iff] at h
  obtain ⟨q, h1, h2⟩ := h
  simp only [perform, Option.map_eq_some_iff, Option.bind_eq_some_iff] at h2
  obtain ⟨z, ⟨x, h3, y', hy, rfl⟩, rfl⟩ := h2
  cases hy
  exact ⟨q, x, h1, h3, by simp⟩

variable [Arith]

/-- The output of the last parts of two histories, of which the input has been the same for long enough. -/
theorem outs_agree {F : RealFFT} (hF : HalfSpectrum F) (A : GainArith) {N L : ℕ} {irs : ℕ → Buf} (hZ : ∀ i, ZeroSafe L (irs i)) {maxBs : ℕ → ℕ} {specs : ℕ → ConvolverSpec} {Bs : ℕ → ℕ}
    {pre pre' post post' : List (List (Held Convolver) × Call)} (hpre : SameSizes pre pre') (hpost : SameInput N post post')
    (hL : ∀ b ∈ pre, ∀ g ∈ b.1, (irs g.id).n + 2 ^ L + Bs g.id ≤ samplesIn post + 1) {q q' : Core Convolver × List Buf}
    (hq : perform (convolverOpsR F A) {} (pre ++ post) = some q) (hq' : perform (convolverOpsR F A) {} (pre' ++ post') = some q')
    (rest : List (List (Held Convolver) × Call)) : ∀ {rest' : List (List (Held Convolver) × Call)} {r r' : Core Convolver × List Buf},
    WellFormed N (fun _ => True) none (pre ++ (post ++ rest)) → CreatedFor F N L irs maxBs specs Bs (pre ++ (post ++ rest)) → CreatedFor F N L irs maxBs specs Bs (pre' ++ (post' ++ rest')) →
    SameInput N rest rest' → perform (convolverOpsR F A) {} (pre ++ (post ++ rest)) = some r → perform (convolverOpsR F A) {} (pre' ++ (post' ++ rest')) = some r' →
    ∃ os os', r.2 = q.2 ++ os ∧ r'.2 = q'.2 ++ os' ∧ List.Forall₂ (SameBlock N) os os' := by
  induction rest using List.reverseRecOn with
  | nil =>
    intro rest' r r' _ _ _ hs h h'
    cases hs
    rw [List.append_nil, hq] at h
    rw [List.append_nil, hq'] at h'
    cases h; cases h'
    exact ⟨[], [], by simp, by simp, .nil⟩
  | append_singleton xs y ih =>
    intro rest' r r' hw hC hC' hs h h'
    have hs0 := hs
    have hr := List.forall₂_reverse_iff.2 hs
    rw [List.reverse_append, List.reverse_singleton, List.singleton_append] at hr
    obtain ⟨z, zs, hz, hzs, e⟩ := List.forall₂_cons_left_iff.1 hr
    have e' : rest' = zs.reverse ++ [z] := by
      rw [← List.reverse_reverse rest', e, List.reverse_cons]
    subst e'
    have hxs : SameInput N xs zs.reverse := by
      have := List.forall₂_reverse_iff.2 hzs
      rwa [List.reverse_reverse] at this
    generalize zs.reverse = zs at hxs hs0 h' hC'
    have f1 : pre ++ (post ++ (xs ++ [y])) = pre ++ (post ++ xs) ++ [y] := by simp
    have f1' : pre' ++ (post' ++ (zs ++ [z])) = pre' ++ (post' ++ zs) ++ [z] := by simp
    have f2 : pre ++ (post ++ (xs ++ [y])) = pre ++ (post ++ xs ++ [y]) := by simp
    have f2' : pre' ++ (post' ++ (zs ++ [z])) = pre' ++ (post' ++ zs ++ [z]) := by simp
    have hw0 := hw
    have hC0 := hC
    have hC0' := hC'
    rw [f1] at h hw hC
    rw [f1'] at h' hC'
    rw [f2] at hw0 hC0
    rw [f2'] at hC0'
    obtain ⟨u, x, p1, p2, p3⟩ := perform_snoc_out h
    obtain ⟨u', x', p1', p2', p3'⟩ := perform_snoc_out h'
    obtain ⟨os, os', o1, o2, o3⟩ := ih (wellFormed_prefix _ _ _ hw) (fun b hb => hC b (List.mem_append_left _ hb)) (fun b hb => hC' b (List.mem_append_left _ hb)) hxs p1 p1'
    refine ⟨os ++ x.2.out.toList, os' ++ x'.2.out.toList, by rw [p3, o1, List.append_assoc], by rw [p3', o2, List.append_assoc], List.rel_append o3 ?_⟩
    have hp0 : SameInput N (post ++ xs ++ [y]) (post' ++ zs ++ [z]) := List.rel_append (List.rel_append hpost hxs) (.cons hz .nil)
    obtain ⟨batch, k⟩ := y
    obtain ⟨batch', k'⟩ := z
    obtain ⟨hb, hk⟩ := hz
    have e1 : ({} : Core Convolver).calls (convolverOpsR F A) (pre ++ (post ++ xs)) = some u.1 := by rw [← perform_calls, p1]; rfl
    have e1' : ({} : Core Convolver).calls (convolverOpsR F A) (pre' ++ (post' ++ zs)) = some u'.1 := by rw [← perform_calls, p1']; rfl
    have hm : ∀ xs ys : List (List (Held Convolver) × Call), samplesIn xs ≤ samplesIn (xs ++ ys) := by
      intro xs ys
      induction xs with
      | nil => exact Nat.zero_le _
      | cons a as ih =>
        obtain ⟨b, k⟩ := a
        cases k <;> simp only [List.cons_append, samplesIn] <;> omega
    cases hk with
    | process hblk =>
      obtain ⟨c, c', d, d', ef, ef', out, out', g1, g1', g2, g2', g3, g3', _, g4⟩ := bits_depend_on_recent_input hF A hZ hw0 hC0 hC0' hpre hp0
        (fun b hb g hg => (hL b hb g hg).trans (by have := hm post xs; omega))
      rw [e1] at g1; cases g1
      rw [e1'] at g1'; cases g1'
      rw [p2] at g2; cases g2
      rw [p2'] at g2'; cases g2'
      show List.Forall₂ _ ef.out.toList ef'.out.toList
      rw [g3, g3']
      exact .cons g4 .nil
    | reset => rw [other_out p2 (by nofun), other_out p2' (by nofun)]; exact .nil
    | clear => rw [other_out p2 (by nofun), other_out p2' (by nofun)]; exact .nil
    | prepare p g g' => rw [other_out p2 (by nofun), other_out p2' (by nofun)]; exact .nil

omit [Arith] in
theorem same_ids {V : Type} {hist hist' : List (List (Held V) × Call)} {cmd cmd' : List (Held V)} (h : hist'.map (fun b => b.1.length) = hist.map (fun b => b.1.length))
    (hd : (hist'.flatMap Prod.fst ++ cmd').map Held.id = (hist.flatMap Prod.fst ++ cmd).map Held.id) :
    hist'.map (fun b => b.1.map Held.id) = hist.map (fun b => b.1.map Held.id) := by
  have hlen : (hist'.map (fun b => b.1.map Held.id)).map List.length = (hist.map (fun b => b.1.map Held.id)).map List.length := by
    simp only [List.map_map]
    have e1 : (List.length ∘ fun b : List (Held V) × Call => b.1.map Held.id) = fun b => b.1.length := by
      funext b; simp
    rw [e1, h]
  rw [List.eq_iff_flatten_eq]
  refine ⟨?_, hlen⟩
  have f1 : ∀ hh : List (List (Held V) × Call), (hh.map (fun b => b.1.map Held.id)).flatten = (hh.flatMap Prod.fst).map Held.id := by
    intro hh
    rw [← List.flatMap_def, List.map_flatMap]
  have hl : (hist'.map (fun b => b.1.map Held.id)).flatten.length = (hist.map (fun b => b.1.map Held.id)).flatten.length := by
    rw [List.length_flatten, List.length_flatten, hlen]
  rw [List.map_append, List.map_append, ← f1, ← f1] at hd
  exact (List.append_inj hd hl).1

omit [Arith] in
theorem same_input {V : Type} {R : Buf → Buf → Prop} {hist hist' : List (List (Held V) × Call)} (h1 : List.Forall₂ (SameKind R) (hist.map Prod.snd) (hist'.map Prod.snd))
    (h2 : hist'.map (fun b => b.1.map Held.id) = hist.map (fun b => b.1.map Held.id)) : SameCalls R hist hist' := by
  induction hist generalizing hist' with
  | nil =>
    cases hist' with
    | nil => exact .nil
    | cons b bs => cases h1
  | cons a as ih =>
    cases hist' with
    | nil => cases h1
    | cons b bs =>
      cases h1 with
      | cons k1 k2 =>
        rw [List.map_cons, List.map_cons, List.cons.injEq] at h2
        exact .cons ⟨h2.1.symm, k1⟩ (ih k2 h2.2)

variable {F : RealFFT} {A : GainArith} {N e : ℕ} {build build' : Buf × ConvolverSpec → ProcSpec → Convolver} {ls ls' : List (Label (Buf × ConvolverSpec))}
  {s s' : Sys Convolver (Buf × ConvolverSpec)}

/-- The convolvers handed to engine `e` in this execution are those that `Convolver`'s constructor returns, in memory with some contents. -/
def CreatesLoads (F : RealFFT) (N e : ℕ) (ls : List (Label (Buf × ConvolverSpec))) (build : Buf × ConvolverSpec → ProcSpec → Convolver) : Prop :=
  ∀ (i : ℕ) (ir : Buf) (cs : ConvolverSpec), (loadsIn ls)[i]? = some (e, (ir, cs)) → ∀ p ∈ formatsIn e ls, Usable ir p.maximumBlockSize cs N →
    ∃ m r0, Convolver.createR F ir p.maximumBlockSize cs m r0 = some (build (ir, cs) p)

theorem CreatesR.loads (hB : CreatesR F N build) : CreatesLoads F N e ls build := fun _ ir cs _ p _ hu => hB ir cs p hu

/-- The responses of two executions are created for the same requests and block sizes. -/
theorem created_agree (hB : CreatesLoads F N e ls build) (hB' : CreatesLoads F N e ls' build') (h : Exec (convolverOpsR F A) build ls s) (h' : Exec (convolverOpsR F A) build' ls' s') (hU : UsableLoads N e ls)
    (hd : (s'.engs e).delivered.map Held.id = (s.engs e).delivered.map Held.id)
    (hm : ∀ d ∈ (s.engs e).delivered, ∃ req p p', HandedOver e d.id req p ls ∧ HandedOver e d.id req p' ls' ∧ p.maximumBlockSize = p'.maximumBlockSize) {L : ℕ}
    (hL : ∀ d ∈ (s.engs e).delivered, ∀ req p, HandedOver e d.id req p ls → TransformsWithin L req p) {hist hist' : List (List (Held Convolver) × Call)}
    (a2 : hist.flatMap Prod.fst ++ (s.engs e).cmd = (s.engs e).delivered) (b2 : hist'.flatMap Prod.fst ++ (s'.engs e).cmd = (s'.engs e).delivered) :
    ∃ M : ℕ → ℕ, (∀ d ∈ (s.engs e).delivered, ∃ req p, HandedOver e d.id req p ls ∧ req = (requestedIR ls d.id, requestedSpec ls d.id) ∧ p.maximumBlockSize = M d.id ∧
        internalBlockSize Convolver.po2Fuel p.maximumBlockSize req.2.internalBlockSize = some (requestedBlock (M d.id) ls d.id)) ∧
      CreatedFor F N L (requestedIR ls) M (requestedSpec ls) (fun i => requestedBlock (M i) ls i) hist ∧
      CreatedFor F N L (requestedIR ls) M (requestedSpec ls) (fun i => requestedBlock (M i) ls i) hist' := by
  have hex : ∀ i : ℕ, ∃ M : ℕ, (∀ d ∈ (s.engs e).delivered, d.id = i → Usable (requestedIR ls i) M (requestedSpec ls i) N ∧
      (∃ req p, HandedOver e i req p ls ∧ req = (requestedIR ls i, requestedSpec ls i) ∧ p.maximumBlockSize = M) ∧
      ∃ m r0, Convolver.createR F (requestedIR ls i) M (requestedSpec ls i) m r0 = some d.obj) ∧
      (∀ d ∈ (s'.engs e).delivered, d.id = i → ∃ m r0, Convolver.createR F (requestedIR ls i) M (requestedSpec ls i) m r0 = some d.obj) := by
    intro i
    by_cases hk : ∃ d ∈ (s.engs e).delivered, d.id = i
    · obtain ⟨d, hdm, hdk⟩ := hk
      obtain ⟨⟨ir, cs⟩, p, p', g1, g2, g3⟩ := hm d hdm
      rw [hdk] at g1 g2
      have e0 := handedOver_lt g1
      have e1 : requestedIR ls i = ir := by unfold requestedIR; rw [e0]
      have e2 : requestedSpec ls i = cs := by unfold requestedSpec; rw [e0]
      have hu := hU i ir cs e0 p (handedOver_format g1)
      rw [e1, e2]
      refine ⟨p.maximumBlockSize, fun d' hd' hk' => ⟨hu, ⟨_, p, g1, rfl, rfl⟩, ?_⟩, fun d' hd' hk' => ?_⟩
      · obtain ⟨req, q, f1, f2⟩ := C31_format h e d' hd'
        rw [hk'] at f1
        obtain ⟨rfl, rfl⟩ := C31_format_unique h g1 f1
        rw [f2]
        exact hB _ ir cs e0 p (handedOver_format g1) hu
      · obtain ⟨req, q, f1, f2⟩ := C31_format h' e d' hd'
        rw [hk'] at f1
        obtain ⟨rfl, rfl⟩ := C31_format_unique h' g2 f1
        rw [f2, g3]
        exact hB' _ ir cs (handedOver_lt g2) p' (handedOver_format g2) (by rw [← g3]; exact hu)
    · refine ⟨0, fun d hd hk' => absurd ⟨d, hd, hk'⟩ hk, fun d hdm hk' => ?_⟩
      have : d.id ∈ (s.engs e).delivered.map Held.id := by rw [← hd]; exact List.mem_map_of_mem hdm
      obtain ⟨d0, h0, h1⟩ := List.mem_map.1 this
      exact absurd ⟨d0, h0, h1.trans hk'⟩ hk
  choose M hM hM' using hex
  have key : ∀ d ∈ (s.engs e).delivered, ∃ req p, HandedOver e d.id req p ls ∧ req = (requestedIR ls d.id, requestedSpec ls d.id) ∧ p.maximumBlockSize = M d.id ∧
        internalBlockSize Convolver.po2Fuel p.maximumBlockSize req.2.internalBlockSize = some (requestedBlock (M d.id) ls d.id) := by
    intro d hdm
    obtain ⟨hu, ⟨req, p, g1, rfl, g3⟩, -⟩ := hM d.id d hdm rfl
    refine ⟨_, p, g1, rfl, g3, ?_⟩
    rw [g3]
    exact usable_block hu
  have hLd : ∀ d ∈ (s.engs e).delivered, ∀ sch, getPartitionScheme kGarciaResults (requestedBlock (M d.id) ls d.id) (requestedIR ls d.id).n = some sch →
      ∀ l ∈ sch, 2 * (l.psb * requestedBlock (M d.id) ls d.id) ≤ 2 ^ L := by
    intro d hdm sch hs
    obtain ⟨req, p, g1, rfl, g3, g4⟩ := key d hdm
    exact hL d hdm _ p g1 _ sch g4 hs
  refine ⟨M, key, fun b hb g hg => ?_, fun b hb g hg => ?_⟩
  · have hm : g ∈ (s.engs e).delivered := by
      rw [← a2]; exact List.mem_append_left _ (List.mem_flatMap.mpr ⟨b, hb, hg⟩)
    obtain ⟨hu, -, hc⟩ := hM g.id g hm rfl
    exact ⟨hu, usable_block hu, hLd g hm, hc⟩
  · have hm : g ∈ (s'.engs e).delivered := by
      rw [← b2]; exact List.mem_append_left _ (List.mem_flatMap.mpr ⟨b, hb, hg⟩)
    have : g.id ∈ (s.engs e).delivered.map Held.id := by rw [← hd]; exact List.mem_map_of_mem hm
    obtain ⟨d, hdm, hdi⟩ := List.mem_map.1 this
    obtain ⟨hu, -⟩ := hM g.id d hdm hdi
    have := hLd d hdm
    rw [hdi] at this
    exact ⟨hu, usable_block hu, this, hM' g.id g hm rfl⟩

/-- There is a bound for the transforms of all responses delivered. -/
theorem transforms_bounded (hZ : ExactOnZeros) (h : Exec (convolverOpsR F A) build ls s) (hU : UsableLoads N e ls) :
    ∃ L, ∀ d ∈ (s.engs e).delivered, ∀ req p, HandedOver e d.id req p ls → TransformsWithin L req p := by
  have : ∀ ds : List (Held Convolver), ∃ L, ∀ d ∈ ds, ∀ req p, HandedOver e d.id req p ls → TransformsWithin L req p := by
    intro ds
    induction ds with
    | nil => exact ⟨0, fun d hd => by cases hd⟩
    | cons d ds ih =>
      obtain ⟨L, hL⟩ := ih
      by_cases hk : ∃ req p, HandedOver e d.id req p ls
      · obtain ⟨⟨ir, cs⟩, p, g1⟩ := hk
        have hu := hU d.id ir cs (handedOver_lt g1) p (handedOver_format g1)
        obtain ⟨-, sch, L', h1, h2⟩ := usable_scheme hZ hu (usable_block hu)
        refine ⟨max L L', fun d' hd' req p' g2 B sch' hB hsch l hl => ?_⟩
        rcases List.mem_cons.1 hd' with rfl | hd'
        · obtain ⟨rfl, rfl⟩ := C31_format_unique h g1 g2
          have eB := (usable_block hu).symm.trans hB
          rw [Option.some.inj eB] at h1 h2
          cases h1.symm.trans hsch
          exact (h2 l hl).trans (Nat.pow_le_pow_right (by norm_num) (le_max_right ..))
        · exact (hL d' hd' req p' g2 B sch' hB hsch l hl).trans (Nat.pow_le_pow_right (by norm_num) (le_max_left ..))
      · refine ⟨L, fun d' hd' req p' g2 => ?_⟩
        rcases List.mem_cons.1 hd' with rfl | hd'
        · exact absurd ⟨req, p', g2⟩ hk
        · exact hL d' hd' req p' g2
  exact this _

/-- **C94** in the concurrent system. In two executions in which engine `e` gets the same calls, the same responses at the same times, and the same input (`AgreeFor`), its whole output is the same,
sample for sample, whatever the threads do otherwise and whatever the memory contained that the convolvers and the engine's buffers were made of. -/
theorem C94_concurrent (hZ : ExactOnZeros) (hF : HalfSpectrum F) (hB : CreatesR F N build) (hB' : CreatesR F N build') (h : Exec (convolverOpsR F A) build ls s)
    (h' : Exec (convolverOpsR F A) build' ls' s') (ha : (s.engs e).status = .alive) (hi : (s.engs e).pc = .idle) (ha' : (s'.engs e).status = .alive) (hi' : (s'.engs e).pc = .idle)
    (hH : HostBehaves N none (callsIn e ls)) (hU : UsableLoads N e ls) (hs : AgreeFor N e ls s ls' s') : List.Forall₂ (SameBlock N) (s.engs e).outs (s'.engs e).outs := by
  obtain ⟨hist, a1, a2, a3, a4, a5⟩ := C52_sequential h ha hi
  obtain ⟨hist', b1, b2, b3, b4, b5⟩ := C52_sequential h' ha' hi'
  have hR := a5 N (fun _ => True) hH (fun _ _ _ _ _ => trivial)
  have hSame : SameInput N hist hist' := same_input (by rw [a1, b1]; exact hs.calls) (same_ids (by rw [a3, b3, hs.taken]) (by rw [a2, b2, hs.delivered]))
  obtain ⟨L, hL⟩ := transforms_bounded hZ h hU
  obtain ⟨M, -, hC, hC'⟩ := created_agree hB.loads hB'.loads h h' hU hs.delivered hs.made hL a2 b2
  obtain ⟨os, os', e1, e2, e3⟩ := outs_agree hF A (fun i => hZ.safe L _) (pre := []) (pre' := []) (post := []) (post' := []) .nil .nil (by simp) rfl rfl hist hR.1 hC hC' hSame a4 b4
  rw [show (s.engs e).outs = os from e1, show (s'.engs e).outs = os' from e2]
  exact e3

variable {ls1 ls2 ls3 ls1' ls2' ls3' : List (Label (Buf × ConvolverSpec))} {s1 s2 s3 s1' s2' s3' : Sys Convolver (Buf × ConvolverSpec)}

/-- The response loaded with job `i` into engine `e`. -/
def ownIR (e : ℕ) (ls : List (Label (Buf × ConvolverSpec))) (i : ℕ) : Buf := match (loadsIn ls)[i]? with
  | some (e', ir, _) => if e' = e then ir else ⟨0, 0, fun _ _ => 0⟩
  | none => ⟨0, 0, fun _ _ => 0⟩

theorem createdFor_congr {L : ℕ} {irs irs' : ℕ → Buf} {maxBs : ℕ → ℕ} {specs : ℕ → ConvolverSpec} {Bs : ℕ → ℕ} {hist : List (List (Held Convolver) × Call)}
    (hC : CreatedFor F N L irs maxBs specs Bs hist) (h : ∀ b ∈ hist, ∀ g ∈ b.1, irs' g.id = irs g.id) : CreatedFor F N L irs' maxBs specs Bs hist := by
  intro b hb g hg
  rw [h b hb g hg]
  exact hC b hb g hg

theorem recent_agree (hF : HalfSpectrum F) (hB : CreatesLoads F N e (ls1 ++ ls2 ++ ls3) build) (hB' : CreatesLoads F N e (ls1' ++ ls2' ++ ls3') build') (h1 : Exec (convolverOpsR F A) build ls1 s1)
    (h2 : Run (convolverOpsR F A) build s1 ls2 s2) (h3 : Run (convolverOpsR F A) build s2 ls3 s3) (h1' : Exec (convolverOpsR F A) build' ls1' s1')
    (h2' : Run (convolverOpsR F A) build' s1' ls2' s2') (h3' : Run (convolverOpsR F A) build' s2' ls3' s3') (hi1 : (s1.engs e).pc = .idle) (hi2 : (s2.engs e).pc = .idle)
    (ha : (s3.engs e).status = .alive) (hi : (s3.engs e).pc = .idle) (hi1' : (s1'.engs e).pc = .idle) (hi2' : (s2'.engs e).pc = .idle) (ha' : (s3'.engs e).status = .alive)
    (hi' : (s3'.engs e).pc = .idle) (hH : HostBehaves N none (callsIn e (ls1 ++ ls2 ++ ls3))) (hU : UsableLoads N e (ls1 ++ ls2 ++ ls3))
    (hs : AgreeSince N e ls1 (ls2 ++ ls3) s3 ls1' (ls2' ++ ls3') s3') (hn : (callsIn e ls2).length = (callsIn e ls2').length) {L : ℕ}
    (hZ0 : ZeroSafe L (⟨0, 0, fun _ _ => 0⟩ : Buf)) (hZ : ∀ (i : ℕ) (ir : Buf) (cs : ConvolverSpec), (loadsIn (ls1 ++ ls2 ++ ls3))[i]? = some (e, (ir, cs)) → ZeroSafe L ir)
    (hL : ∀ d ∈ (s3.engs e).delivered, ∀ req p, HandedOver e d.id req p (ls1 ++ ls2 ++ ls3) → TransformsWithin L req p)
    (hr : ∀ d ∈ (s1.engs e).delivered, ∀ req p, HandedOver e d.id req p (ls1 ++ ls2 ++ ls3) → RemembersAtMost L (totalLen (inputsIn e ls2) + 1) req p) :
    ∃ outs outs', (s3.engs e).outs = (s2.engs e).outs ++ outs ∧ (s3'.engs e).outs = (s2'.engs e).outs ++ outs' ∧ List.Forall₂ (SameBlock N) outs outs' := by
  have hx2 := exec_append h1 h2
  have hx3 := exec_append hx2 h3
  have hx2' := exec_append h1' h2'
  have hx3' := exec_append hx2' h3'
  have hd3 : (s3.engs e).status ≠ .dead := by rw [ha]; simp
  have hd2 := not_dead_before h3 hd3
  have hd1 := not_dead_before h2 hd2
  have hd3' : (s3'.engs e).status ≠ .dead := by rw [ha']; simp
  have hd2' := not_dead_before h3' hd3'
  have hd1' := not_dead_before h2' hd2'
  obtain ⟨b1, b2, bt⟩ := idle_hist hx3 hd3 hi
  obtain ⟨c1, c2, ct⟩ := idle_hist hx2 hd2 hi2
  obtain ⟨d1, d2, dt⟩ := idle_hist h1 hd1 hi1
  obtain ⟨b1', b2', bt'⟩ := idle_hist hx3' hd3' hi'
  obtain ⟨c1', c2', ct'⟩ := idle_hist hx2' hd2' hi2'
  obtain ⟨d1', d2', dt'⟩ := idle_hist h1' hd1' hi1'
  obtain ⟨rest, e3⟩ := hist_grows h3 e
  obtain ⟨post, e2⟩ := hist_grows h2 e
  obtain ⟨rest', e3'⟩ := hist_grows h3' e
  obtain ⟨post', e2'⟩ := hist_grows h2' e
  obtain ⟨q, hq⟩ := exec_outs hx2 e hd2
  obtain ⟨r, hr3⟩ := exec_outs hx3 e hd3
  obtain ⟨q', hq'⟩ := exec_outs hx2' e hd2'
  obtain ⟨r', hr3'⟩ := exec_outs hx3' e hd3'
  have hw := history_fits hx3 (N := N) (Good := fun _ => True) ha hH (fun _ _ _ _ _ => trivial)
  rw [hi] at hw
  have hw : WellFormed N (fun _ => True) none (s3.engs e).hist := by simpa [APc.calling] using hw
  rw [e2, List.append_assoc] at e3
  rw [e2', List.append_assoc] at e3'
  rw [e3] at b1 b2 bt hr3 hw
  rw [e3'] at b1' b2' bt' hr3'
  rw [e2] at c1 hq
  rw [e2'] at c1' hq'
  have k2 : post.map Prod.snd = callsIn e ls2 := by
    rw [List.map_append, d1, callsIn_append] at c1
    exact List.append_cancel_left c1
  have k2' : post'.map Prod.snd = callsIn e ls2' := by
    rw [List.map_append, d1', callsIn_append] at c1'
    exact List.append_cancel_left c1'
  have k3 : (post ++ rest).map Prod.snd = callsIn e (ls2 ++ ls3) := by
    rw [List.map_append, d1, List.append_assoc ls1, callsIn_append] at b1
    exact List.append_cancel_left b1
  have k3' : (post' ++ rest').map Prod.snd = callsIn e (ls2' ++ ls3') := by
    rw [List.map_append, d1', List.append_assoc ls1', callsIn_append] at b1'
    exact List.append_cancel_left b1'
  have hids := same_ids (hist := (s1.engs e).hist ++ (post ++ rest)) (hist' := (s1'.engs e).hist ++ (post' ++ rest')) (by
    have := hs.taken
    rw [← List.append_assoc, ← List.append_assoc] at this
    rw [bt, bt', this]) (by rw [b2, b2', hs.delivered])
  have hl1 : ((s1'.engs e).hist.map fun b => b.1.map Held.id).length = ((s1.engs e).hist.map fun b => b.1.map Held.id).length := by
    have := hs.before.length_eq
    rw [← d1, ← d1', List.length_map, List.length_map] at this
    rw [List.length_map, List.length_map, this]
  have hl2 : (post'.map fun b => b.1.map Held.id).length = (post.map fun b => b.1.map Held.id).length := by
    rw [← k2, ← k2', List.length_map, List.length_map] at hn
    rw [List.length_map, List.length_map, hn]
  rw [List.map_append, List.map_append, List.map_append, List.map_append] at hids
  obtain ⟨i1, i23⟩ := List.append_inj hids hl1
  obtain ⟨i2, i3⟩ := List.append_inj i23 hl2
  have hsince := hs.since
  rw [← k3, ← k3', List.map_append, List.map_append] at hsince
  have hsplit : List.Forall₂ (SameKind (SameBlock N)) (post.map Prod.snd) (post'.map Prod.snd) ∧ List.Forall₂ (SameKind (SameBlock N)) (rest.map Prod.snd) (rest'.map Prod.snd) := by
    have hp : (post.map Prod.snd).length = (post'.map Prod.snd).length := by rw [k2, k2']; exact hn
    have t1 := List.forall₂_take (post.map Prod.snd).length hsince
    have t2 := List.forall₂_drop (post.map Prod.snd).length hsince
    rw [List.take_left, hp, List.take_left] at t1
    rw [List.drop_left, hp, List.drop_left] at t2
    exact ⟨t1, t2⟩
  have hpre : SameSizes (s1.engs e).hist (s1'.engs e).hist := same_input (by rw [d1, d1']; exact hs.before) i1
  have hpost : SameInput N post post' := same_input hsplit.1 i2
  have hrest : SameInput N rest rest' := same_input hsplit.2 i3
  have eL : ls1 ++ (ls2 ++ ls3) = ls1 ++ ls2 ++ ls3 := (List.append_assoc ..).symm
  have eL' : ls1' ++ (ls2' ++ ls3') = ls1' ++ ls2' ++ ls3' := (List.append_assoc ..).symm
  have hmade := hs.made
  rw [eL, eL'] at hmade
  obtain ⟨M, hM, hC, hC'⟩ := created_agree hB hB' hx3 hx3' hU hs.delivered hmade hL b2 b2'
  have own : ∀ i, ZeroSafe L (ownIR e (ls1 ++ ls2 ++ ls3) i) := by
    intro i
    unfold ownIR
    split
    · rename_i e' ir cs h0
      split
      · rename_i he
        exact hZ i ir cs (by rw [h0, he])
      · exact hZ0
    · exact hZ0
  have eown : ∀ d ∈ (s3.engs e).delivered, ownIR e (ls1 ++ ls2 ++ ls3) d.id = requestedIR (ls1 ++ ls2 ++ ls3) d.id := by
    intro d hd
    obtain ⟨⟨ir, cs⟩, p, g1, -⟩ := hM d hd
    unfold ownIR requestedIR
    rw [handedOver_lt g1]
    exact if_pos rfl
  have hC := createdFor_congr hC (irs' := ownIR e (ls1 ++ ls2 ++ ls3)) fun b hb g hg => eown g (by
    rw [← b2]; exact List.mem_append_left _ (List.mem_flatMap.mpr ⟨b, hb, hg⟩))
  have hC' := createdFor_congr hC' (irs' := ownIR e (ls1 ++ ls2 ++ ls3)) fun b hb g hg => by
    have hm : g ∈ (s3'.engs e).delivered := by
      rw [← b2']; exact List.mem_append_left _ (List.mem_flatMap.mpr ⟨b, hb, hg⟩)
    have : g.id ∈ (s3.engs e).delivered.map Held.id := by rw [← hs.delivered]; exact List.mem_map_of_mem hm
    obtain ⟨d, hdm, hdi⟩ := List.mem_map.1 this
    rw [← hdi]
    exact eown d hdm
  refine outs_agree hF A own hpre hpost (fun b hb g hg => ?_) hq hq' rest hw hC hC' hrest hr3 hr3'
  have hm1 : g ∈ (s1.engs e).delivered := by
    rw [← d2]; exact List.mem_append_left _ (List.mem_flatMap.mpr ⟨b, hb, hg⟩)
  have hm3 : g ∈ (s3.engs e).delivered := by
    rw [← b2]; exact List.mem_append_left _ (List.mem_flatMap.mpr ⟨b, List.mem_append_left _ hb, hg⟩)
  obtain ⟨req, p, g1, rfl, g3, g4⟩ := hM g hm3
  rw [samplesIn_inputs k2, eown g hm3]
  exact hr g hm1 _ p g1 _ g4

/-- **C94** in the concurrent system, recent input. In two executions engine `e` gets the same calls and the same responses at the same times, and from some moment on the same input. Once it has been
given as many samples as each response delivered before that moment remembers, its output is the same, sample for sample. -/
theorem C94_concurrent_recent (hZ : ExactOnZeros) (hF : HalfSpectrum F) (hB : CreatesR F N build) (hB' : CreatesR F N build') (h1 : Exec (convolverOpsR F A) build ls1 s1)
    (h2 : Run (convolverOpsR F A) build s1 ls2 s2) (h3 : Run (convolverOpsR F A) build s2 ls3 s3) (h1' : Exec (convolverOpsR F A) build' ls1' s1')
    (h2' : Run (convolverOpsR F A) build' s1' ls2' s2') (h3' : Run (convolverOpsR F A) build' s2' ls3' s3') (hi1 : (s1.engs e).pc = .idle) (hi2 : (s2.engs e).pc = .idle)
    (ha : (s3.engs e).status = .alive) (hi : (s3.engs e).pc = .idle) (hi1' : (s1'.engs e).pc = .idle) (hi2' : (s2'.engs e).pc = .idle) (ha' : (s3'.engs e).status = .alive)
    (hi' : (s3'.engs e).pc = .idle) (hH : HostBehaves N none (callsIn e (ls1 ++ ls2 ++ ls3))) (hU : UsableLoads N e (ls1 ++ ls2 ++ ls3))
    (hs : AgreeSince N e ls1 (ls2 ++ ls3) s3 ls1' (ls2' ++ ls3') s3') (hn : (callsIn e ls2).length = (callsIn e ls2').length) {L : ℕ}
    (hL : ∀ d ∈ (s3.engs e).delivered, ∀ req p, HandedOver e d.id req p (ls1 ++ ls2 ++ ls3) → TransformsWithin L req p)
    (hr : ∀ d ∈ (s1.engs e).delivered, ∀ req p, HandedOver e d.id req p (ls1 ++ ls2 ++ ls3) → RemembersAtMost L (totalLen (inputsIn e ls2) + 1) req p) :
    ∃ outs outs', (s3.engs e).outs = (s2.engs e).outs ++ outs ∧ (s3'.engs e).outs = (s2'.engs e).outs ++ outs' ∧ List.Forall₂ (SameBlock N) outs outs' :=
  recent_agree hF hB.loads hB'.loads h1 h2 h3 h1' h2' h3' hi1 hi2 ha hi hi1' hi2' ha' hi' hH hU hs hn (hZ.safe L _) (fun _ ir _ _ => hZ.safe L ir) hL hr

end Zones.Props
