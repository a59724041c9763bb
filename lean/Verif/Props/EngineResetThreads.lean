import Verif.Props.IeeeThreads

/-!
# C94 and C95 in the concurrent system: `Reset`, `Prepare` and `Clear`
-/

open Zones.Spec Zones.Model Zones.Proofs Zones.Proofs.R

namespace Zones.Props

theorem same_otherwise {R R' : Buf → Buf → Prop} {k k' : Call} (h : SameKind R k k') (hk : ∀ b, k ≠ .process b) : SameKind R' k k' := by
  cases h with
  | process h => exact absurd rfl (hk _)
  | reset => exact .reset
  | clear => exact .clear
  | prepare p g g' => exact .prepare p g g'

/-- While a call does its work the history is that of the calls before it. -/
theorem served_hist {V R : Type} {ops : ConvOps V} {build : R → ProcSpec → V} {ls : List (Label R)} {s : Sys V R} {e : ℕ} {k : Call} {d : List (Held V)} (h : Exec ops build ls s)
    (hp : (s.engs e).pc = .served k d) : (s.engs e).hist.map Prod.snd ++ [k] = callsIn e ls ∧
      ∀ c, ({} : Core V).calls ops (s.engs e).hist = some c → (c.callHead k).service ops d = (s.engs e).core := by
  have hk := exec_known h
  have hc := (hk.traced e).calls
  have ha : (s.engs e).status = .alive := (hk.inv.flow e).alive (by rw [hp]; simp)
  obtain ⟨c0, h1, h2⟩ := (hk.inv.flow e).refines (by rw [ha]; simp)
  rw [hp] at hc h2
  refine ⟨hc, fun c hc' => ?_⟩
  rw [h1] at hc'
  cases hc'
  exact h2.symm

/-- The first step of the rest of the execution is the work of that call. -/
theorem served_then {V R : Type} {ops : ConvOps V} {build : R → ProcSpec → V} {ls : List (Label R)} {s t : Sys V R} {e : ℕ} {k : Call} {d : List (Held V)} (hp : (s.engs e).pc = .served k d)
    (h : Run ops build s (.body e :: ls) t) : ∃ rest, (t.engs e).hist = (s.engs e).hist ++ ((d, k) :: rest) := by
  cases h with
  | cons h1 h2 =>
    obtain ⟨rest, hr⟩ := hist_grows h2 e
    cases h1 with
    | body h hr' =>
      rw [hp] at h
      cases h
      refine ⟨rest, ?_⟩
      rw [hr]
      simp [setEng_engs, finish_eq]

variable [Arith]

theorem outs_agree_reset {F : RealFFT} (hF : HalfSpectrum F) (A : GainArith) {N L : ℕ} {irs : ℕ → Buf} (hZ : ∀ i, ZeroSafe L (irs i)) {maxBs : ℕ → ℕ} {specs : ℕ → ConvolverSpec} {Bs : ℕ → ℕ}
    {pre pre' : List (List (Held Convolver) × Call)} {b0 b0' : List (Held Convolver)} {k0 k0' : Call} (hpre : SameSizes pre pre') (hids : SameBatch b0 b0') (hkk : SameKind (SameBlock N) k0 k0')
    (hk : ∀ b, k0 ≠ .process b) (hk' : ∀ b, k0' ≠ .process b) (hq0 : ∀ c, ({} : Core Convolver).calls (convolverOpsR F A) pre = some c → ((c.callHead k0).service (convolverOpsR F A) b0).pending = none)
    {q q' : Core Convolver × List Buf}
    (hq : perform (convolverOpsR F A) {} pre = some q) (hq' : perform (convolverOpsR F A) {} pre' = some q')
    (rest : List (List (Held Convolver) × Call)) : ∀ {rest' : List (List (Held Convolver) × Call)} {r r' : Core Convolver × List Buf},
    WellFormed N (fun _ => True) none (pre ++ ((b0, k0) :: rest)) → CreatedFor F N L irs maxBs specs Bs (pre ++ ((b0, k0) :: rest)) →
    CreatedFor F N L irs maxBs specs Bs (pre' ++ ((b0', k0') :: rest')) →
    SameInput N rest rest' → perform (convolverOpsR F A) {} (pre ++ ((b0, k0) :: rest)) = some r → perform (convolverOpsR F A) {} (pre' ++ ((b0', k0') :: rest')) = some r' →
    ∃ os os', r.2 = q.2 ++ os ∧ r'.2 = q'.2 ++ os' ∧ List.Forall₂ (SameBlock N) os os' := by
  induction rest using List.reverseRecOn with
  | nil =>
    intro rest' r r' _ _ _ hs h h'
    cases hs
    obtain ⟨u, x, p1, p2, p3⟩ := perform_snoc_out h
    obtain ⟨u', x', p1', p2', p3'⟩ := perform_snoc_out h'
    rw [hq] at p1
    rw [hq'] at p1'
    cases p1; cases p1'
    rw [other_out p2 hk] at p3
    rw [other_out p2' hk'] at p3'
    exact ⟨[], [], p3, p3', .nil⟩
  | append_singleton xs y ih =>
    intro rest' r r' hw hC hC' hs h h'
    have hr := List.forall₂_reverse_iff.2 hs
    rw [List.reverse_append, List.reverse_singleton, List.singleton_append] at hr
    obtain ⟨z, zs, hz, hzs, e⟩ := List.forall₂_cons_left_iff.1 hr
    have e' : rest' = zs.reverse ++ [z] := by
      rw [← List.reverse_reverse rest', e, List.reverse_cons]
    subst e'
    have hxs : SameInput N xs zs.reverse := by
      have := List.forall₂_reverse_iff.2 hzs
      rwa [List.reverse_reverse] at this
    generalize zs.reverse = zs at hxs hs h' hC'
    have f1 : pre ++ ((b0, k0) :: (xs ++ [y])) = pre ++ ((b0, k0) :: xs) ++ [y] := by simp
    have f1' : pre' ++ ((b0', k0') :: (zs ++ [z])) = pre' ++ ((b0', k0') :: zs) ++ [z] := by simp
    have hw0 := hw
    have hC0 := hC
    have hC0' := hC'
    rw [f1] at h hw hC
    rw [f1'] at h' hC'
    obtain ⟨u, x, p1, p2, p3⟩ := perform_snoc_out h
    obtain ⟨u', x', p1', p2', p3'⟩ := perform_snoc_out h'
    obtain ⟨os, os', o1, o2, o3⟩ := ih (wellFormed_prefix _ _ _ hw) (fun b hb => hC b (List.mem_append_left _ hb)) (fun b hb => hC' b (List.mem_append_left _ hb)) hxs p1 p1'
    refine ⟨os ++ x.2.out.toList, os' ++ x'.2.out.toList, by rw [p3, o1, List.append_assoc], by rw [p3', o2, List.append_assoc], List.rel_append o3 ?_⟩
    obtain ⟨batch, k⟩ := y
    obtain ⟨batch', k'⟩ := z
    obtain ⟨hb, hkz⟩ := hz
    have e1 : ({} : Core Convolver).calls (convolverOpsR F A) (pre ++ ((b0, k0) :: xs)) = some u.1 := by rw [← perform_calls, p1]; rfl
    have e1' : ({} : Core Convolver).calls (convolverOpsR F A) (pre' ++ ((b0', k0') :: zs)) = some u'.1 := by rw [← perform_calls, p1']; rfl
    cases hkz with
    | process hblk =>
      obtain ⟨c, c', d, d', ef, ef', out, out', g1, g1', g2, g2', g3, g3', _, g4⟩ := reset_forgets hF A hZ hw0 hC0 hC0' hk hq0 hpre (.cons ⟨hids, hkk⟩ hs)
      rw [e1] at g1; cases g1
      rw [e1'] at g1'; cases g1'
      rw [p2] at g2; cases g2
      rw [p2'] at g2'; cases g2'
      show List.Forall₂ _ ef.out.toList ef'.out.toList
      rw [g3, g3']
      exact .cons g4 .nil
    | reset => rw [other_out p2 (by nofun), other_out p2' (by nofun)]; exact .nil
    | clear => rw [other_out p2 (by nofun), other_out p2' (by nofun)]; exact .nil
    | prepare p g g' => rw [other_out p2 (by nofun), other_out p2' (by nofun)]; exact .nil

variable {F : RealFFT} {A : GainArith} {N e : ℕ} {build build' : Buf × ConvolverSpec → ProcSpec → Convolver} {ls1 ls2 ls1' ls2' : List (Label (Buf × ConvolverSpec))}
  {s1 s2 s1' s2' : Sys Convolver (Buf × ConvolverSpec)} {k k' : Call} {d d' : List (Held Convolver)}

theorem reset_agree (hF : HalfSpectrum F) (hB : CreatesLoads F N e (ls1 ++ .body e :: ls2) build) (hB' : CreatesLoads F N e (ls1' ++ .body e :: ls2') build')
    (h1 : Exec (convolverOpsR F A) build ls1 s1) (h2 : Run (convolverOpsR F A) build s1 (.body e :: ls2) s2)
    (h1' : Exec (convolverOpsR F A) build' ls1' s1') (h2' : Run (convolverOpsR F A) build' s1' (.body e :: ls2') s2')
    (hp : (s1.engs e).pc = .served k d) (hp' : (s1'.engs e).pc = .served k' d') (hk : ∀ b, k ≠ .process b) (hw : (s1.engs e).core.pending = none)
    (ha : (s2.engs e).status = .alive) (hi : (s2.engs e).pc = .idle) (ha' : (s2'.engs e).status = .alive) (hi' : (s2'.engs e).pc = .idle)
    (hH : HostBehaves N none (callsIn e (ls1 ++ .body e :: ls2))) (hU : UsableLoads N e (ls1 ++ .body e :: ls2))
    (hs : AgreeSince N e ls1 (.body e :: ls2) s2 ls1' (.body e :: ls2') s2') {L : ℕ}
    (hZ0 : ZeroSafe L (⟨0, 0, fun _ _ => 0⟩ : Buf)) (hZ : ∀ (i : ℕ) (ir : Buf) (cs : ConvolverSpec), (loadsIn (ls1 ++ .body e :: ls2))[i]? = some (e, (ir, cs)) → ZeroSafe L ir)
    (hL : ∀ d ∈ (s2.engs e).delivered, ∀ req p, HandedOver e d.id req p (ls1 ++ .body e :: ls2) → TransformsWithin L req p) :
    ∃ outs outs', (s2.engs e).outs = (s1.engs e).outs ++ outs ∧ (s2'.engs e).outs = (s1'.engs e).outs ++ outs' ∧ List.Forall₂ (SameBlock N) outs outs' := by
  have hx2 := exec_append h1 h2
  have hx2' := exec_append h1' h2'
  have hd2 : (s2.engs e).status ≠ .dead := by rw [ha]; simp
  have hd1 := not_dead_before h2 hd2
  have hd2' : (s2'.engs e).status ≠ .dead := by rw [ha']; simp
  have hd1' := not_dead_before h2' hd2'
  obtain ⟨c1, c2, ct⟩ := idle_hist hx2 hd2 hi
  obtain ⟨c1', c2', ct'⟩ := idle_hist hx2' hd2' hi'
  obtain ⟨d1, dq⟩ := served_hist h1 hp
  obtain ⟨d1', -⟩ := served_hist h1' hp'
  obtain ⟨rest, e2⟩ := served_then hp h2
  obtain ⟨rest', e2'⟩ := served_then hp' h2'
  obtain ⟨q, hq⟩ := exec_outs h1 e hd1
  obtain ⟨r, hr⟩ := exec_outs hx2 e hd2
  obtain ⟨q', hq'⟩ := exec_outs h1' e hd1'
  obtain ⟨r', hr'⟩ := exec_outs hx2' e hd2'
  have hwf := history_fits hx2 (N := N) (Good := fun _ => True) ha hH (fun _ _ _ _ _ => trivial)
  rw [hi] at hwf
  have hwf : WellFormed N (fun _ => True) none (s2.engs e).hist := by simpa [APc.calling] using hwf
  rw [e2] at c1 c2 ct hr hwf
  rw [e2'] at c1' c2' ct' hr'
  have k2 : rest.map Prod.snd = callsIn e (.body e :: ls2) := by
    rw [callsIn_append, ← d1, List.map_append, List.map_cons, List.append_assoc] at c1
    exact (List.cons.inj (List.append_cancel_left c1)).2
  have k2' : rest'.map Prod.snd = callsIn e (.body e :: ls2') := by
    rw [callsIn_append, ← d1', List.map_append, List.map_cons, List.append_assoc] at c1'
    exact (List.cons.inj (List.append_cancel_left c1')).2
  have hids := same_ids (hist := (s1.engs e).hist ++ ((d, k) :: rest)) (hist' := (s1'.engs e).hist ++ ((d', k') :: rest')) (by rw [ct, ct', hs.taken]) (by rw [c2, c2', hs.delivered])
  have hbefore := hs.before
  rw [← d1, ← d1'] at hbefore
  have hl : ((s1.engs e).hist.map Prod.snd).length = ((s1'.engs e).hist.map Prod.snd).length := by
    have := hbefore.length_eq
    rw [List.length_append, List.length_append] at this
    simpa using this
  have b1 : List.Forall₂ (SameKind fun a b : Buf => a.ch = b.ch ∧ a.n = b.n) ((s1.engs e).hist.map Prod.snd) ((s1'.engs e).hist.map Prod.snd) := by
    have := List.forall₂_take ((s1.engs e).hist.map Prod.snd).length hbefore
    rw [List.take_left, hl, List.take_left] at this
    exact this
  have b2 : SameKind (fun a b : Buf => a.ch = b.ch ∧ a.n = b.n) k k' := by
    have := List.forall₂_drop ((s1.engs e).hist.map Prod.snd).length hbefore
    rw [List.drop_left, hl, List.drop_left] at this
    exact (List.forall₂_cons.1 this).1
  have hk' : ∀ b, k' ≠ .process b := by
    rintro b rfl
    cases b2
    exact hk _ rfl
  rw [List.map_append, List.map_append] at hids
  obtain ⟨i1, i23⟩ := List.append_inj hids (by simpa using hl.symm)
  rw [List.map_cons, List.map_cons, List.cons.injEq] at i23
  have hpre : SameSizes (s1.engs e).hist (s1'.engs e).hist := same_input b1 i1
  have hrest : SameInput N rest rest' := same_input (by rw [k2, k2']; exact hs.since) i23.2
  obtain ⟨M, hM, hC, hC'⟩ := created_agree hB hB' hx2 hx2' hU hs.delivered hs.made hL c2 c2'
  have own : ∀ i, ZeroSafe L (ownIR e (ls1 ++ .body e :: ls2) i) := by
    intro i
    unfold ownIR
    split
    · rename_i e' ir cs h0
      split
      · rename_i he
        exact hZ i ir cs (by rw [h0, he])
      · exact hZ0
    · exact hZ0
  have eown : ∀ d ∈ (s2.engs e).delivered, ownIR e (ls1 ++ .body e :: ls2) d.id = requestedIR (ls1 ++ .body e :: ls2) d.id := by
    intro d hd
    obtain ⟨⟨ir, cs⟩, p, g1, -⟩ := hM d hd
    unfold ownIR requestedIR
    rw [handedOver_lt g1]
    exact if_pos rfl
  have hC := createdFor_congr hC (irs' := ownIR e (ls1 ++ .body e :: ls2)) fun b hb g hg => eown g (by
    rw [← c2]; exact List.mem_append_left _ (List.mem_flatMap.mpr ⟨b, hb, hg⟩))
  have hC' := createdFor_congr hC' (irs' := ownIR e (ls1 ++ .body e :: ls2)) fun b hb g hg => by
    have hm : g ∈ (s2'.engs e).delivered := by
      rw [← c2']; exact List.mem_append_left _ (List.mem_flatMap.mpr ⟨b, hb, hg⟩)
    have : g.id ∈ (s2.engs e).delivered.map Held.id := by rw [← hs.delivered]; exact List.mem_map_of_mem hm
    obtain ⟨d, hdm, hdi⟩ := List.mem_map.1 this
    rw [← hdi]
    exact eown d hdm
  exact outs_agree_reset hF A own hpre i23.1.symm (same_otherwise b2 hk) hk hk' (fun c hc => by rw [dq c hc]; exact hw) hq hq' rest hwf hC hC' hrest hr hr'

/-- **C94** in the concurrent system, at once. In two executions engine `e` gets the same calls and the same responses at the same times, and is about to carry out a `Reset`, `Prepare` or `Clear`
(`Label.body`) for which no response is waiting behind a fade. If it gets the same input from then on, its output is the same from then on, whatever its input was before. -/
theorem C94_concurrent_reset (hZ : ExactOnZeros) (hF : HalfSpectrum F) (hB : CreatesR F N build) (hB' : CreatesR F N build')
    (h1 : Exec (convolverOpsR F A) build ls1 s1) (h2 : Run (convolverOpsR F A) build s1 (.body e :: ls2) s2)
    (h1' : Exec (convolverOpsR F A) build' ls1' s1') (h2' : Run (convolverOpsR F A) build' s1' (.body e :: ls2') s2')
    (hp : (s1.engs e).pc = .served k d) (hp' : (s1'.engs e).pc = .served k' d') (hk : ∀ b, k ≠ .process b) (hw : (s1.engs e).core.pending = none)
    (ha : (s2.engs e).status = .alive) (hi : (s2.engs e).pc = .idle) (ha' : (s2'.engs e).status = .alive) (hi' : (s2'.engs e).pc = .idle)
    (hH : HostBehaves N none (callsIn e (ls1 ++ .body e :: ls2))) (hU : UsableLoads N e (ls1 ++ .body e :: ls2))
    (hs : AgreeSince N e ls1 (.body e :: ls2) s2 ls1' (.body e :: ls2') s2') :
    ∃ outs outs', (s2.engs e).outs = (s1.engs e).outs ++ outs ∧ (s2'.engs e).outs = (s1'.engs e).outs ++ outs' ∧ List.Forall₂ (SameBlock N) outs outs' := by
  obtain ⟨L, hL⟩ := transforms_bounded hZ (exec_append h1 h2) hU
  exact reset_agree hF hB.loads hB'.loads h1 h2 h1' h2' hp hp' hk hw ha hi ha' hi' hH hU hs (hZ.safe L _) (fun _ ir _ _ => hZ.safe L ir) hL

omit [Arith] in
/-- **C95** in the concurrent system, at once. As `C94_concurrent_reset`, in binary32 with infinities and NaNs: a `Reset`, `Prepare` or `Clear` for which no response is waiting removes bad values. -/
theorem C95_concurrent_reset (flush : Bool) (repair : ℂ → ℂ → ℂ) {twF twI : ℕ → ℕ → ℂ} (hTF : TwiddlesBounded twF) (hTI : TwiddlesBounded twI) (hF : HalfSpectrum F) {L K : ℕ} (hLK : 3 * L + K ≤ 126) :
    letI := Arith.ieee flush repair twF twI
    CreatesLoads F N e (ls1 ++ .body e :: ls2) build → CreatesLoads F N e (ls1' ++ .body e :: ls2') build' →
    Exec (convolverOpsR F A) build ls1 s1 → Run (convolverOpsR F A) build s1 (.body e :: ls2) s2 →
    Exec (convolverOpsR F A) build' ls1' s1' → Run (convolverOpsR F A) build' s1' (.body e :: ls2') s2' →
    (s1.engs e).pc = .served k d → (s1'.engs e).pc = .served k' d' → (∀ b, k ≠ .process b) → (s1.engs e).core.pending = none →
    (s2.engs e).status = .alive → (s2.engs e).pc = .idle → (s2'.engs e).status = .alive → (s2'.engs e).pc = .idle →
    HostBehaves N none (callsIn e (ls1 ++ .body e :: ls2)) → UsableLoads N e (ls1 ++ .body e :: ls2) →
    (∀ (i : ℕ) (ir : Buf) (cs : ConvolverSpec), (loadsIn (ls1 ++ .body e :: ls2))[i]? = some (e, (ir, cs)) → ∀ c < ir.ch, ∀ j < ir.n, |ir.data c j| ≤ 2 ^ K) →
    AgreeSince N e ls1 (.body e :: ls2) s2 ls1' (.body e :: ls2') s2' →
    (∀ d ∈ (s2.engs e).delivered, ∀ req p, HandedOver e d.id req p (ls1 ++ .body e :: ls2) → TransformsWithin L req p) →
    ∃ outs outs', (s2.engs e).outs = (s1.engs e).outs ++ outs ∧ (s2'.engs e).outs = (s1'.engs e).outs ++ outs' ∧ List.Forall₂ (SameBlock N) outs outs' := by
  letI := Arith.ieee flush repair twF twI
  intro hB hB' h1 h2 h1' h2' hp hp' hk hw ha hi ha' hi' hH hU hM hs hL
  exact reset_agree hF hB hB' h1 h2 h1' h2' hp hp' hk hw ha hi ha' hi' hH hU hs (zeroSafe_ieee hTF hTI hLK fun c hc => absurd hc (Nat.not_lt_zero _))
    (fun i ir cs hk => zeroSafe_ieee hTF hTI hLK (hM i ir cs hk)) hL

end Zones.Props
