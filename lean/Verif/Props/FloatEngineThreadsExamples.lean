import Verif.Props.FloatEngineThreads
import Verif.Props.FairExamples

/-!
# An endless behaviour in binary32 for which the hypotheses of C76 in the concurrent system hold
-/

open Zones.Spec Zones.Model Zones.Proofs Zones.Proofs.R

namespace Zones.Props

noncomputable local instance floatThreadsArith : Arith := single

/-- The hypotheses of `C76_finally` can be met: in binary32, an engine is created, prepared (48 kHz, blocks of 64), the example response is loaded, and then
blocks are processed for ever. -/
theorem example_for_ever_single : ∃ (build : Buf × ConvolverSpec → ProcSpec → Convolver) (b : Behaviour singleOps build),
    ConstructsR singleFFT 2 9 build ∧ b.Fair loadingSteps ∧ ((b.state 5).engs 0).pc = .idle ∧ (∀ req, .loadLock 0 req ∉ b.upTo 5) ∧
    (formatsIn 0 (b.upTo 5)).getLast? = some exampleFormat ∧ b.act 5 = some (.loadLock 0 (exampleIR, exampleSpec)) ∧ b.NoLoadsFrom (5 + 1) ∧
    (∀ m, 5 ≤ m → ∀ e', b.act m = some (.loadRemove e') → e' = 0) ∧ b.NoDanglingFrom 5 ∧
    (∀ m, b.act m = some (.jobCheck (loadsIn (b.upTo 5)).length) → ((b.state m).engs 0).cmd.length + ((b.state m).engs 0).cmdTaken < 399) ∧
    KeepsCalling b 0 ∧ (∀ m, 5 ≤ m → ∀ k, b.act m = some (.call 0 k) → ∃ blk, k = .process blk ∧ 0 < blk.n) ∧
    (∀ m, HostBehaves 2 none (callsIn 0 (b.upTo m))) ∧ (∀ m, UsableLoadsR 2 9 0 (b.upTo m)) ∧
    ∀ m, CutAs 9 0 (b.upTo m) (fun _ => 18) (fun _ => 64) (fun _ => [⟨1, 9⟩, ⟨4, 18⟩]) := by
  obtain ⟨v0, _⟩ := example_convolverR
  obtain ⟨build, hB⟩ := constructsR_exists (single_accurate 9) singleFFT_approx 2 v0
  let ops := singleOps
  let req : Buf × ConvolverSpec := (exampleIR, exampleSpec)
  let pl : List (Label (Buf × ConvolverSpec)) := [.create 0] ++ emptyCall 0 (.prepare exampleFormat fun _ _ => 0)
  let ls0 : List (Label (Buf × ConvolverSpec)) := pl ++ (loadCall 0 req ++ jobRun 0)
  obtain ⟨s0, h0, k1, k2, k3, k4⟩ : ∃ s0, Exec ops build ls0 s0 ∧ (s0.engs 0).pc = .idle ∧ (s0.engs 0).status = .alive ∧ s0.jobs = [] ∧ ∀ e, (s0.engs e).loader = none := by
    refine ⟨_, .cons (.create rfl) (.cons (.call rfl rfl) (.cons (.service rfl) (.cons (.serviced rfl) (.cons (.body rfl rfl)
      (.cons (.loadLock rfl ⟨rfl, rfl⟩) (.cons (.loadRemove rfl) (.cons (.loadFlag rfl (by exact Option.some_ne_none exampleFormat)) (.cons (.loadAdd rfl rfl)
    (.cons (.pick rfl) (.cons (.build (j := ⟨0, 0, req, exampleFormat, false, .building⟩) ?_ rfl)
    (.cons (.jobLock (j := ⟨0, 0, req, exampleFormat, false, .built (build req exampleFormat)⟩) ?_ rfl rfl ⟨rfl, rfl⟩)
    (.cons (.jobPush (j := ⟨0, 0, req, exampleFormat, false, .locked (build req exampleFormat)⟩) ?_ rfl rfl rfl ?_)
    (.cons (.jobDone (j := ⟨0, 0, req, exampleFormat, false, .pushed⟩) ?_ rfl rfl) (.nil _)))))))))))))), ?_, ?_, ?_, ?_⟩
    · exact List.Mem.head _
    · exact List.Mem.head _
    · exact List.Mem.head _
    · show (0 : ℕ) < _
      decide
    · exact List.Mem.head _
    · rfl
    · rfl
    · rfl
    · intro e
      by_cases hc : e = 0
      · subst hc; rfl
      · simp [Sys.setEng, Sys.setJob, Sys.dropJob, Function.update_apply, hc]
  have hcalls0 : callsIn 0 ls0 = [.prepare exampleFormat fun _ _ => 0] := rfl
  have hloads0 : loadsIn ls0 = [(0, req)] := rfl
  have hbeh : ∀ n, HostBehaves 2 none ([.prepare exampleFormat fun _ _ => 0] ++ (List.replicate n exampleBlock).map Call.process) := by
    intro n
    refine ⟨exampleFormat_valid, ?_⟩
    show HostBehaves 2 (some 64) ((List.replicate n exampleBlock).map Call.process)
    induction n with
    | zero => trivial
    | succ n ih => exact ⟨rfl, fun m hm => (by cases hm; exact le_rfl), ih⟩
  have hformats : ∀ (ls : List (Label (Buf × ConvolverSpec))) n, callsIn 0 ls <+: ([.prepare exampleFormat fun _ _ => 0] ++ (List.replicate n exampleBlock).map Call.process) →
      ∀ p ∈ formatsIn 0 ls, p = exampleFormat := by
    intro ls n hls p hp
    unfold formatsIn at hp
    rw [List.mem_filterMap] at hp
    obtain ⟨k, hk, hkp⟩ := hp
    rcases List.mem_append.mp (hls.subset hk) with h | h
    · rw [List.mem_singleton] at h
      subst h
      exact (Option.some.inj hkp).symm
    · rw [List.mem_map] at h
      obtain ⟨_, _, rfl⟩ := h
      cases hkp
  -- between two calls
  let P : List (Label (Buf × ConvolverSpec)) → Sys Convolver (Buf × ConvolverSpec) → Prop := fun ls s =>
    (s.engs 0).status = .alive ∧ (s.engs 0).pc = .idle ∧ (s.jobs = [] ∧ ∀ e, (s.engs e).loader = none) ∧ loadsIn ls = [(0, req)] ∧
      ∃ n, callsIn 0 ls = [.prepare exampleFormat fun _ _ => 0] ++ (List.replicate n exampleBlock).map Call.process
  have hUP : ∀ ls n, loadsIn ls = [(0, req)] → callsIn 0 ls = [.prepare exampleFormat fun _ _ => 0] ++ (List.replicate n exampleBlock).map Call.process → UsableLoadsR 2 9 0 ls := by
    intro ls n hl hc i ir cs hi p hp
    rw [hl] at hi
    have hp := hformats ls n (by rw [hc]) p hp
    have := List.mem_of_getElem? hi
    rw [List.mem_singleton] at this
    have : (ir, cs) = (exampleIR, exampleSpec) := congrArg Prod.snd this
    cases this
    subst hp
    exact ⟨exampleUsable, _, _, _, example_cut⟩
  have hgo : ∀ ls s, Exec ops build ls s → P ls s → ∃ l ls' s', Run ops build s (l :: ls') s' ∧ P (ls ++ l :: ls') s' ∧ l = .call 0 (.process exampleBlock) ∧
      (audioSteps 0 l ∨ l = .call 0 (.process exampleBlock)) ∧ ∀ l' ∈ ls', (audioSteps 0 l' ∨ l' = .call 0 (.process exampleBlock)) := by
    rintro ls s hx ⟨ha, hi, hj, hl, n, hc⟩
    have hs : Step ops build s (.call 0 (.process exampleBlock)) _ := .call ha hi
    generalize hs1 : (s.setEng 0 { s.engs 0 with
          core := (s.engs 0).core.callHead (.process exampleBlock)
          loading := if (Call.process exampleBlock).resets then false else (s.engs 0).loading
          pc := .entered (.process exampleBlock) }) = s1 at hs
    have hx1 := exec_append hx (Run.single hs)
    have eC : callsIn 0 (ls ++ [.call 0 (.process exampleBlock)]) = [.prepare exampleFormat fun _ _ => 0] ++ (List.replicate (n + 1) exampleBlock).map Call.process := by
      rw [callsIn_append, hc, List.replicate_succ', List.map_append, List.append_assoc]
      rfl
    have eL : loadsIn (ls ++ [.call 0 (.process exampleBlock)]) = [(0, req)] := by
      rw [loadsIn_append, hl]; rfl
    have hp1 : (s1.engs 0).pc = .entered (.process exampleBlock) := by rw [← hs1, setEng_engs, if_pos rfl]
    have ha1 : (s1.engs 0).status = .alive := by rw [← hs1, setEng_engs, if_pos rfl]; exact ha
    obtain ⟨la, s2, g1, _, g2, g3⟩ := C53_audio_calls_never_wait (accepts_convolverR (single_accurate 9) singleFFT_approx (.rounded round24) 2) hx1 (by rw [eC]; exact hbeh _) (usable_goodR hB (hUP _ _ eL eC)) (by rw [hp1]; simp)
    obtain ⟨q1, q2⟩ := audioSteps_quiet g1
    obtain ⟨d1, d2⟩ := audio_delivered g2 g1
    refine ⟨_, la, s2, .cons hs g2, ⟨d2.trans ha1, g3, ?_, ?_, n + 1, ?_⟩, rfl, Or.inr rfl, fun l' hl' => Or.inl (g1 l' hl')⟩
    · refine quiet_run (.cons hs g2) (fun l hl => ?_) hj
      rcases List.mem_cons.mp hl with rfl | hl
      · exact audioSide_quiet (Or.inr ⟨_, rfl⟩)
      · exact audioSide_quiet (Or.inl (g1 l hl))
    · have := loadsIn_append (ls ++ [.call 0 (.process exampleBlock)]) la
      rw [q1, List.append_nil, eL, List.append_assoc] at this
      exact this
    · have := callsIn_append 0 (ls ++ [.call 0 (.process exampleBlock)]) la
      rw [q2 0, List.append_nil, eC, List.append_assoc] at this
      exact this
  obtain ⟨b, _, b1, b0, b2, b3, b4⟩ := behaviour_exists hgo h0 (show P ls0 s0 from ⟨k2, k1, ⟨k3, k4⟩, hloads0, 0, hcalls0⟩)
  have hlen : ls0.length = 14 := rfl
  rw [hlen] at b0 b1 b4
  -- the beginning
  have hsplit : ∀ k, k ≤ 14 → b.upTo k = ls0.take k := by
    intro k hk
    have h1 := upTo_add b k (14 - k)
    rw [show k + (14 - k) = 14 by omega, b1] at h1
    have hn : ∀ n, (b.during 0 n).length ≤ n := by
      intro n
      induction n with
      | zero => exact le_rfl
      | succ n ih =>
        show (b.during 0 n ++ (b.act (0 + n)).toList).length ≤ n + 1
        rw [List.length_append]
        cases b.act (0 + n) <;> simp <;> omega
    have hn' : ∀ a n, (b.during a n).length ≤ n := by
      intro a n
      induction n with
      | zero => exact le_rfl
      | succ n ih =>
        show (b.during a n ++ (b.act (a + n)).toList).length ≤ n + 1
        rw [List.length_append]
        cases b.act (a + n) <;> simp <;> omega
    have h2 := congrArg List.length h1
    rw [hlen, List.length_append] at h2
    have h3 : (b.upTo k).length ≤ k := hn k
    have h4 := hn' k (14 - k)
    have h5 : (b.upTo k).length = k := by omega
    rw [h1]
    exact (List.take_left' h5).symm
  have hact : ∀ k, k < 14 → b.act k = ls0[k]? := by
    intro k hk
    have h1 := hsplit (k + 1) (by omega)
    rw [upTo_add, hsplit k (by omega), List.take_succ] at h1
    have h2 : (b.act (k + 0)).toList = ls0[k]?.toList := (List.append_cancel_left_eq ..).mp h1
    rw [Nat.add_zero] at h2
    cases ha : b.act k with
    | none =>
      rw [ha] at h2
      cases hb : ls0[k]? with
      | none => rfl
      | some l => rw [hb] at h2; cases h2
    | some l =>
      rw [ha] at h2
      cases hb : ls0[k]? with
      | none => rw [hb] at h2; cases h2
      | some l' =>
        rw [hb] at h2
        simp only [Option.toList_some, List.cons.injEq, and_true] at h2
        rw [h2]
  have b4' : ∀ m, 14 ≤ m → ∀ l, b.act m = some l → audioSteps 0 l ∨ l = .call 0 (.process exampleBlock) := b4
  have hcases : ∀ m l, b.act m = some l → (m < 14 ∧ ls0[m]? = some l) ∨ (14 ≤ m ∧ (audioSteps 0 l ∨ l = .call 0 (.process exampleBlock))) := by
    intro m l hl
    rcases Nat.lt_or_ge m 14 with h | h
    · exact Or.inl ⟨h, by rw [← hact m h]; exact hl⟩
    · exact Or.inr ⟨h, b4' m h l hl⟩
  -- nothing is loaded after the beginning
  have hquiet : ∀ m, 14 ≤ m → (b.state m).jobs = [] ∧ ∀ e, ((b.state m).engs e).loader = none := by
    intro m hm
    obtain ⟨q, rfl⟩ := Nat.exists_eq_add_of_le hm
    refine quiet_run (during_run b 14 q) (fun l hl => ?_) b0.2.2.1
    obtain ⟨i, _, hi⟩ := mem_during.mp hl
    rcases b4' (14 + i) (by omega) l hi with h | rfl
    · exact audioSide_quiet (Or.inl h)
    · rfl
  have hK : KeepsCalling b 0 := fun n => by
    obtain ⟨m, hm, l, hl, rfl⟩ := b3 n
    exact ⟨m, hm, _, hl⟩
  have hload : ∀ m l, b.act m = some l → (∀ r, l = .loadLock 0 r → m = 5) ∧ (∀ e r, l = .loadLock e r → e = 0) ∧ (∀ e, l = .loadRemove e → e = 0) ∧ (∀ e, l ≠ .destroy e) ∧
      (∀ i, l = .jobCheck i → m = 12) ∧ (∀ k, l = .call 0 k → 5 ≤ m → k = .process exampleBlock) := by
    intro m l hl
    rcases hcases m l hl with ⟨h1, h2⟩ | ⟨h1, h2⟩
    · interval_cases m <;> (simp only [ls0, pl, emptyCall, loadCall, jobRun, List.cons_append, List.nil_append, List.getElem?_cons_zero, List.getElem?_cons_succ, Option.some.injEq] at h2; subst h2; simp)
    · rcases h2 with h2 | rfl
      · cases l <;> first | exact h2.elim | simp
      · simp
  have hS : ∀ m, ∃ n, callsIn 0 (b.upTo m) <+: ([.prepare exampleFormat fun _ _ => 0] ++ (List.replicate n exampleBlock).map Call.process) ∧ loadsIn (b.upTo m) <+: [(0, req)] := by
    intro m
    obtain ⟨m', hm, _, _, _, hl, n, hc⟩ := b2 m
    obtain ⟨q, rfl⟩ := Nat.exists_eq_add_of_le hm
    rw [upTo_add, loadsIn_append] at hl
    rw [upTo_add, callsIn_append] at hc
    exact ⟨n, ⟨_, hc⟩, ⟨_, hl⟩⟩
  refine ⟨build, b, hB, ?_, ?_, ?_, ?_, ?_, ?_, ?_, ?_, ?_, hK, ?_, ?_, ?_, ?_⟩
  · -- fairness
    intro n hn
    obtain ⟨l, hl, hen⟩ := hn (n + 14) (by omega)
    obtain ⟨q1, q2⟩ := hquiet (n + 14) (by omega)
    exact absurd hen (nothing_to_load q1 q2 l hl)
  · have hs := b.step 4 (.body 0) (by rw [hact 4 (by omega)]; rfl)
    generalize b.state (4 + 1) = s' at hs
    cases hs with
    | body h1 h2 => rw [setEng_engs, if_pos rfl, finish_eq]
  · intro r
    rw [hsplit 5 (by omega)]
    simp [ls0, pl, emptyCall]
  · rw [hsplit 5 (by omega)]; rfl
  · rw [hact 5 (by omega)]; rfl
  · intro m hm e r hc
    have h := hload m _ hc
    have := h.2.1 e r rfl
    subst this
    have := h.1 r rfl
    omega
  · intro m _ e' hc
    exact (hload m _ hc).2.2.1 e' rfl
  · refine ⟨fun j hj => ?_, fun m _ e hc => absurd rfl ((hload m _ hc).2.2.2.1 e)⟩
    have := (exec_known (upTo_exec b 5)).origins.job j hj
    rw [hsplit 5 (by omega)] at this
    cases this
  · intro m hm
    have h12 := (hload m _ hm).2.2.2.2.1 _ rfl
    subst h12
    have hI := exec_inv (upTo_exec b 12)
    have hd : ((b.state 12).engs 0).delivered.length ≤ 1 := by
      have h1 := hI.order.sorted 0
      have h2 := hI.order.dlt 0
      have h3 : (b.state 12).next = 1 := by
        rw [(exec_known (upTo_exec b 12)).origins.next, hsplit 12 (by omega)]; rfl
      rw [h3] at h2
      generalize ((b.state 12).engs 0).delivered = d at h1 h2
      rcases d with _ | ⟨x, _ | ⟨y, d⟩⟩
      · simp
      · simp
      · have := h2 x (by simp)
        have := h2 y (by simp)
        have := List.rel_of_pairwise_cons h1 (a' := y) (by simp)
        omega
    have hf := congrArg List.length ((hI.flow 0).flow (keeps_alive hK 12))
    have ht := (hI.flow 0).taken
    rw [List.length_append, List.length_append] at hf
    have : ((b.state 12).engs 0).cmdTaken ≤ (APc.visited ((b.state 12).engs 0).pc).length := by
      rw [ht]
      cases ((b.state 12).engs 0).pc <;> simp [APc.visited]
    omega
  · intro m hm k hk
    have := (hload m _ hk).2.2.2.2.2 k rfl hm
    subst this
    exact ⟨_, rfl, by decide⟩
  · intro m
    obtain ⟨n, ⟨t, ht⟩, _⟩ := hS m
    have := hbeh n
    rw [← ht] at this
    exact hostBehaves_prefix _ _ none this
  · intro m i ir cs hi p hp
    obtain ⟨n, ⟨t, ht⟩, ⟨u, hu⟩⟩ := hS m
    have h1 : (ir, cs) = (exampleIR, exampleSpec) := by
      have h1 : (0, ir, cs) ∈ [(0, req)] := by rw [← hu]; exact List.mem_append_left _ (List.mem_of_getElem? hi)
      rw [List.mem_singleton] at h1
      exact congrArg Prod.snd h1
    have h2 := hformats (b.upTo m) n ⟨t, ht⟩ p hp
    cases h1
    subst h2
    exact ⟨exampleUsable, _, _, _, example_cut⟩
  · intro m i p hp
    have g1 := handedOver_lt hp
    have g2 := handedOver_format hp
    obtain ⟨n, ⟨t, ht⟩, ⟨u, hu⟩⟩ := hS m
    have h1 : (requestedIR (b.upTo m) i, requestedSpec (b.upTo m) i) = (exampleIR, exampleSpec) := by
      have h1 : (0, requestedIR (b.upTo m) i, requestedSpec (b.upTo m) i) ∈ [(0, req)] := by rw [← hu]; exact List.mem_append_left _ (List.mem_of_getElem? g1)
      rw [List.mem_singleton] at h1
      exact congrArg Prod.snd h1
    have h2 := hformats (b.upTo m) n ⟨t, ht⟩ p g2
    rw [Prod.mk.injEq] at h1
    rw [h1.1, h1.2, h2]
    exact example_cut

/-- C76, applied to it: finally the output is the convolution with the response of the load, up to the error bound of C71. -/
example : ∃ (build : Buf × ConvolverSpec → ProcSpec → Convolver) (b : Behaviour singleOps build),
    ∃ m, 5 ≤ m ∧ ((b.state m).engs 0).pc = .idle ∧ ∀ q, ((b.state (m + q)).engs 0).pc = .idle →
      ∃ more outs, callsIn 0 (b.during m q) = more.map Call.process ∧ ((b.state (m + q)).engs 0).outs = ((b.state m).engs 0).outs ++ outs ∧ SameShape more outs ∧
        ∀ o < 2, ∀ t, t < totalLen more → exampleIR.n + 2 ^ 9 + 64 ≤ t + 1 → ∀ err,
          ErrorBound (√2 * (2 * 2⁻¹ ^ 24 + (2⁻¹ ^ 24) ^ 2)) (2⁻¹ ^ 24) (2⁻¹ ^ 24) 9 18 64 [⟨1, 9⟩, ⟨4, 18⟩] exampleIR exampleSpec (stream more) o t err →
          |stream outs o t - routedConv exampleIR exampleSpec.inputRouting exampleSpec.outputRouting (stream more) o t| ≤ err := by
  obtain ⟨build, b, hB, hf, h1, h2, h3, h4, h5, h6, h7, h8, h9, h10, h11, h12, h13⟩ := example_for_ever_single
  exact ⟨build, b, C76_finally (single_accurate 9) singleFFT_approx hB hf h1 h2 h3 le_rfl h4 h5 h6 h7 h8 h9 h10 h11 h12 h13⟩

end Zones.Props
