import Verif.Props.FloatEngineThreads

/-!
# C97 in the concurrent system: the engine recovers from NaNs and infinities
-/

open Zones.Spec Zones.Model Zones.Proofs Zones.Proofs.R

namespace Zones.Props

/-- The value `y` of output `o` at sample `n` is right: if the inputs routed to `o` have had at most the levels `X`, at most `Xmax`, for as long as the convolver for `ir` remembers, `y` is finite and
within the error bound of C93 of the convolution of the input with `ir`. -/
def RightAt (ε Xmax : ℝ) (L K B : ℕ) (sch : List Layout) (ir : Buf) (spec : ConvolverSpec) (x : ℕ → ℕ → ℝ) (o n : ℕ) (y : ℝ) : Prop :=
  ∀ X : ℕ → ℝ, (∀ c < ir.ch, channelAt spec.outputRouting c = o → 2⁻¹ ^ 49 ≤ X c ∧ X c ≤ Xmax ∧
      LevelAround (x (channelAt spec.inputRouting c)) (ir.n + 2 ^ L + B) B n (X c)) →
    IsFinite y ∧ |y - routedConv ir spec.inputRouting spec.outputRouting x o n| ≤
      errorFactor (2⁻¹ ^ 22) (2⁻¹ ^ 23) ε L K sch.length ir.ch * outputWeightF (2⁻¹ ^ 49) B ir sch spec.outputRouting X o

/-- All responses requested for engine `e` are `Tame`, whatever format of the engine they are built for. -/
def TameLoads (ε Xmax : ℝ) (N L e : ℕ) (ls : List (Label (Buf × ConvolverSpec))) : Prop :=
  ∀ (i : ℕ) (ir : Buf) (cs : ConvolverSpec), (loadsIn ls)[i]? = some (e, (ir, cs)) → ∀ p ∈ formatsIn e ls, SomeTame ε Xmax N L ir p.maximumBlockSize cs

/-- The response of every request handed to the thread pool for engine `e` is `Tame`, with the partitions that `Ks`, `Bs` and `schs` say. -/
def TameAs (ε Xmax : ℝ) (N L e : ℕ) (ls : List (Label (Buf × ConvolverSpec))) (Ks Bs : ℕ → ℕ) (schs : ℕ → List Layout) : Prop :=
  ∀ i p, HandedOver e i (requestedIR ls i, requestedSpec ls i) p ls → Tame ε Xmax N L (Ks i) (Bs i) (schs i) (requestedIR ls i) p.maximumBlockSize (requestedSpec ls i)

section
variable [Arith]

/-- A constructor of convolvers: for `Tame` requests it returns what `Convolver`'s constructor returns. -/
def ConstructsTame (F : RealFFT) (ε Xmax : ℝ) (N L : ℕ) (build : Buf × ConvolverSpec → ProcSpec → Convolver) : Prop :=
  ∀ ir cs p, SomeTame ε Xmax N L ir p.maximumBlockSize cs → FreshR F ir p.maximumBlockSize cs N (build (ir, cs) p)

variable {ε Xmax : ℝ} {L : ℕ} {F : RealFFT} {A : GainArith} {N e : ℕ} {build : Buf × ConvolverSpec → ProcSpec → Convolver} {Ks Bs : ℕ → ℕ} {schs : ℕ → List Layout}

theorem tame_good {ls : List (Label (Buf × ConvolverSpec))} (hb : ConstructsTame F ε Xmax N L build)
    (hU : TameLoads ε Xmax N L e ls) : GoodLoads build (ServesOk F N (SomeTame ε Xmax N L)) e ls := by
  rintro i ⟨ir, cs⟩ p hi hp
  have h1 := hU i ir cs hi p hp
  exact ⟨ir, p.maximumBlockSize, cs, [], h1, HeardR_fresh (hb ir cs p h1)⟩

theorem concurrent_built_tame {ls : List (Label (Buf × ConvolverSpec))} {s : Sys Convolver (Buf × ConvolverSpec)} (hB : ConstructsTame F ε Xmax N L build) (h : Exec (convolverOpsR F A) build ls s) (ha : (s.engs e).status = .alive) (hi : (s.engs e).pc = .idle)
    (hH : HostBehaves N none (callsIn e ls)) (hU : TameLoads ε Xmax N L e ls) (hCut : TameAs ε Xmax N L e ls Ks Bs schs) :
    ∃ (hist : List (List (Held Convolver) × Call)) (m : ℕ → ℕ), hist.map Prod.snd = callsIn e ls ∧ hist.flatMap Prod.fst ++ (s.engs e).cmd = (s.engs e).delivered ∧ hist.map (fun b => b.1.length) = takenBy e ls ∧
      perform (convolverOpsR F A) {} hist = some ((s.engs e).core, (s.engs e).outs) ∧ (∀ b ∈ hist, ∀ g ∈ b.1, Tame ε Xmax N L (Ks g.id) (Bs g.id) (schs g.id) (requestedIR ls g.id) (m g.id) (requestedSpec ls g.id) ∧
        FreshR F (requestedIR ls g.id) (m g.id) (requestedSpec ls g.id) N g.obj) ∧
      WellFormed N (ServesOk F N (SomeTame ε Xmax N L)) none hist := by
  obtain ⟨hist, h1, h2, ht, h3, h4⟩ := C52_sequential h ha hi
  have hReach := h4 N (ServesOk F N (SomeTame ε Xmax N L)) hH (tame_good hB hU)
  have hgot := (exec_sourced h).got e
  have hsorted := (exec_inv h).order.sorted e
  have huniq : ∀ d ∈ (s.engs e).delivered, ∀ d' ∈ (s.engs e).delivered, d.id = d'.id → d = d' := by
    intro d hd d' hd' hid
    rw [List.pairwise_iff_getElem] at hsorted
    obtain ⟨a, ha, rfl⟩ := List.getElem_of_mem hd
    obtain ⟨b, hb, rfl⟩ := List.getElem_of_mem hd'
    rcases Nat.lt_trichotomy a b with hab | hab | hab
    · have := hsorted a b ha hb hab; omega
    · subst hab; rfl
    · have := hsorted b a hb ha hab; omega
  have hex : ∀ k : ℕ, ∃ p : ProcSpec, ∀ d ∈ (s.engs e).delivered, d.id = k → Tame ε Xmax N L (Ks k) (Bs k) (schs k) (requestedIR ls k) p.maximumBlockSize (requestedSpec ls k) ∧
      FreshR F (requestedIR ls k) p.maximumBlockSize (requestedSpec ls k) N d.obj := by
    intro k
    by_cases hk : ∃ d ∈ (s.engs e).delivered, d.id = k
    · obtain ⟨d, hdm, hdk⟩ := hk
      obtain ⟨⟨ir, cs⟩, q, g0, g3⟩ := hgot d hdm
      have g1 := handedOver_lt g0
      have g2 := handedOver_format g0
      have hu := hU _ _ _ g1 q g2
      refine ⟨q, fun d' hd' hk' => ?_⟩
      have : d' = d := huniq d' hd' d hdm (hk'.trans hdk.symm)
      subst this
      rw [hdk] at g0 g1
      have e1 : requestedIR ls k = ir := by unfold requestedIR; rw [g1]
      have e2 : requestedSpec ls k = cs := by unfold requestedSpec; rw [g1]
      have hCk := hCut k q
      rw [e1, e2] at hCk
      rw [e1, e2, g3]
      exact ⟨hCk g0, hB ir cs q hu⟩
    · exact ⟨⟨0, 0, 0⟩, fun d hd hk' => absurd ⟨d, hd, hk'⟩ hk⟩
  choose q hm using hex
  refine ⟨hist, fun k => (q k).maximumBlockSize, h1, h2, ht, h3, fun b hb g hg => ?_, hReach.1⟩
  exact hm g.id g (by rw [← h2]; exact List.mem_append_left _ (List.mem_flatMap.mpr ⟨b, hb, hg⟩)) rfl

theorem recovers_of_feeds (hf : Feeds F N (SomeTame ε Xmax N L) (RightIf ε Xmax N L)) {irs : ℕ → Buf} {maxBs : ℕ → ℕ} {specs : ℕ → ConvolverSpec}
    {hist : List (List (Held Convolver) × Call)}
    (hB : ∀ b ∈ hist, ∀ g ∈ b.1, Tame ε Xmax N L (Ks g.id) (Bs g.id) (schs g.id) (irs g.id) (maxBs g.id) (specs g.id) ∧ FreshR F (irs g.id) (maxBs g.id) (specs g.id) N g.obj)
    {c : Core Convolver} (h : Reaches (convolverOpsR F A) N (ServesOk F N (SomeTame ε Xmax N L)) hist c)
    (hq : NoResetWhileQueued (convolverOpsR F A) {} hist) {p : ProcSpec} (hp : c.spec = some p) {i : ℕ} (hi : lastDelivered none hist = some i)
    (blocks more : List Buf) (hb : ∀ b ∈ blocks ++ more, b.ch = N ∧ b.n ≤ p.maximumBlockSize)
    (hlen : 4 * ((ceilTimes kUpperFadeTimeS p.sampleRate).toNat + p.maximumBlockSize) ≤ totalLen blocks) :
    ∃ c' outs, c.play (convolverOpsR F A) (quietly (blocks ++ more)) = some (c', outs) ∧ SameShape more (outs.drop blocks.length) ∧
      ∀ o < N, ∀ t, t < totalLen more → (irs i).n + 2 ^ L + Bs i ≤ t + 1 →
        RightAt ε Xmax L (Ks i) (Bs i) (schs i) (irs i) (specs i) (stream (blocks ++ more)) o (totalLen blocks + t) (stream (outs.drop blocks.length) o t) := by
  obtain ⟨b, hb', g, hg, rfl⟩ := (lastDelivered_mem hist none hi).resolve_left (by simp)
  have hT := (hB b hb' g hg).1
  obtain ⟨c', outs, past, e1, sh, _, hd⟩ := settles_ok hf (G := A)
    (irs := irs) (maxBs := maxBs) (specs := specs)
    (fun b hb g hg => ⟨⟨_, _, _, (hB b hb g hg).1⟩, (hB b hb g hg).2⟩) h hq hp hi blocks more hb hlen
  refine ⟨c', outs, e1, sh, fun o ho t ht hn X hX' => ?_⟩
  have hpos := hT.usable.nonempty
  have h2L : 0 < 2 ^ L := by positivity
  have := hd o ho t ht _ _ _ hT X fun k hk hko => by
    obtain ⟨q1, q2, q3, q4⟩ := hX' k hk hko
    refine ⟨q1, q2, q3, fun m' k1 k2 => ?_⟩
    have q5 := q4 (totalLen blocks + (m' - totalLen past)) (by omega) (by omega)
    rw [stream_append_right] at q5
    have e : m' = totalLen past + (m' - totalLen past) := by omega
    rw [e, stream_append_right]
    exact q5
  rwa [routedConv_tail (y := stream (blocks ++ more)) (S := totalLen blocks)
    (fun ch m => by rw [stream_append_right, stream_append_right]) (by omega)] at this

theorem recovers_concurrent (hf : Feeds F N (SomeTame ε Xmax N L) (RightIf ε Xmax N L)) (hB : ConstructsTame F ε Xmax N L build)
    {ls ls' : List (Label (Buf × ConvolverSpec))} {s s' : Sys Convolver (Buf × ConvolverSpec)}
    (h : Exec (convolverOpsR F A) build ls s) (hi : (s.engs e).pc = .idle) (hc : (s.engs e).cmd = [])
    (hU : TameLoads ε Xmax N L e ls) (hCut : TameAs ε Xmax N L e ls Ks Bs schs) (hq : NoResetWhileQueued (convolverOpsR F A) {} (s.engs e).hist) {i : ℕ} (hlast : lastDelivered none (s.engs e).hist = some i)
    {p : ProcSpec} (hp : (formatsIn e ls).getLast? = some p)
    (hr : Run (convolverOpsR F A) build s ls' s') (ha' : (s'.engs e).status = .alive) (hi' : (s'.engs e).pc = .idle)
    (hd' : (s'.engs e).delivered = (s.engs e).delivered)
    (hH : HostBehaves N none (callsIn e (ls ++ ls'))) {blocks more : List Buf} (hcalls : callsIn e ls' = (blocks ++ more).map Call.process)
    (hlen : 4 * ((ceilTimes kUpperFadeTimeS p.sampleRate).toNat + p.maximumBlockSize) ≤ totalLen blocks) :
    ∃ ir cs outs, (loadsIn ls)[i]? = some (e, (ir, cs)) ∧ (s'.engs e).outs = (s.engs e).outs ++ outs ∧ SameShape more (outs.drop blocks.length) ∧
      ∀ o < N, ∀ t, t < totalLen more → ir.n + 2 ^ L + Bs i ≤ t + 1 →
        RightAt ε Xmax L (Ks i) (Bs i) (schs i) ir cs (stream (blocks ++ more)) o (totalLen blocks + t) (stream (outs.drop blocks.length) o t) := by
  have hx := exec_append h hr
  have hd : (s'.engs e).status ≠ .dead := by rw [ha']; simp
  have hd0 := not_dead_before hr hd
  have hT := (exec_known h).traced e
  have ha : (s.engs e).status = .alive := by
    cases hst : (s.engs e).status with
    | alive => rfl
    | dead => exact absurd hst hd0
    | unborn =>
      have := (hT.unborn hst).2
      rw [this] at hlast; cases hlast
  have hf1 : (s.engs e).hist.flatMap Prod.fst = (s.engs e).delivered := by
    have := ((exec_inv h).flow e).flow hd0
    rw [hi, hc] at this
    simpa [APc.visited] using this
  have hHist := quiet_history h hi hc hr hd hi' hd'
  rw [hcalls, List.map_map] at hHist
  obtain ⟨c0, hcl, hco⟩ := ((exec_inv h).flow e).refines hd0
  rw [hi] at hco
  have hco : (s.engs e).core = c0 := hco
  obtain ⟨c1, hp1⟩ := exec_outs h e hd0
  obtain ⟨c2, hp2⟩ := exec_outs hx e hd
  have hc01 : c1 = c0 := by
    have := perform_calls (convolverOpsR F A) (s.engs e).hist {}
    rw [hp1, hcl] at this
    simpa using this
  subst hc01
  have hH1 : HostBehaves N none (callsIn e ls) := by
    rw [callsIn_append] at hH
    exact hostBehaves_prefix _ _ none hH
  obtain ⟨hist, m, a1, a2, at', a3, hBuilt, hWF⟩ := concurrent_built_tame hB h ha hi hH1 hU hCut
  obtain ⟨b1, b2, bt⟩ := idle_hist h hd0 hi
  have eh : hist = (s.engs e).hist := hist_eq (a1.trans b1.symm) (at'.trans bt.symm) (a2.trans b2.symm)
  rw [eh] at hBuilt hWF
  have hReach : Reaches (convolverOpsR F A) N (ServesOk F N (SomeTame ε Xmax N L)) (s.engs e).hist c1 := ⟨hWF, hcl⟩
  have hspec : c1.spec = some p := by rw [← hco, hT.spec hd0, hp]
  have hblocks : ∀ b ∈ blocks ++ more, b.ch = N ∧ b.n ≤ p.maximumBlockSize := by
    rw [callsIn_append, hcalls] at hH
    refine hostBehaves_blocks (blocks ++ more) (callsIn e ls) none hH p.maximumBlockSize ?_
    show (Option.map ProcSpec.maximumBlockSize (formatsIn e ls).getLast? <|> none) = _
    rw [hp]; rfl
  obtain ⟨c', outs, hplay, hshape, hout⟩ := recovers_of_feeds hf hBuilt hReach hq hspec hlast blocks more hblocks hlen
  obtain ⟨bb, hb', d, hdm, hdi⟩ := (lastDelivered_mem _ none hlast).resolve_left (by simp)
  obtain ⟨⟨ir, cs⟩, q, g0, -⟩ := (exec_sourced h).got e d (by rw [← hf1]; exact List.mem_flatMap.mpr ⟨bb, hb', hdm⟩)
  have g1 := handedOver_lt g0
  rw [hdi] at g1
  have r1 : requestedIR ls i = ir := by unfold requestedIR; rw [g1]
  have r2 : requestedSpec ls i = cs := by unfold requestedSpec; rw [g1]
  rw [r1, r2] at hout
  refine ⟨ir, cs, outs, g1, ?_, hshape, hout⟩
  rw [hHist, perform_append, hp1] at hp2
  have he : ((blocks ++ more).map ((fun k => (([] : List (Held Convolver)), k)) ∘ Call.process)) =
      (quietly (blocks ++ more)).map fun b => (b.1, Call.process b.2) := by
    unfold quietly
    rw [List.map_map]; rfl
  rw [he] at hp2
  simp only [Option.bind_some] at hp2
  rw [perform_play, hplay] at hp2
  simp only [Option.map_some, Option.some.injEq, Prod.mk.injEq] at hp2
  exact hp2.2.symm

theorem recovers_end_to_end (hf : Feeds F N (SomeTame ε Xmax N L) (RightIf ε Xmax N L)) (hB : ConstructsTame F ε Xmax N L build)
    {ls1 ls2 ls3 : List (Label (Buf × ConvolverSpec))} {s1 s2 s3 : Sys Convolver (Buf × ConvolverSpec)}
    -- up to the last `prepare`
    (h1 : Exec (convolverOpsR F A) build ls1 s1) (hi1 : (s1.engs e).pc = .idle) (hno : ∀ req, .loadLock e req ∉ ls1) {p : ProcSpec} (hp : (formatsIn e ls1).getLast? = some p)
    -- loads and blocks
    (h2 : Run (convolverOpsR F A) build s1 ls2 s2) (hproc : ∀ k ∈ callsIn e ls2, ∃ blk, k = .process blk) (hi2 : (s2.engs e).pc = .idle) (hc2 : (s2.engs e).cmd = [])
    {d : Held Convolver} (hlast : (s2.engs e).delivered.getLast? = some d)
    -- blocks only
    (h3 : Run (convolverOpsR F A) build s2 ls3 s3) (ha3 : (s3.engs e).status = .alive) (hi3 : (s3.engs e).pc = .idle) (hd3 : (s3.engs e).delivered = (s2.engs e).delivered)
    {blocks more : List Buf} (hcalls : callsIn e ls3 = (blocks ++ more).map Call.process)
    -- the host and the requests are reasonable
    (hH : HostBehaves N none (callsIn e (ls1 ++ ls2 ++ ls3))) (hU : TameLoads ε Xmax N L e (ls1 ++ ls2)) (hCut : TameAs ε Xmax N L e (ls1 ++ ls2) Ks Bs schs)
    (hlen : 4 * ((ceilTimes kUpperFadeTimeS p.sampleRate).toNat + p.maximumBlockSize) ≤ totalLen blocks) :
    ∃ ir cs outs, (loadsIn (ls1 ++ ls2))[d.id]? = some (e, (ir, cs)) ∧ (s3.engs e).outs = (s2.engs e).outs ++ outs ∧ SameShape more (outs.drop blocks.length) ∧
      ∀ o < N, ∀ t, t < totalLen more → ir.n + 2 ^ L + Bs d.id ≤ t + 1 →
        RightAt ε Xmax L (Ks d.id) (Bs d.id) (schs d.id) ir cs (stream (blocks ++ more)) o (totalLen blocks + t) (stream (outs.drop blocks.length) o t) := by
  have hx := exec_append h1 h2
  have hd2 := not_dead_before h3 (e := e) (by rw [ha3]; simp)
  have hd1 := not_dead_before h2 hd2
  obtain ⟨new, hn⟩ := hist_grows h2 e
  have c1 := ((exec_known h1).traced e).calls
  have c2 := ((exec_known hx).traced e).calls
  have f1 := ((exec_inv h1).flow e).flow hd1
  have f2 := ((exec_inv hx).flow e).flow hd2
  rw [hi1] at c1 f1
  rw [hi2] at c2 f2
  simp only [APc.calling, APc.visited, Option.toList_none, List.append_nil] at c1 c2 f1 f2
  rw [hn, List.map_append, c1, callsIn_append, List.append_cancel_left_eq] at c2
  rw [nothing_delivered h1 hno, List.append_eq_nil_iff, List.flatMap_eq_nil_iff] at f1
  have hnew : ∀ b ∈ new, ∃ blk, b.2 = .process blk := fun b hb => hproc b.2 (by rw [← c2]; exact List.mem_map.mpr ⟨b, hb, rfl⟩)
  have hfl : new.flatMap Prod.fst = (s2.engs e).delivered := by
    rw [hc2, List.append_nil, hn, List.flatMap_append, List.flatMap_eq_nil_iff.mpr f1.1, List.nil_append] at f2
    exact f2
  have hform : formatsIn e (ls1 ++ ls2) = formatsIn e ls1 := by
    rw [formatsIn_append]
    have : formatsIn e ls2 = [] := by
      unfold formatsIn
      rw [List.filterMap_eq_nil_iff]
      intro k hk
      obtain ⟨blk, rfl⟩ := hproc k hk
      rfl
    rw [this, List.append_nil]
  refine recovers_concurrent hf hB hx hi2 hc2 hU hCut ?_ ?_ (by rw [hform]; exact hp) h3 ha3 hi3 hd3 hH hcalls hlen
  · rw [hn]; exact noReset_of new hnew _ _ ⟨rfl, rfl, rfl⟩ f1.1
  · rw [hn, lastDelivered_of new hnew _ f1.1, hfl, hlast]; rfl


theorem recovers_finally (hf : Feeds F N (SomeTame ε Xmax N L) (RightIf ε Xmax N L)) (hB : ConstructsTame F ε Xmax N L build)
    {b : Behaviour (convolverOpsR F A) build} (hfair : b.Fair loadingSteps)
    -- the last `prepare`
    {n1 : ℕ} (hi1 : ((b.state n1).engs e).pc = .idle) (hno : ∀ req, .loadLock e req ∉ b.upTo n1) {p : ProcSpec} (hp : (formatsIn e (b.upTo n1)).getLast? = some p)
    -- the last `LoadIR`
    {n : ℕ} (hn1 : n1 ≤ n) {ir : Buf} {cs : ConvolverSpec} (hload : b.act n = some (.loadLock e (ir, cs))) (hn : b.NoLoadsFrom (n + 1))
    (ho : ∀ m, n ≤ m → ∀ e', b.act m = some (.loadRemove e') → e' = e) (hd : b.NoDanglingFrom n)
    (hroom : ∀ m, b.act m = some (.jobCheck (loadsIn (b.upTo n)).length) → ((b.state m).engs e).cmd.length + ((b.state m).engs e).cmdTaken < 399)
    -- the host keeps processing
    (hk : KeepsCalling b e) (hproc : ∀ m, n1 ≤ m → ∀ k, b.act m = some (.call e k) → ∃ blk, k = .process blk ∧ 0 < blk.n)
    -- the host and the requests are reasonable
    (hH : ∀ m, HostBehaves N none (callsIn e (b.upTo m))) (hU : ∀ m, TameLoads ε Xmax N L e (b.upTo m))
    (hCut : ∀ m, TameAs ε Xmax N L e (b.upTo m) Ks Bs schs) :
    ∃ m, n ≤ m ∧ ((b.state m).engs e).pc = .idle ∧ ∀ q, ((b.state (m + q)).engs e).pc = .idle →
      ∃ more outs, callsIn e (b.during m q) = more.map Call.process ∧ ((b.state (m + q)).engs e).outs = ((b.state m).engs e).outs ++ outs ∧ SameShape more outs ∧
        ∀ o < N, ∀ t, t < totalLen more → ir.n + 2 ^ L + Bs (loadsIn (b.upTo n)).length ≤ t + 1 →
          RightAt ε Xmax L (Ks (loadsIn (b.upTo n)).length) (Bs (loadsIn (b.upTo n)).length) (schs (loadsIn (b.upTo n)).length) ir cs (stream more) o t (stream outs o t) := by
  have hx := fun m => upTo_exec b m
  have alive := keeps_alive hk
  have hprep : formatsIn e (b.upTo n) ≠ [] := by
    obtain ⟨q, rfl⟩ := Nat.exists_eq_add_of_le hn1
    rw [upTo_add, formatsIn_append]
    intro hc
    rw [List.append_eq_nil_iff] at hc
    rw [hc.1] at hp; cases hp
  obtain ⟨m0, hm0, hact, harr⟩ := last_load_arrives hfair hload hprep hn ho hd
  obtain ⟨v, hv⟩ : ∃ v, ((b.state (m0 + 1)).engs e).delivered = ((b.state m0).engs e).delivered ++ [⟨(loadsIn (b.upTo n)).length, v⟩] := by
    rcases harr with h | ⟨h, _⟩
    · exact h
    · have := hroom m0 hact; omega
  -- no later load can be delivered
  have hloads : ∀ m, n + 1 ≤ m → loadsIn (b.upTo m) = loadsIn (b.upTo n) ++ [(e, (ir, cs))] := by
    intro m hm
    obtain ⟨q, rfl⟩ := Nat.exists_eq_add_of_le hm
    rw [upTo_add, loadsIn_append, upTo_add, loadsIn_append]
    have e1 : loadsIn (b.during n 1) = [(e, (ir, cs))] := by
      show loadsIn ([] ++ (b.act (n + 0)).toList) = _
      rw [Nat.add_zero, hload]; rfl
    have e2 : loadsIn (b.during (n + 1) q) = [] := by
      unfold loadsIn
      rw [List.filterMap_eq_nil_iff]
      intro l hl
      obtain ⟨a, _, ha⟩ := mem_during.mp hl
      have := hn (n + 1 + a) (by omega)
      cases l <;> first | rfl | exact absurd ha (this _ _)
    rw [e1, e2, List.append_nil]
  have hdel : ∀ q, ((b.state (m0 + 1 + q)).engs e).delivered = ((b.state (m0 + 1)).engs e).delivered := by
    intro q
    obtain ⟨⟨nd, h1⟩, _⟩ := run_grows (during_run b (m0 + 1) q) e
    rw [h1]
    cases nd with
    | nil => exact List.append_nil _
    | cons d nd =>
      exfalso
      have hs := (exec_inv (hx (m0 + 1 + q))).order.sorted e
      have hl := (exec_inv (hx (m0 + 1 + q))).order.dlt e d (by rw [h1]; simp)
      rw [(exec_known (hx (m0 + 1 + q))).origins.next, hloads _ (by omega), List.length_append, List.length_singleton] at hl
      rw [h1, hv, List.append_assoc, List.pairwise_append] at hs
      have := List.rel_of_pairwise_cons hs.2.1 (a' := d) (by simp)
      simp only at this
      omega
  -- it is picked up
  obtain ⟨m1, hm1, k, hk1⟩ := hk (m0 + 1)
  obtain ⟨q1, rfl⟩ := Nat.exists_eq_add_of_le hm1
  obtain ⟨q, k', hk', hcalls, hdur⟩ := next_call hk hk1
  obtain ⟨hia, _⟩ := idle_at_call hk1
  obtain ⟨hi2, _⟩ := idle_at_call hk'
  have hr := during_run b (m0 + 1 + q1) (1 + q)
  rw [hdur, ← Nat.add_assoc] at hr
  obtain ⟨found, h2, h3⟩ := C52_call_finds_what_waits hr hcalls hi2
  generalize hm2 : m0 + 1 + q1 + 1 + q = m2 at hk' hi2 h2
  have hd2 : ((b.state m2).engs e).delivered = ((b.state m0).engs e).delivered ++ [⟨(loadsIn (b.upTo n)).length, v⟩] := by
    rw [← hm2, show m0 + 1 + q1 + 1 + q = m0 + 1 + (q1 + 1 + q) by omega, hdel, hv]
  have hc2 : ((b.state m2).engs e).cmd = [] := by
    have f1 := ((exec_inv (hx (m0 + 1 + q1))).flow e).flow (alive _)
    have f2 := ((exec_inv (hx m2)).flow e).flow (alive _)
    rw [hia, hdel, hv] at f1
    rw [hi2, hd2, h2, List.flatMap_append] at f2
    simp only [APc.visited, List.append_nil, List.flatMap_cons, List.flatMap_nil] at f1 f2
    rw [← f1, List.append_assoc, List.append_cancel_left_eq] at f2
    obtain ⟨tl, h4⟩ := h3
    have := congrArg List.length f2
    rw [← h4] at this
    simp only [List.length_append] at this
    exact List.length_eq_zero_iff.mp (by omega)
  -- blocks for the fades
  obtain ⟨qb, blocks, hib, hcb, hlen⟩ := enough_blocks hk hi2 (fun m' hm' => hproc m' (by omega)) (4 * ((ceilTimes kUpperFadeTimeS p.sampleRate).toNat + p.maximumBlockSize))
  have proc : ∀ (a q : ℕ), n1 ≤ a → ∃ bl : List Buf, callsIn e (b.during a q) = bl.map Call.process := by
    intro a q ha
    have : ∀ k ∈ callsIn e (b.during a q), ∃ blk, k = Call.process blk := by
      intro k hk
      unfold callsIn at hk
      rw [List.mem_filterMap] at hk
      obtain ⟨l, hl, hlk⟩ := hk
      obtain ⟨i, _, hi'⟩ := mem_during.mp hl
      cases l with
      | call e' k2 =>
        have hlk : (if e' = e then some k2 else none) = some k := hlk
        split_ifs at hlk with hc
        simp only [Option.some.injEq] at hlk
        subst hlk; subst hc
        obtain ⟨blk, rfl, _⟩ := hproc _ (by omega) _ hi'
        exact ⟨blk, rfl⟩
      | _ => cases hlk
    generalize callsIn e (b.during a q) = ks at this
    induction ks with
    | nil => exact ⟨[], rfl⟩
    | cons k ks ih =>
      obtain ⟨blk, rfl⟩ := this k (List.mem_cons_self ..)
      obtain ⟨bl', h⟩ := ih fun k hk => this k (List.mem_cons_of_mem _ hk)
      exact ⟨blk :: bl', by rw [h]; rfl⟩
  have hn2 : n1 ≤ m2 := by omega
  obtain ⟨g, rfl⟩ := Nat.exists_eq_add_of_le hn2
  refine ⟨n1 + g + qb, by omega, hib, fun q' hiq => ?_⟩
  obtain ⟨more, hmore⟩ := proc (n1 + g + qb) q' (by omega)
  have halive : ∀ m, ((b.state m).engs e).pc = .idle → n1 + g ≤ m → ((b.state m).engs e).status = .alive := by
    intro m hm hle
    cases hst : ((b.state m).engs e).status with
    | alive => rfl
    | dead => exact absurd hst (alive m)
    | unborn =>
      have := ((exec_known (hx m)).traced e).unborn hst
      have hc := ((exec_known (hx m)).traced e).calls
      rw [this.2, this.1] at hc
      have hf := formatsIn_append e (b.upTo n1) (b.during n1 (m - n1))
      rw [← upTo_add, show n1 + (m - n1) = m by omega] at hf
      unfold formatsIn at hf
      rw [← hc] at hf
      have h0 : formatsIn e (b.upTo n1) = [] := (List.append_eq_nil_iff.mp hf.symm).1
      rw [h0] at hp; cases hp
  have main : ∀ q' more, callsIn e (b.during (n1 + g + qb) q') = more.map Call.process → ((b.state (n1 + g + qb + q')).engs e).pc = .idle →
      ∃ outs, ((b.state (n1 + g + qb + q')).engs e).outs = ((b.state (n1 + g)).engs e).outs ++ outs ∧ SameShape more (outs.drop blocks.length) ∧
      ∀ o < N, ∀ t, t < totalLen more → ir.n + 2 ^ L + Bs (loadsIn (b.upTo n)).length ≤ t + 1 →
        RightAt ε Xmax L (Ks (loadsIn (b.upTo n)).length) (Bs (loadsIn (b.upTo n)).length) (schs (loadsIn (b.upTo n)).length) ir cs (stream (blocks ++ more)) o (totalLen blocks + t) (stream (outs.drop blocks.length) o t) := by
    intro q' more hmore hiq
    have hr3 := during_run b (n1 + g) (qb + q')
    rw [← Nat.add_assoc] at hr3
    have hcalls3 : callsIn e (b.during (n1 + g) (qb + q')) = (blocks ++ more).map Call.process := by
      rw [during_add, callsIn_append, hcb, hmore, List.map_append]
    have hH' : HostBehaves N none (callsIn e (b.upTo n1 ++ b.during n1 g ++ b.during (n1 + g) (qb + q'))) := by
      have := hH (n1 + g + (qb + q'))
      rwa [upTo_add, upTo_add] at this
    have hU' : TameLoads ε Xmax N L e (b.upTo n1 ++ b.during n1 g) := by
      have := hU (n1 + g)
      rwa [upTo_add] at this
    have hC' : TameAs ε Xmax N L e (b.upTo n1 ++ b.during n1 g) Ks Bs schs := by
      have := hCut (n1 + g)
      rwa [upTo_add] at this
    obtain ⟨ir', cs', outs, h1, h2, h3, h4⟩ := recovers_end_to_end hf hB (hx n1) hi1 hno hp (during_run b n1 g)
      (fun k hk => by
        obtain ⟨bl, hbl⟩ := proc n1 g le_rfl
        rw [hbl, List.mem_map] at hk
        obtain ⟨blk, _, rfl⟩ := hk
        exact ⟨blk, rfl⟩) hi2 hc2 (d := ⟨(loadsIn (b.upTo n)).length, v⟩) (by rw [hd2]; simp) hr3 (halive _ hiq (by omega)) hiq
      (by
        rw [show n1 + g + qb + q' = m0 + 1 + (q1 + 1 + q + qb + q') by omega, hdel, hv, hd2]) hcalls3 hH' hU' hC' hlen
    rw [← upTo_add, hloads (n1 + g) (by omega), List.getElem?_append_right le_rfl] at h1
    simp at h1
    obtain ⟨rfl, rfl⟩ := h1
    exact ⟨outs, h2, h3, h4⟩
  obtain ⟨outs, g1, g2, g3⟩ := main q' more hmore hiq
  -- what has come out by the moment
  have hrun := during_run b (n1 + g + qb) q'
  have l0 := outs_length (hx (n1 + g)) (alive _) hi2
  have l1 := outs_length (hx (n1 + g + qb)) (alive _) hib
  have hcount : (blocks.map Call.process).countP isProcess = blocks.length := by
    rw [List.countP_map]
    exact List.countP_eq_length.mpr fun a _ => rfl
  rw [upTo_add b (n1 + g), callsIn_append, List.countP_append, hcb, hcount, ← l0] at l1
  have hgrow : ∀ {s s' : Sys Convolver (Buf × ConvolverSpec)} {ls}, Run (convolverOpsR F A) build s ls s' → ∃ new, (s'.engs e).outs = (s.engs e).outs ++ new := by
    intro s s' ls hr
    induction hr with
    | nil s => exact ⟨[], by simp⟩
    | cons h t ih =>
      obtain ⟨nw, h2⟩ := ih
      rcases outs_step h e with ⟨_, h1, _⟩ | ⟨k, d, r, _, _, _, _, h1⟩
      · exact ⟨nw, by rw [h2, h1]⟩
      · exact ⟨_, by rw [h2, h1, List.append_assoc]⟩
  obtain ⟨o1, ho1⟩ := hgrow (during_run b (n1 + g) qb)
  obtain ⟨o2, ho2⟩ := hgrow hrun
  rw [ho1, List.length_append] at l1
  have hlen1 : o1.length = blocks.length := by omega
  rw [ho2, ho1, List.append_assoc, List.append_cancel_left_eq] at g1
  have hdrop : outs.drop blocks.length = o2 := by rw [← g1, ← hlen1, List.drop_left]
  rw [hdrop] at g2 g3
  refine ⟨more, o2, hmore, ho2, g2, fun o hoN t ht htn X hX => ?_⟩
  have := routedConv_tail (ir := ir) (a := cs.inputRouting) (b := cs.outputRouting) (x := stream (blocks ++ more)) (y := stream more) (o := o) (T := totalLen blocks) (S := 0) (t := t)
    (fun ch m => by rw [stream_append_right, Nat.zero_add]) ((Nat.le_add_right _ _).trans ((Nat.le_add_right _ _).trans htn))
  rw [Nat.zero_add] at this
  rw [← this]
  refine g3 o hoN t ht htn X fun c hc hco => ⟨(hX c hc hco).1, (hX c hc hco).2.1, (hX c hc hco).2.2.1, fun m' k1 k2 => ?_⟩
  have hw : totalLen blocks ≤ m' := by
    generalize 2 ^ L = z at k1 htn
    omega
  have q5 := (hX c hc hco).2.2.2 (m' - totalLen blocks) (by omega) (by omega)
  have e' : m' = totalLen blocks + (m' - totalLen blocks) := by omega
  rw [e', stream_append_right]
  exact q5
end

/-! ## C97 -/

variable {ε Xmax : ℝ} {L : ℕ} {F : RealFFT} {A : GainArith} {N e : ℕ} {build : Buf × ConvolverSpec → ProcSpec → Convolver} {Ks Bs : ℕ → ℕ} {schs : ℕ → List Layout}

/-- **C97** in the concurrent system, in binary32 with infinities and NaNs and any arithmetic in the fades. In any state in which engine `e` is between calls and has picked up everything delivered so
far, load `i` last, if nothing more is delivered, then after `blocks` (long enough for the fades) every sample of the output is right: whatever the engine was given before, if the input has
been in range for as long as the convolver of the `LoadIR` call number `i` remembers, the output is finite and within the error bound. -/
theorem C97_concurrent (flush : Bool) (repair : ℂ → ℂ → ℂ) {twF twI : ℕ → ℕ → ℂ} (hTF : TwiddlesBounded twF) (hTI : TwiddlesBounded twI)
    (hTF' : ∀ k < L, ∀ e < 2 ^ k, ‖twF (2 * 2 ^ k) e - omega (2 * 2 ^ k) ^ e‖ ≤ 2⁻¹ ^ 23)
    (hTI' : ∀ k < L, ∀ e < 2 ^ k, ‖twI (2 * 2 ^ k) e - (omega (2 * 2 ^ k))⁻¹ ^ e‖ ≤ 2⁻¹ ^ 23)
    (hF : ApproxIn F ε (2⁻¹ ^ 99) (2 ^ 125)) (hX : 1 ≤ Xmax) :
    letI := Arith.ieee flush repair twF twI
    ∀ (hB : ConstructsTame F ε Xmax N L build)
    {ls ls' : List (Label (Buf × ConvolverSpec))} {s s' : Sys Convolver (Buf × ConvolverSpec)}
    (h : Exec (convolverOpsR F A) build ls s) (hi : (s.engs e).pc = .idle) (hc : (s.engs e).cmd = [])
    (hU : TameLoads ε Xmax N L e ls) (hCut : TameAs ε Xmax N L e ls Ks Bs schs) (hq : NoResetWhileQueued (convolverOpsR F A) {} (s.engs e).hist) {i : ℕ} (hlast : lastDelivered none (s.engs e).hist = some i)
    {p : ProcSpec} (hp : (formatsIn e ls).getLast? = some p)
    (hr : Run (convolverOpsR F A) build s ls' s') (ha' : (s'.engs e).status = .alive) (hi' : (s'.engs e).pc = .idle)
    (hd' : (s'.engs e).delivered = (s.engs e).delivered)
    (hH : HostBehaves N none (callsIn e (ls ++ ls'))) {blocks more : List Buf} (hcalls : callsIn e ls' = (blocks ++ more).map Call.process)
    (hlen : 4 * ((ceilTimes kUpperFadeTimeS p.sampleRate).toNat + p.maximumBlockSize) ≤ totalLen blocks),
    ∃ ir cs outs, (loadsIn ls)[i]? = some (e, (ir, cs)) ∧ (s'.engs e).outs = (s.engs e).outs ++ outs ∧ SameShape more (outs.drop blocks.length) ∧
      ∀ o < N, ∀ t, t < totalLen more → ir.n + 2 ^ L + Bs i ≤ t + 1 →
        RightAt ε Xmax L (Ks i) (Bs i) (schs i) ir cs (stream (blocks ++ more)) o (totalLen blocks + t) (stream (outs.drop blocks.length) o t) := by
  letI := Arith.ieee flush repair twF twI
  intro hB ls ls' s s' h hi hc hU hCut hq i hlast p hp hr ha' hi' hd' hH blocks more hcalls hlen
  exact recovers_concurrent (feeds_ieee (N := N) (flush := flush) (repair := repair) hTF hTI hTF' hTI' hF hX) hB h hi hc hU hCut hq hlast hp hr ha' hi' hd' hH hcalls hlen

/-- **C97**, liveness. An engine is prepared for the last time (by moment `n1`) before any response is loaded; then any number of `LoadIR` calls come, at any time, the last of all at
moment `n`. If the worker threads and `LoadIR` calls are not starved, and the host keeps processing (non-empty) blocks, then there is a moment from which the engine's output is right for the response
of that last `LoadIR` call, as soon as it has got as much input since that moment as its convolver remembers and this input is in range: NaNs and infinities before, and even since, are forgotten. -/
theorem C97_finally (flush : Bool) (repair : ℂ → ℂ → ℂ) {twF twI : ℕ → ℕ → ℂ} (hTF : TwiddlesBounded twF) (hTI : TwiddlesBounded twI)
    (hTF' : ∀ k < L, ∀ e < 2 ^ k, ‖twF (2 * 2 ^ k) e - omega (2 * 2 ^ k) ^ e‖ ≤ 2⁻¹ ^ 23)
    (hTI' : ∀ k < L, ∀ e < 2 ^ k, ‖twI (2 * 2 ^ k) e - (omega (2 * 2 ^ k))⁻¹ ^ e‖ ≤ 2⁻¹ ^ 23)
    (hF : ApproxIn F ε (2⁻¹ ^ 99) (2 ^ 125)) (hX : 1 ≤ Xmax) :
    letI := Arith.ieee flush repair twF twI
    ∀ (hB : ConstructsTame F ε Xmax N L build)
    {b : Behaviour (convolverOpsR F A) build} (hfair : b.Fair loadingSteps)
    -- the last `prepare`
    {n1 : ℕ} (hi1 : ((b.state n1).engs e).pc = .idle) (hno : ∀ req, .loadLock e req ∉ b.upTo n1) {p : ProcSpec} (hp : (formatsIn e (b.upTo n1)).getLast? = some p)
    -- the last `LoadIR`
    {n : ℕ} (hn1 : n1 ≤ n) {ir : Buf} {cs : ConvolverSpec} (hload : b.act n = some (.loadLock e (ir, cs))) (hn : b.NoLoadsFrom (n + 1))
    (ho : ∀ m, n ≤ m → ∀ e', b.act m = some (.loadRemove e') → e' = e) (hd : b.NoDanglingFrom n)
    (hroom : ∀ m, b.act m = some (.jobCheck (loadsIn (b.upTo n)).length) → ((b.state m).engs e).cmd.length + ((b.state m).engs e).cmdTaken < 399)
    -- the host keeps processing
    (hk : KeepsCalling b e) (hproc : ∀ m, n1 ≤ m → ∀ k, b.act m = some (.call e k) → ∃ blk, k = .process blk ∧ 0 < blk.n)
    -- the host and the requests are reasonable
    (hH : ∀ m, HostBehaves N none (callsIn e (b.upTo m))) (hU : ∀ m, TameLoads ε Xmax N L e (b.upTo m))
    (hCut : ∀ m, TameAs ε Xmax N L e (b.upTo m) Ks Bs schs),
    ∃ m, n ≤ m ∧ ((b.state m).engs e).pc = .idle ∧ ∀ q, ((b.state (m + q)).engs e).pc = .idle →
      ∃ more outs, callsIn e (b.during m q) = more.map Call.process ∧ ((b.state (m + q)).engs e).outs = ((b.state m).engs e).outs ++ outs ∧ SameShape more outs ∧
        ∀ o < N, ∀ t, t < totalLen more → ir.n + 2 ^ L + Bs (loadsIn (b.upTo n)).length ≤ t + 1 →
          RightAt ε Xmax L (Ks (loadsIn (b.upTo n)).length) (Bs (loadsIn (b.upTo n)).length) (schs (loadsIn (b.upTo n)).length) ir cs (stream more) o t (stream outs o t) := by
  letI := Arith.ieee flush repair twF twI
  intro hB b hfair n1 hi1 hno p hp n hn1 ir cs hload hn ho hd hroom hk hproc hH hU hCut
  exact recovers_finally (feeds_ieee (N := N) (flush := flush) (repair := repair) hTF hTI hTF' hTI' hF hX) hB hfair hi1 hno hp hn1 hload hn ho hd hroom hk hproc hH hU hCut

end Zones.Props
