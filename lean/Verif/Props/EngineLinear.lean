import Verif.Spec.EngineLinear
import Verif.Props.Reference
import Verif.Props.EngineLevel

/-!
# C102: the engine is linear and causal, also while it fades
-/

open Zones.Spec Zones.Model Zones.Proofs

namespace Zones.Props

section linear
variable (N : ℕ) (a b : ℝ) (irs : ℕ → Buf) (specs : ℕ → ConvolverSpec)

/-- What has been heard: the third is the combination of the others. -/
def HRel (x y z : List Buf) : Prop :=
  totalLen y = totalLen x ∧ totalLen z = totalLen x ∧ ∀ ch < N, ∀ m < totalLen x, stream z ch m = a * stream x ch m + b * stream y ch m

/-- Voices that have heard such things. -/
structure VRel (x y z : Voice) : Prop where
  idy : y.id = x.id
  idz : z.id = x.id
  valid : ValidRouting (specs x.id).inputRouting (irs x.id).ch N
  heard : HRel N a b x.heard y.heard z.heard

/-- The same for no voice. -/
inductive ORel : Option Voice → Option Voice → Option Voice → Prop
  | none : ORel none none none
  | some {x y z : Voice} (h : VRel N a b irs specs x y z) : ORel (some x) (some y) (some z)

inductive SRel : Stage → Stage → Stage → Prop
  | steady {x y z : Option Voice} (h : ORel N a b irs specs x y z) (hs : Bool) : SRel (.steady x hs) (.steady y hs) (.steady z hs)
  | fading {x y z : Option Voice} {f g k : Voice} (h : ORel N a b irs specs x y z) (hf : VRel N a b irs specs f g k) (w : Option ℕ)
      (hw : ∀ i, w = some i → ValidRouting (specs i).inputRouting (irs i).ch N) (p : Phase) : SRel (.fading x f w p) (.fading y g w p) (.fading z k w p)

variable {N a b irs specs}

theorem hrel_nil : HRel N a b [] [] [] := ⟨rfl, rfl, fun _ _ m hm => absurd hm (Nat.not_lt_zero m)⟩

theorem vrel_new {i : ℕ} (h : ValidRouting (specs i).inputRouting (irs i).ch N) : VRel N a b irs specs ⟨i, []⟩ ⟨i, []⟩ ⟨i, []⟩ := ⟨rfl, rfl, h, hrel_nil⟩

/-- Samples up to `i` of one more block. -/
theorem hrel_extend {x y z : List Buf} (h : HRel N a b x y z) {u v w : Buf} (hv : v.n = u.n) (hw : w.n = u.n) {i : ℕ} (hi : i < u.n)
    (hd : ∀ ch < N, ∀ m ≤ i, w.data ch m = a * u.data ch m + b * v.data ch m) :
    ∀ ch < N, ∀ m ≤ totalLen x + i, stream (z ++ [w]) ch m = a * stream (x ++ [u]) ch m + b * stream (y ++ [v]) ch m := by
  intro ch hch m hm
  obtain ⟨h1, h2, h3⟩ := h
  by_cases hlt : m < totalLen x
  · rw [stream_append_left _ _ (by omega), stream_append_left _ _ (by omega), stream_append_left _ _ (by omega)]
    exact h3 ch hch m hlt
  · obtain ⟨k, rfl⟩ : ∃ k, m = totalLen x + k := ⟨m - totalLen x, by omega⟩
    have e1 := stream_append_right z [w] ch k
    have e2 := stream_append_right y [v] ch k
    rw [h2] at e1; rw [h1] at e2
    rw [stream_append_right, e1, e2]
    simp only [stream]
    rw [if_pos (by omega), if_pos (by omega), if_pos (by omega)]
    exact hd ch hch k (by omega)

theorem hrel_snoc {x y z : List Buf} (h : HRel N a b x y z) {u v w : Buf} (hv : v.n = u.n) (hw : w.n = u.n)
    (hd : ∀ ch < N, ∀ m < u.n, w.data ch m = a * u.data ch m + b * v.data ch m) : HRel N a b (x ++ [u]) (y ++ [v]) (z ++ [w]) := by
  refine ⟨?_, ?_, ?_⟩
  · rw [totalLen_append, totalLen_append, h.1]; simp [totalLen, hv]
  · rw [totalLen_append, totalLen_append, h.2.1]; simp [totalLen, hw]
  · intro ch hch m hm
    rw [totalLen_append] at hm
    simp only [totalLen, Nat.add_zero] at hm
    by_cases hlt : m < totalLen x
    · rw [stream_append_left _ _ (by rw [h.2.1]; exact hlt), stream_append_left _ _ hlt, stream_append_left _ _ (by rw [h.1]; exact hlt)]
      exact h.2.2 ch hch m hlt
    · have hi : m - totalLen x < u.n := by omega
      exact hrel_extend h hv hw hi (fun ch hch k hk => hd ch hch k (by omega)) ch hch m (by omega)

theorem routedConv_linear {ir : Buf} {r o' : List ℤ} (hr : ValidRouting r ir.ch N) {x y z : ℕ → ℕ → ℝ} {o n : ℕ}
    (h : ∀ ch < N, ∀ m ≤ n, z ch m = a * x ch m + b * y ch m) : routedConv ir r o' z o n = a * routedConv ir r o' x o n + b * routedConv ir r o' y o n := by
  unfold routedConv
  rw [Finset.mul_sum, Finset.mul_sum, ← Finset.sum_add_distrib]
  refine Finset.sum_congr rfl fun c hc => ?_
  rw [Finset.mem_range] at hc
  split_ifs
  · exact linConv_linear _ _ _ _ _ a b n (h _ (route_of_valid hr c hc).2)
  · ring

theorem vrel_sound {x y z : Voice} (h : VRel N a b irs specs x y z) {u v w : Buf} (hv : v.n = u.n) (hw : w.n = u.n) {i : ℕ} (hi : i < u.n)
    (hd : ∀ ch < N, ∀ m ≤ i, w.data ch m = a * u.data ch m + b * v.data ch m) (o : ℕ) :
    z.sound irs specs w o i = a * x.sound irs specs u o i + b * y.sound irs specs v o i := by
  unfold Voice.sound
  rw [h.idy, h.idz, h.heard.1, h.heard.2.1]
  exact routedConv_linear h.valid (hrel_extend h.heard hv hw hi hd)

theorem orel_sound {x y z : Option Voice} (h : ORel N a b irs specs x y z) {u v w : Buf} (hv : v.n = u.n) (hw : w.n = u.n) {i : ℕ} (hi : i < u.n)
    (hd : ∀ ch < N, ∀ m ≤ i, w.data ch m = a * u.data ch m + b * v.data ch m) {o : ℕ} (ho : o < N) :
    soundOf irs specs w o i z = a * soundOf irs specs u o i x + b * soundOf irs specs v o i y := by
  cases h with
  | none => exact hd o ho i le_rfl
  | some h => exact vrel_sound h hv hw hi hd o

theorem mix_linear (i : ℕ) (x y x' y' : ℝ) (p : Phase) : p.mix i (a * x + b * y) (a * x' + b * y') = a * p.mix i x x' + b * p.mix i y y' := by
  cases p with
  | crossfade n j => simp only [Phase.mix]; ring
  | fadeOut n j => simp only [Phase.mix]; ring
  | fadeIn n j => simp only [Phase.mix]; ring
  | stuck k => cases k <;> simp [Phase.mix]
  | jump k => simp [Phase.mix]

theorem srel_sound {x y z : Stage} (h : SRel N a b irs specs x y z) {u v w : Buf} (hv : v.n = u.n) (hw : w.n = u.n) {i : ℕ} (hi : i < u.n)
    (hd : ∀ ch < N, ∀ m ≤ i, w.data ch m = a * u.data ch m + b * v.data ch m) {o : ℕ} (ho : o < N) :
    z.sound irs specs w o i = a * x.sound irs specs u o i + b * y.sound irs specs v o i := by
  cases h with
  | steady h hs => exact orel_sound h hv hw hi hd ho
  | fading h hf w' hw' p =>
    simp only [Stage.sound]
    rw [orel_sound h hv hw hi hd ho, vrel_sound hf hv hw hi hd o, mix_linear]

theorem vrel_hear {x y z : Voice} (h : VRel N a b irs specs x y z) {u v w : Buf} (hv : v.n = u.n) (hw : w.n = u.n)
    (hd : ∀ ch < N, ∀ m < u.n, w.data ch m = a * u.data ch m + b * v.data ch m) : VRel N a b irs specs (x.hear u) (y.hear v) (z.hear w) :=
  ⟨h.idy, h.idz, h.valid, hrel_snoc h.heard hv hw hd⟩

theorem orel_hear {x y z : Option Voice} (h : ORel N a b irs specs x y z) {u v w : Buf} (hv : v.n = u.n) (hw : w.n = u.n)
    (hd : ∀ ch < N, ∀ m < u.n, w.data ch m = a * u.data ch m + b * v.data ch m) : ORel N a b irs specs (x.map (·.hear u)) (y.map (·.hear v)) (z.map (·.hear w)) := by
  cases h with
  | none => exact .none
  | some h => exact .some (vrel_hear h hv hw hd)

theorem srel_after {x y z : Stage} (h : SRel N a b irs specs x y z) {u v w : Buf} (hv : v.n = u.n) (hw : w.n = u.n)
    (hd : ∀ ch < N, ∀ m < u.n, w.data ch m = a * u.data ch m + b * v.data ch m) (rate : ℕ) :
    SRel N a b irs specs (x.after irs specs rate u) (y.after irs specs rate v) (z.after irs specs rate w) := by
  cases h with
  | steady h hs => exact .steady (orel_hear h hv hw hd) hs
  | @fading x y z f g k h hf q hq p =>
    have hf' : VRel N a b irs specs (if p.newHears then f.hear u else f) (if p.newHears then g.hear v else g) (if p.newHears then k.hear w else k) := by
      cases p.newHears
      · exact hf
      · exact vrel_hear hf hv hw hd
    have ha' : ORel N a b irs specs (if p.oldHears then x.map (·.hear u) else x) (if p.oldHears then y.map (·.hear v) else y)
        (if p.oldHears then z.map (·.hear w) else z) := by
      cases p.oldHears
      · exact h
      · exact orel_hear h hv hw hd
    simp only [Stage.after, hv, hw]
    cases p.after u.n with
    | some p' => exact .fading ha' hf' q hq p'
    | none =>
      cases q with
      | none => exact .steady (.some hf') false
      | some i => exact .fading (.some hf') (vrel_new (hq i rfl)) none nofun _

theorem srel_arrive {x y z : Stage} (h : SRel N a b irs specs x y z) (rate : ℕ) {i : ℕ} (hi : ValidRouting (specs i).inputRouting (irs i).ch N) :
    SRel N a b irs specs (x.arrive irs specs rate i) (y.arrive irs specs rate i) (z.arrive irs specs rate i) := by
  cases h with
  | steady h hs =>
    cases h with
    | none => exact .steady (.some (vrel_new hi)) hs
    | some h =>
      cases hs with
      | false => exact .fading (.some h) (vrel_new hi) none nofun _
      | true => exact .fading (.some h) (vrel_new hi) none nofun _
  | fading h hf w hw p =>
    cases h with
    | none => exact .fading (.some (vrel_new hi)) hf w hw p
    | some h => exact .fading (.some h) hf (some i) (fun j hj => by cases hj; exact hi) p

theorem srel_batch (rate : ℕ) : ∀ (batch : List ℕ), (∀ i ∈ batch, ValidRouting (specs i).inputRouting (irs i).ch N) → ∀ {x y z : Stage}, SRel N a b irs specs x y z →
    SRel N a b irs specs (batch.foldl (Stage.arrive irs specs rate) x) (batch.foldl (Stage.arrive irs specs rate) y) (batch.foldl (Stage.arrive irs specs rate) z) := by
  intro batch
  induction batch with
  | nil => intro _ x y z h; exact h
  | cons i batch ih => intro hb x y z h; exact ih (fun j hj => hb j (by simp [hj])) (srel_arrive h rate (hb i (by simp)))

theorem srel_calm {x y z : Stage} (h : SRel N a b irs specs x y z) : SRel N a b irs specs x.calm y.calm z.calm := by
  cases h with
  | steady h hs => exact .steady h false
  | fading h hf w hw p => exact .fading h hf w hw _

theorem srel_restart {x y z : Stage} (h : SRel N a b irs specs x y z) : SRel N a b irs specs x.restart y.restart z.restart := by
  cases h with
  | steady h hs =>
    cases h with
    | none => exact .steady .none hs
    | @some x y z h => exact .steady (.some (x := ⟨x.id, []⟩) (y := ⟨y.id, []⟩) (z := ⟨z.id, []⟩) ⟨h.idy, h.idz, h.valid, hrel_nil⟩) hs
  | @fading x y z f g k h hf w hw p =>
    cases w with
    | none => exact .steady (.some (x := ⟨f.id, []⟩) (y := ⟨g.id, []⟩) (z := ⟨k.id, []⟩) ⟨hf.idy, hf.idz, hf.valid, hrel_nil⟩) p.moving
    | some i => exact .fading (.some (vrel_new (hw i rfl))) hf none nofun p

theorem srel_drop {x y z : Stage} (h : SRel N a b irs specs x y z) : SRel N a b irs specs x.drop y.drop z.drop := by
  cases h with
  | steady h hs => exact .steady .none hs
  | fading h hf w hw p => exact .fading .none hf none nofun p

theorem srel_reset (rate : ℕ) {batch : List ℕ} (hb : ∀ i ∈ batch, ValidRouting (specs i).inputRouting (irs i).ch N) {x y z : Stage} (h : SRel N a b irs specs x y z) :
    SRel N a b irs specs (x.reset irs specs rate batch) (y.reset irs specs rate batch) (z.reset irs specs rate batch) :=
  srel_restart (srel_batch rate batch hb (srel_calm h))

/-- The reference engine is linear and causal. -/
theorem reference_linear : ∀ (hx hy hz : List (List ℕ × Call)), LikeCalls hx hy → LikeCalls hx hz →
    (∀ q ∈ hx, ∀ i ∈ q.1, ValidRouting (specs i).inputRouting (irs i).ch N) → ∀ (x y z : Stage) (rate : ℕ), SRel N a b irs specs x y z → ∀ t : ℕ,
    (∀ ch < N, ∀ m ≤ t, stream (inputs hz) ch m = a * stream (inputs hx) ch m + b * stream (inputs hy) ch m) → ∀ o < N,
    stream (rendered irs specs (Reference.run irs specs ⟨z, rate⟩ hz).2) o t
      = a * stream (rendered irs specs (Reference.run irs specs ⟨x, rate⟩ hx).2) o t + b * stream (rendered irs specs (Reference.run irs specs ⟨y, rate⟩ hy).2) o t := by
  intro hx
  induction hx with
  | nil =>
    intro hy hz h1 h2 _ x y z rate _ t _ o _
    cases h1; cases h2
    simp [Reference.run, rendered, stream]
  | cons q hx ih =>
    intro hy hz h1 h2 hv x y z rate hs t hd o ho
    obtain ⟨batch, k⟩ := q
    cases h1 with
    | cons h1 t1 =>
    cases h2 with
    | cons h2 t2 =>
    rename_i q1 hy q2 hz
    obtain ⟨b1, k1⟩ := q1
    obtain ⟨b2, k2⟩ := q2
    obtain ⟨e1, h1⟩ := h1
    obtain ⟨e2, h2⟩ := h2
    dsimp only at e1 e2 h1 h2
    subst e1 e2
    have hb := hv (batch, k) (by simp)
    have hv' : ∀ q ∈ hx, ∀ i ∈ q.1, ValidRouting (specs i).inputRouting (irs i).ch N := fun q hq => hv q (by simp [hq])
    dsimp only at hb
    cases k with
    | process u =>
      cases h1 with
      | process c1 n1 =>
      cases h2 with
      | process c2 n2 =>
      rename_i v w
      have hs' := srel_batch (a := a) (b := b) rate batch hb hs
      simp only [Reference.run, Reference.call, rendered, List.map_cons, List.singleton_append, stream]
      have hd' : ∀ ch < N, ∀ m ≤ t, m < u.n → w.data ch m = a * u.data ch m + b * v.data ch m := by
        intro ch hch m hm hmu
        have := hd ch hch m hm
        simp only [inputs, List.filterMap_cons, blockOf, stream] at this
        rw [if_pos (by omega), if_pos hmu, if_pos (by omega)] at this
        exact this
      by_cases ht : t < u.n
      · rw [if_pos (by omega), if_pos ht, if_pos (by omega)]
        exact srel_sound hs' n1 n2 ht (fun ch hch m hm => hd' ch hch m hm (by omega)) ho
      · rw [if_neg (by omega), if_neg ht, if_neg (by omega), n1, n2]
        refine ih hy hz t1 t2 hv' _ _ _ rate (srel_after hs' n1 n2 (fun ch hch m hm => hd' ch hch m (by omega) hm) rate) (t - u.n) (fun ch hch m hm => ?_) o ho
        have := hd ch hch (u.n + m) (by omega)
        simp only [inputs, List.filterMap_cons, blockOf, stream] at this
        rw [if_neg (by omega), if_neg (by omega), if_neg (by omega), n1, n2, Nat.add_sub_cancel_left] at this
        exact this
    | reset =>
      cases h1; cases h2
      exact ih hy hz t1 t2 hv' _ _ _ rate (srel_reset rate hb hs) t hd o ho
    | clear =>
      cases h1; cases h2
      exact ih hy hz t1 t2 hv' _ _ _ rate (srel_drop (srel_reset rate hb hs)) t hd o ho
    | prepare p g =>
      cases h1; cases h2
      exact ih hy hz t1 t2 hv' _ _ _ _ (srel_reset _ hb hs) t hd o ho

end linear

theorem likeCalls_numbered {V : Type} {h h' : List (List (Held V) × Call)} (hs : LikeCalls h h') : LikeCalls (numbered h) (numbered h') := by
  unfold numbered
  induction hs with
  | nil => exact .nil
  | cons h _ ih => exact .cons ⟨congrArg (List.map Held.id) h.1, h.2⟩ ih

theorem inputs_numbered {V : Type} (h : List (List (Held V) × Call)) : inputs (numbered h) = inputs h := by
  simp only [inputs, numbered, List.filterMap_map]
  rfl

theorem likeCalls_wellFormed {V : Type} {N : ℕ} {Good : V → Prop} {h h' : List (List (Held V) × Call)} (hs : LikeCalls h h') : ∀ {M : Option ℕ}, WellFormed N Good M h →
    WellFormed N Good M h' := by
  induction hs with
  | nil => intro M w; exact w
  | @cons q q' hh hh' hq _ ih =>
    intro M w
    obtain ⟨batch, k⟩ := q
    obtain ⟨batch', k'⟩ := q'
    obtain ⟨e, hk⟩ := hq
    dsimp only at e hk
    subst e
    cases hk with
    | process hc hn => exact ⟨w.1, fun e1 e2 => w.2.1 e1 (fun p g hp => by cases hp), hc.trans w.2.2.1, fun m hm => by rw [hn]; exact w.2.2.2.1 m hm, ih w.2.2.2.2⟩
    | reset => exact ⟨w.1, w.2.1, ih w.2.2⟩
    | clear => exact ⟨w.1, w.2.1, ih w.2.2⟩
    | prepare p g g' => exact ⟨w.1, fun _ e => absurd rfl (e p g'), w.2.2.1, ih w.2.2.2⟩

theorem likeCalls_built {F : RealFFT} {N : ℕ} {irs : ℕ → Buf} {maxBs : ℕ → ℕ} {specs : ℕ → ConvolverSpec} {h h' : List (List (Held Convolver) × Call)} (hs : LikeCalls h h')
    (hB : BuiltFor F N irs maxBs specs h) : BuiltFor F N irs maxBs specs h' := by
  intro q hq
  obtain ⟨i, hi, rfl⟩ := List.getElem_of_mem hq
  have hl := hs.length_eq
  have := (List.forall₂_iff_get.1 hs).2 i (by omega) hi
  have hm := hB _ (List.getElem_mem (l := h) (n := i) (by omega))
  rw [← show h[i].1 = h'[i].1 from this.1]
  exact hm

theorem likeCalls_rates {V : Type} {h h' : List (List (Held V) × Call)} (hs : LikeCalls h h') (hr : WholeRates h) : WholeRates h' := by
  intro q hq p g hp
  obtain ⟨i, hi, rfl⟩ := List.getElem_of_mem hq
  have hl := hs.length_eq
  have := (List.forall₂_iff_get.1 hs).2 i (by omega) hi
  obtain ⟨_, hk⟩ := this
  rw [show (h'.get ⟨i, hi⟩).2 = .prepare p g from hp] at hk
  generalize hq : (h.get ⟨i, by omega⟩).2 = k at hk
  cases hk with
  | prepare _ g' _ => exact hr _ (List.getElem_mem (l := h) (n := i) (by omega)) p g' hq

/-- **C102.** Three histories of the same calls and arriving responses (any `process`, `reset`, `prepare` and `Clear`, fades of every kind, interrupted or not) that differ in
their samples only: if up to sample `t` the third input is `x` times the first plus `y` times the second, then so is the third output at sample `t`. With other
histories after `t` it would be the same: the engine is a causal linear system, also while it fades. -/
theorem C102_linear_causal {F : RealFFT} (hF : Lawful F) {N : ℕ} {irs : ℕ → Buf} {maxBs : ℕ → ℕ} {specs : ℕ → ConvolverSpec}
    {h1 h2 h3 : List (List (Held Convolver) × Call)} (hB : BuiltFor F N irs maxBs specs h1) (hw : WellFormed N (Serves F N) none h1) (hr : WholeRates h1)
    (s2 : LikeCalls h1 h2) (s3 : LikeCalls h1 h3) :
    ∃ c1 o1 c2 o2 c3 o3, perform (convolverOps F) {} h1 = some (c1, o1) ∧ perform (convolverOps F) {} h2 = some (c2, o2) ∧ perform (convolverOps F) {} h3 = some (c3, o3) ∧
      ∀ (x y : ℝ) (t : ℕ), (∀ ch < N, ∀ m ≤ t, stream (inputs h3) ch m = x * stream (inputs h1) ch m + y * stream (inputs h2) ch m) →
        ∀ o < N, stream o3 o t = x * stream o1 o t + y * stream o2 o t := by
  obtain ⟨c1, o1, e1, _, r1⟩ := C85_reference hF hB hw hr
  obtain ⟨c2, o2, e2, _, r2⟩ := C85_reference hF (likeCalls_built s2 hB) (likeCalls_wellFormed s2 hw) (likeCalls_rates s2 hr)
  obtain ⟨c3, o3, e3, _, r3⟩ := C85_reference hF (likeCalls_built s3 hB) (likeCalls_wellFormed s3 hw) (likeCalls_rates s3 hr)
  refine ⟨c1, o1, c2, o2, c3, o3, e1, e2, e3, fun x y t hd o ho => ?_⟩
  have eq : ∀ {xs ys : List Buf}, SameSamples N xs ys → stream xs o t = stream ys o t := by
    intro xs ys h
    by_cases ht : t < totalLen xs
    · exact (Proofs.SameSamples.stream h o ho t ht).symm
    · rw [stream_beyond _ _ _ (by omega), stream_beyond _ _ _ (by rw [Proofs.SameSamples.totalLen h]; omega)]
  rw [eq r1, eq r2, eq r3]
  have hv : ∀ q ∈ numbered h1, ∀ i ∈ q.1, ValidRouting (specs i).inputRouting (irs i).ch N := by
    intro q hq i hi
    obtain ⟨q', hq', rfl⟩ := List.mem_map.1 hq
    obtain ⟨g, hg, rfl⟩ := List.mem_map.1 hi
    exact (hB q' hq' g hg).1.inputs
  exact reference_linear (N := N) (a := x) (b := y) _ _ _ (likeCalls_numbered s2) (likeCalls_numbered s3) hv _ _ _ 0 (.steady .none false) t
    (by rw [inputs_numbered, inputs_numbered, inputs_numbered]; exact hd) o ho

/-- **C102** (causality). Two histories of the same calls whose inputs are the same up to sample `t` (and may differ afterwards, also within the same block) have the same output up to
sample `t`: there is no latency to look ahead with. -/
theorem C102_causal {F : RealFFT} (hF : Lawful F) {N : ℕ} {irs : ℕ → Buf} {maxBs : ℕ → ℕ} {specs : ℕ → ConvolverSpec}
    {h1 h2 : List (List (Held Convolver) × Call)} (hB : BuiltFor F N irs maxBs specs h1) (hw : WellFormed N (Serves F N) none h1) (hr : WholeRates h1) (s2 : LikeCalls h1 h2) :
    ∃ c1 o1 c2 o2, perform (convolverOps F) {} h1 = some (c1, o1) ∧ perform (convolverOps F) {} h2 = some (c2, o2) ∧
      ∀ t : ℕ, (∀ ch < N, ∀ m ≤ t, stream (inputs h2) ch m = stream (inputs h1) ch m) → ∀ o < N, ∀ m ≤ t, stream o2 o m = stream o1 o m := by
  obtain ⟨c1, o1, c2, o2, c3, o3, e1, e2, e3, h⟩ := C102_linear_causal hF hB hw hr s2 s2
  rw [e2] at e3
  cases e3
  refine ⟨c1, o1, c2, o2, e1, e2, fun t hd o ho m hm => ?_⟩
  rw [h 1 0 m (fun ch hch k hk => by rw [hd ch hch k (by omega)]; ring) o ho]
  ring

/-- **C102** (silence). As long as the input has been silent, so is the output, whatever responses arrive and fade. -/
theorem C102_silent {F : RealFFT} (hF : Lawful F) {N : ℕ} {irs : ℕ → Buf} {maxBs : ℕ → ℕ} {specs : ℕ → ConvolverSpec}
    {h1 : List (List (Held Convolver) × Call)} (hB : BuiltFor F N irs maxBs specs h1) (hw : WellFormed N (Serves F N) none h1) (hr : WholeRates h1) :
    ∃ c1 o1, perform (convolverOps F) {} h1 = some (c1, o1) ∧
      ∀ t : ℕ, (∀ ch < N, ∀ m ≤ t, stream (inputs h1) ch m = 0) → ∀ o < N, ∀ m ≤ t, stream o1 o m = 0 := by
  have hs : LikeCalls h1 h1 := by
    refine List.forall₂_same.2 fun q _ => ⟨rfl, ?_⟩
    cases q.2 with
    | process b => exact .process rfl rfl
    | reset => exact .reset
    | clear => exact .clear
    | prepare p g => exact .prepare p g g
  obtain ⟨c1, o1, c2, o2, c3, o3, e1, e2, e3, h⟩ := C102_linear_causal hF hB hw hr hs hs
  rw [e1] at e2 e3
  cases e2; cases e3
  refine ⟨c1, o1, e1, fun t hd o ho m hm => ?_⟩
  rw [h 0 0 m (fun ch hch k hk => by rw [hd ch hch k (by omega)]; ring) o ho]
  ring

/-! ## A concrete case -/

/-- The history of the examples: responses 1, 2 and 3 arrive one after another while the engine plays the block `b` again and again, and is reset amid the fade. -/
def exampleFades (v : Convolver) (b : Buf) : List (List (Held Convolver) × Call) :=
  [([], .prepare exampleFormat fun _ _ => 7), ([⟨1, v⟩], .process b), ([⟨2, v⟩], .process b), ([⟨3, v⟩], .process b), ([], .reset), ([], .process b)]

/-- The hypotheses of `C102_linear_causal` hold for these histories, played with three inputs of which the third is a combination of the others: the output combines in the same way at every sample,
before, during and after the fades. -/
example : ∃ v, let u : Buf := ⟨2, 64, fun ch n => ch + n⟩
    let w : Buf := ⟨2, 64, fun ch n => 2 * exampleBlock.data ch n - 3 * u.data ch n⟩
    ∃ c1 o1 c2 o2 c3 o3, perform (convolverOps referenceFFT) {} (exampleFades v exampleBlock) = some (c1, o1) ∧ perform (convolverOps referenceFFT) {} (exampleFades v u) = some (c2, o2) ∧
      perform (convolverOps referenceFFT) {} (exampleFades v w) = some (c3, o3) ∧ ∀ t, ∀ o < 2, stream o3 o t = 2 * stream o1 o t + (-3) * stream o2 o t := by
  obtain ⟨v, hv, hs⟩ := example_convolver
  refine ⟨v, ?_⟩
  intro u w
  have like : ∀ b : Buf, b.ch = exampleBlock.ch → b.n = exampleBlock.n → LikeCalls (exampleFades v exampleBlock) (exampleFades v b) := fun b hc hn =>
    .cons ⟨rfl, .prepare _ _ _⟩ (.cons ⟨rfl, .process hc hn⟩ (.cons ⟨rfl, .process hc hn⟩ (.cons ⟨rfl, .process hc hn⟩ (.cons ⟨rfl, .reset⟩ (.cons ⟨rfl, .process hc hn⟩ .nil)))))
  have hB : BuiltFor referenceFFT 2 (fun _ => exampleIR) (fun _ => 64) (fun _ => exampleSpec) (exampleFades v exampleBlock) := by
    intro b hb g hg
    have : g.obj = v := by
      simp only [exampleFades, List.mem_cons, List.not_mem_nil, or_false] at hb
      rcases hb with rfl | rfl | rfl | rfl | rfl | rfl <;> simp at hg <;> rw [hg]
    rw [this]
    exact ⟨exampleUsable, hv⟩
  have hw : WellFormed 2 (Serves referenceFFT 2) none (exampleFades v exampleBlock) := by
    refine ⟨by simp, fun _ _ => rfl, exampleFormat_valid, by simpa using hs, fun h => (by cases h), rfl, fun k hk => (by cases hk; exact le_rfl), ?_⟩
    refine ⟨by simpa using hs, fun h => (by cases h), rfl, fun k hk => (by cases hk; exact le_rfl), ?_⟩
    refine ⟨by simpa using hs, fun h => (by cases h), rfl, fun k hk => (by cases hk; exact le_rfl), by simp, fun h => (by cases h), ?_⟩
    exact ⟨by simp, fun h => (by cases h), rfl, fun k hk => (by cases hk; exact le_rfl), trivial⟩
  have hr : WholeRates (exampleFades v exampleBlock) := by
    intro b hb p g hk
    simp only [exampleFades, List.mem_cons, List.not_mem_nil, or_false] at hb
    rcases hb with rfl | rfl | rfl | rfl | rfl | rfl
    · cases hk
      exact ⟨48000, by norm_num [exampleFormat], by norm_num⟩
    all_goals cases hk
  obtain ⟨c1, o1, c2, o2, c3, o3, e1, e2, e3, h⟩ := C102_linear_causal referenceFFT_lawful hB hw hr (like u rfl rfl) (like w rfl rfl)
  refine ⟨c1, o1, c2, o2, c3, o3, e1, e2, e3, fun t o ho => h 2 (-3) t (fun ch _ m _ => ?_) o ho⟩
  have hn : exampleBlock.n = 64 := rfl
  simp only [inputs, exampleFades, List.filterMap_cons, List.filterMap_nil, blockOf, stream, hn, u, w]
  split_ifs <;> ring

end Zones.Props
