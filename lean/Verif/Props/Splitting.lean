import Verif.Spec.Splitting
import Verif.Props.EngineLinear
import Verif.Props.EngineWitnesses

/-!
# C103: when block lengths are inaudible, also while the engine fades
-/

open Zones.Spec Zones.Model Zones.Proofs

namespace Zones.Props

theorem SameSignal.refl (N : ℕ) (xs : List Buf) : SameSignal N xs xs := ⟨rfl, fun _ _ _ => rfl⟩
theorem SameSignal.symm {N : ℕ} {xs ys : List Buf} (h : SameSignal N xs ys) : SameSignal N ys xs := ⟨h.1.symm, fun ch hc t => (h.2 ch hc t).symm⟩
theorem SameSignal.trans {N : ℕ} {xs ys zs : List Buf} (h : SameSignal N xs ys) (g : SameSignal N ys zs) : SameSignal N xs zs :=
  ⟨h.1.trans g.1, fun ch hc t => (h.2 ch hc t).trans (g.2 ch hc t)⟩

theorem SameSignal.append {N : ℕ} {xs ys us vs : List Buf} (h : SameSignal N xs ys) (g : SameSignal N us vs) : SameSignal N (xs ++ us) (ys ++ vs) := by
  refine ⟨by rw [totalLen_append, totalLen_append, h.1, g.1], fun ch hc t => ?_⟩
  by_cases ht : t < totalLen xs
  · rw [stream_append_left _ _ ht, stream_append_left _ _ (by rw [← h.1]; exact ht)]
    exact h.2 ch hc t
  · obtain ⟨k, rfl⟩ : ∃ k, t = totalLen xs + k := ⟨t - totalLen xs, by omega⟩
    have e := stream_append_right ys vs ch k
    rw [← h.1] at e
    rw [stream_append_right, e]
    exact g.2 ch hc k

/-- All blocks as one. -/
noncomputable def joined (bs : List Buf) : Buf := ⟨0, totalLen bs, stream bs⟩

theorem joined_same (N : ℕ) (bs : List Buf) : SameSignal N [joined bs] bs := by
  refine ⟨by simp [totalLen, joined], fun ch _ t => ?_⟩
  by_cases h : t < totalLen bs
  · exact if_pos h
  · rw [stream_beyond bs ch t (by omega)]
    exact if_neg h

section same
variable (N : ℕ) (irs : ℕ → Buf) (specs : ℕ → ConvolverSpec)

/-- The same voice, having heard the same signal. -/
structure VSame (x y : Voice) : Prop where
  id : y.id = x.id
  valid : ValidRouting (specs x.id).inputRouting (irs x.id).ch N
  heard : SameSignal N x.heard y.heard

inductive OSame : Option Voice → Option Voice → Prop
  | none : OSame none none
  | some {x y : Voice} (h : VSame N irs specs x y) : OSame (some x) (some y)

inductive SSame : Stage → Stage → Prop
  | steady {x y : Option Voice} (h : OSame N irs specs x y) (hs : Bool) : SSame (.steady x hs) (.steady y hs)
  | fading {x y : Option Voice} {f g : Voice} (h : OSame N irs specs x y) (hf : VSame N irs specs f g) (w : Option ℕ)
      (hw : ∀ i, w = some i → ValidRouting (specs i).inputRouting (irs i).ch N) (p : Phase) : SSame (.fading x f w p) (.fading y g w p)

variable {N irs specs}

theorem VSame.symm {x y : Voice} (h : VSame N irs specs x y) : VSame N irs specs y x := ⟨h.id.symm, by rw [h.id]; exact h.valid, SameSignal.symm h.heard⟩
theorem VSame.trans {x y z : Voice} (h : VSame N irs specs x y) (g : VSame N irs specs y z) : VSame N irs specs x z :=
  ⟨g.id.trans h.id, h.valid, SameSignal.trans h.heard g.heard⟩
theorem VSame.left {x y : Voice} (h : VSame N irs specs x y) : VSame N irs specs x x := ⟨rfl, h.valid, SameSignal.refl _ _⟩

theorem OSame.symm {x y : Option Voice} (h : OSame N irs specs x y) : OSame N irs specs y x := by
  cases h with
  | none => exact .none
  | some h => exact .some h.symm
theorem OSame.trans {x y z : Option Voice} (h : OSame N irs specs x y) (g : OSame N irs specs y z) : OSame N irs specs x z := by
  cases h with
  | none => exact g
  | some h => cases g with
    | some g => exact .some (h.trans g)
theorem OSame.left {x y : Option Voice} (h : OSame N irs specs x y) : OSame N irs specs x x := h.trans h.symm

theorem SSame.symm {x y : Stage} (h : SSame N irs specs x y) : SSame N irs specs y x := by
  cases h with
  | steady h hs => exact .steady h.symm hs
  | fading h hf w hw p => exact .fading h.symm hf.symm w hw p
theorem SSame.trans {x y z : Stage} (h : SSame N irs specs x y) (g : SSame N irs specs y z) : SSame N irs specs x z := by
  cases h with
  | steady h hs => cases g with
    | steady g _ => exact .steady (h.trans g) hs
  | fading h hf w hw p => cases g with
    | fading g gf _ _ _ => exact .fading (h.trans g) (hf.trans gf) w hw p
theorem SSame.left {x y : Stage} (h : SSame N irs specs x y) : SSame N irs specs x x := h.trans h.symm

theorem vsame_new {i : ℕ} (h : ValidRouting (specs i).inputRouting (irs i).ch N) : VSame N irs specs ⟨i, []⟩ ⟨i, []⟩ := ⟨rfl, h, SameSignal.refl _ _⟩

theorem cuttable_same {x y : Stage} (h : SSame N irs specs x y) {len : ℕ} (hc : Cuttable len x) : Cuttable len y := by
  cases h with
  | steady h hs => exact trivial
  | fading h hf w hw p => cases p <;> exact hc

/-- The sound of a voice depends only on the signal it has heard, with the block at hand. -/
theorem vsame_sound {x y : Voice} (h : VSame N irs specs x y) {u v : Buf} (huv : SameSignal N [u] [v]) (o i : ℕ) : x.sound irs specs u o i = y.sound irs specs v o i := by
  unfold Voice.sound
  rw [h.id, h.heard.1]
  exact routedConv_congr fun c hc _ m _ => (SameSignal.append h.heard huv).2 _ (route_of_valid h.valid c hc).2 m

theorem block_same {u v : Buf} (h : SameSignal N [u] [v]) : v.n = u.n ∧ ∀ ch < N, ∀ m < u.n, u.data ch m = v.data ch m := by
  have hn : v.n = u.n := by have := h.1; simp only [totalLen, Nat.add_zero] at this; exact this.symm
  refine ⟨hn, fun ch hc m hm => ?_⟩
  have := h.2 ch hc m
  simp only [stream] at this
  rwa [if_pos hm, if_pos (by omega)] at this

theorem osame_sound {x y : Option Voice} (h : OSame N irs specs x y) {u v : Buf} (huv : SameSignal N [u] [v]) {o i : ℕ} (ho : o < N) (hi : i < u.n) :
    soundOf irs specs u o i x = soundOf irs specs v o i y := by
  cases h with
  | none => exact (block_same huv).2 o ho i hi
  | some h => exact vsame_sound h huv o i

theorem ssame_sound {x y : Stage} (h : SSame N irs specs x y) {u v : Buf} (huv : SameSignal N [u] [v]) {o i : ℕ} (ho : o < N) (hi : i < u.n) :
    x.sound irs specs u o i = y.sound irs specs v o i := by
  cases h with
  | steady h hs => exact osame_sound h huv ho hi
  | fading h hf w hw p => simp only [Stage.sound]; rw [osame_sound h huv ho hi, vsame_sound hf huv]

theorem vsame_hear {x y : Voice} (h : VSame N irs specs x y) {u v : Buf} (huv : SameSignal N [u] [v]) : VSame N irs specs (x.hear u) (y.hear v) :=
  ⟨h.id, h.valid, SameSignal.append h.heard huv⟩

theorem osame_hear {x y : Option Voice} (h : OSame N irs specs x y) {u v : Buf} (huv : SameSignal N [u] [v]) :
    OSame N irs specs (x.map (·.hear u)) (y.map (·.hear v)) := by
  cases h with
  | none => exact .none
  | some h => exact .some (vsame_hear h huv)

theorem ssame_after {x y : Stage} (h : SSame N irs specs x y) {u v : Buf} (huv : SameSignal N [u] [v]) (rate : ℕ) :
    SSame N irs specs (x.after irs specs rate u) (y.after irs specs rate v) := by
  cases h with
  | steady h hs => exact .steady (osame_hear h huv) hs
  | @fading x y f g h hf q hq p =>
    have hf' : VSame N irs specs (if p.newHears then f.hear u else f) (if p.newHears then g.hear v else g) := by
      cases p.newHears
      · exact hf
      · exact vsame_hear hf huv
    have ha' : OSame N irs specs (if p.oldHears then x.map (·.hear u) else x) (if p.oldHears then y.map (·.hear v) else y) := by
      cases p.oldHears
      · exact h
      · exact osame_hear h huv
    simp only [Stage.after, (block_same huv).1]
    cases p.after u.n with
    | some p' => exact .fading ha' hf' q hq p'
    | none =>
      cases q with
      | none => exact .steady (.some hf') false
      | some i => exact .fading (.some hf') (vsame_new (hq i rfl)) none nofun _

theorem ssame_arrive {x y : Stage} (h : SSame N irs specs x y) (rate : ℕ) {i : ℕ} (hi : ValidRouting (specs i).inputRouting (irs i).ch N) :
    SSame N irs specs (x.arrive irs specs rate i) (y.arrive irs specs rate i) := by
  cases h with
  | steady h hs =>
    cases h with
    | none => exact .steady (.some (vsame_new hi)) hs
    | some h =>
      cases hs with
      | false => exact .fading (.some h) (vsame_new hi) none nofun _
      | true => exact .fading (.some h) (vsame_new hi) none nofun _
  | fading h hf w hw p =>
    cases h with
    | none => exact .fading (.some (vsame_new hi)) hf w hw p
    | some h => exact .fading (.some h) hf (some i) (fun j hj => by cases hj; exact hi) p

theorem ssame_batch (rate : ℕ) : ∀ (batch : List ℕ), (∀ i ∈ batch, ValidRouting (specs i).inputRouting (irs i).ch N) → ∀ {x y : Stage}, SSame N irs specs x y →
    SSame N irs specs (batch.foldl (Stage.arrive irs specs rate) x) (batch.foldl (Stage.arrive irs specs rate) y) := by
  intro batch
  induction batch with
  | nil => intro _ x y h; exact h
  | cons i batch ih => intro hb x y h; exact ih (fun j hj => hb j (by simp [hj])) (ssame_arrive h rate (hb i (by simp)))

theorem ssame_restart {x y : Stage} (h : SSame N irs specs x y) : SSame N irs specs x.restart y.restart := by
  cases h with
  | steady h hs =>
    cases h with
    | none => exact .steady .none hs
    | @some x y h => exact .steady (.some (x := ⟨x.id, []⟩) (y := ⟨y.id, []⟩) ⟨h.id, h.valid, SameSignal.refl _ _⟩) hs
  | @fading x y f g h hf w hw p =>
    cases w with
    | none => exact .steady (.some (x := ⟨f.id, []⟩) (y := ⟨g.id, []⟩) ⟨hf.id, hf.valid, SameSignal.refl _ _⟩) p.moving
    | some i => exact .fading (.some (vsame_new (hw i rfl))) hf none nofun p

theorem ssame_calm {x y : Stage} (h : SSame N irs specs x y) : SSame N irs specs x.calm y.calm := by
  cases h with
  | steady h hs => exact .steady h false
  | fading h hf w hw p => exact .fading h hf w hw _

theorem ssame_drop {x y : Stage} (h : SSame N irs specs x y) : SSame N irs specs x.drop y.drop := by
  cases h with
  | steady h hs => exact .steady .none hs
  | fading h hf w hw p => exact .fading .none hf none nofun p

theorem ssame_reset (rate : ℕ) {batch : List ℕ} (hb : ∀ i ∈ batch, ValidRouting (specs i).inputRouting (irs i).ch N) {x y : Stage} (h : SSame N irs specs x y) :
    SSame N irs specs (x.reset irs specs rate batch) (y.reset irs specs rate batch) := ssame_restart (ssame_batch rate batch hb (ssame_calm h))

/-! ## Two blocks as one -/

theorem fadeGain_done {n t : ℕ} (hn : 0 < n) (h : n ≤ t) : fadeGain n t = 1 := by
  unfold fadeGain
  have : (0 : ℝ) < n := by exact_mod_cast hn
  have h' : (n : ℝ) ≤ t := by exact_mod_cast h
  exact min_eq_left (by rw [le_div_iff₀ this]; linarith)

theorem pair_same (N : ℕ) (u v : Buf) : SameSignal N [joined [u, v]] ([u] ++ [v]) := joined_same N [u, v]

theorem vhear_pair {x : Voice} (h : VSame N irs specs x x) (u v : Buf) : VSame N irs specs (x.hear (joined [u, v])) ((x.hear u).hear v) := by
  refine ⟨rfl, h.valid, ?_⟩
  show SameSignal N (x.heard ++ [joined [u, v]]) (x.heard ++ [u] ++ [v])
  rw [List.append_assoc]
  exact SameSignal.append (SameSignal.refl _ _) (pair_same N u v)

theorem ohear_pair {x : Option Voice} (h : OSame N irs specs x x) (u v : Buf) :
    OSame N irs specs (x.map (·.hear (joined [u, v]))) ((x.map (·.hear u)).map (·.hear v)) := by
  cases h with
  | none => exact .none
  | some h => exact .some (vhear_pair h u v)

theorem vsound_fst {x : Voice} (h : VSame N irs specs x x) (u v : Buf) (o i : ℕ) (hi : i < u.n) : x.sound irs specs (joined [u, v]) o i = x.sound irs specs u o i := by
  unfold Voice.sound
  refine routedConv_congr fun c hc _ m hm => ?_
  rw [(SameSignal.append (SameSignal.refl N x.heard) (pair_same N u v)).2 _ (route_of_valid h.valid c hc).2 m, ← List.append_assoc]
  exact stream_append_left _ _ (by rw [totalLen_append]; simp only [totalLen]; omega)

theorem vsound_snd {x : Voice} (h : VSame N irs specs x x) (u v : Buf) (o i : ℕ) : x.sound irs specs (joined [u, v]) o (u.n + i) = (x.hear u).sound irs specs v o i := by
  unfold Voice.sound Voice.hear
  have e : totalLen (x.heard ++ [u]) + i = totalLen x.heard + (u.n + i) := by rw [totalLen_append]; simp only [totalLen]; omega
  rw [e]
  refine routedConv_congr fun c hc _ m hm => ?_
  rw [(SameSignal.append (SameSignal.refl N x.heard) (pair_same N u v)).2 _ (route_of_valid h.valid c hc).2 m, ← List.append_assoc]

theorem data_fst (u v : Buf) (o i : ℕ) (hi : i < u.n) : (joined [u, v]).data o i = u.data o i := by simp [joined, stream, hi]
theorem data_snd (u v : Buf) (o i : ℕ) (hi : i < v.n) : (joined [u, v]).data o (u.n + i) = v.data o i := by simp [joined, stream, hi]

theorem osound_fst {x : Option Voice} (h : OSame N irs specs x x) (u v : Buf) (o i : ℕ) (hi : i < u.n) :
    soundOf irs specs (joined [u, v]) o i x = soundOf irs specs u o i x := by
  cases h with
  | none => exact data_fst u v o i hi
  | some h => exact vsound_fst h u v o i hi

theorem osound_snd {x : Option Voice} (h : OSame N irs specs x x) (u v : Buf) (o i : ℕ) (hi : i < v.n) :
    soundOf irs specs (joined [u, v]) o (u.n + i) x = soundOf irs specs v o i (x.map (·.hear u)) := by
  cases h with
  | none => exact data_snd u v o i hi
  | some h => exact vsound_snd h u v o i

/-- The first part of a block sounds as a block of its own. -/
theorem sound_fst {x : Stage} (h : SSame N irs specs x x) (u v : Buf) (o i : ℕ) (hi : i < u.n) : x.sound irs specs (joined [u, v]) o i = x.sound irs specs u o i := by
  cases h with
  | steady h hs => exact osound_fst h u v o i hi
  | fading h hf w hw p => simp only [Stage.sound]; rw [osound_fst h u v o i hi, vsound_fst hf u v o i hi]

theorem joined_n (u v : Buf) : (joined [u, v]).n = u.n + v.n := by simp [joined, totalLen]

/-- A cuttable block sounds as its two parts do, leaves the engine in the same stage, and the second part is cuttable. -/
theorem cut_two {x : Stage} (h : SSame N irs specs x x) (rate : ℕ) (u v : Buf) (hu : 0 < u.n) (hv : 0 < v.n) (hc : Cuttable (u.n + v.n) x) :
    (∀ o, ∀ i < v.n, x.sound irs specs (joined [u, v]) o (u.n + i) = (x.after irs specs rate u).sound irs specs v o i) ∧
      SSame N irs specs (x.after irs specs rate (joined [u, v])) ((x.after irs specs rate u).after irs specs rate v) ∧ Cuttable v.n (x.after irs specs rate u) := by
  cases h with
  | steady h hs => exact ⟨fun o i hi => osound_snd h u v o i hi, .steady (ohear_pair h u v) hs, trivial⟩
  | @fading x _ f _ h hf w hw p =>
    cases p with
    | crossfade n j =>
      obtain ⟨hn, hc⟩ := hc
      by_cases hj : j + u.n < n
      · have e : Stage.after irs specs rate (.fading x f w (.crossfade n j)) u = .fading (x.map (·.hear u)) (f.hear u) w (.crossfade n (j + u.n)) := by
          simp only [Stage.after, Phase.after, if_pos hj]; rfl
        rw [e]
        refine ⟨fun o i hi => ?_, ?_, hn, hc.imp id (by omega)⟩
        · simp only [Stage.sound, Phase.mix]
          rw [osound_snd h u v o i hi, vsound_snd hf, show j + u.n + i = j + (u.n + i) by omega]
        · by_cases hj2 : j + u.n + v.n < n
          · simp only [Stage.after, Phase.after, joined_n, ← Nat.add_assoc, if_pos hj2]
            exact .fading (ohear_pair h u v) (vhear_pair hf u v) w hw _
          · simp only [Stage.after, Phase.after, joined_n, ← Nat.add_assoc, if_neg hj2]
            cases w with
            | none => exact .steady (.some (vhear_pair hf u v)) false
            | some i => exact .fading (.some (vhear_pair hf u v)) (vsame_new (hw i rfl)) none nofun _
      · have hw0 : w = none := hc.resolve_right (by omega)
        subst hw0
        have e : Stage.after irs specs rate (.fading x f none (.crossfade n j)) u = .steady (some (f.hear u)) false := by
          simp only [Stage.after, Phase.after, if_neg hj]; rfl
        rw [e]
        refine ⟨fun o i hi => ?_, ?_, trivial⟩
        · simp only [Stage.sound, Phase.mix, soundOf]
          rw [vsound_snd hf, fadeGain_done hn (by omega)]
          ring
        · have hj2 : ¬ j + (u.n + v.n) < n := by omega
          simp only [Stage.after, Phase.after, joined_n, if_neg hj2]
          exact .steady (.some (vhear_pair hf u v)) false
    | fadeOut n j =>
      have hc : j + (u.n + v.n) ≤ n := hc
      have hj : j + u.n < n := by omega
      have e : Stage.after irs specs rate (.fading x f w (.fadeOut n j)) u = .fading (x.map (·.hear u)) f w (.fadeOut n (j + u.n)) := by
        simp only [Stage.after, Phase.after, if_pos hj]; rfl
      rw [e]
      refine ⟨fun o i hi => ?_, ?_, show j + u.n + v.n ≤ n by omega⟩
      · simp only [Stage.sound, Phase.mix]
        rw [osound_snd h u v o i hi, show j + u.n + i = j + (u.n + i) by omega]
      · by_cases hj2 : j + u.n + v.n < n
        · simp only [Stage.after, Phase.after, joined_n, ← Nat.add_assoc, if_pos hj2]
          exact .fading (ohear_pair h u v) hf w hw _
        · simp only [Stage.after, Phase.after, joined_n, ← Nat.add_assoc, if_neg hj2]
          exact .fading (ohear_pair h u v) hf w hw _
    | fadeIn n j =>
      obtain ⟨hn, hc⟩ := hc
      by_cases hj : j + u.n < n
      · have e : Stage.after irs specs rate (.fading x f w (.fadeIn n j)) u = .fading x (f.hear u) w (.fadeIn n (j + u.n)) := by
          simp only [Stage.after, Phase.after, if_pos hj]; rfl
        rw [e]
        refine ⟨fun o i hi => ?_, ?_, hn, hc.imp id (by omega)⟩
        · simp only [Stage.sound, Phase.mix]
          rw [vsound_snd hf, show j + u.n + i = j + (u.n + i) by omega]
        · by_cases hj2 : j + u.n + v.n < n
          · simp only [Stage.after, Phase.after, joined_n, ← Nat.add_assoc, if_pos hj2]
            exact .fading h (vhear_pair hf u v) w hw _
          · simp only [Stage.after, Phase.after, joined_n, ← Nat.add_assoc, if_neg hj2]
            cases w with
            | none => exact .steady (.some (vhear_pair hf u v)) false
            | some i => exact .fading (.some (vhear_pair hf u v)) (vsame_new (hw i rfl)) none nofun _
      · have hw0 : w = none := hc.resolve_right (by omega)
        subst hw0
        have e : Stage.after irs specs rate (.fading x f none (.fadeIn n j)) u = .steady (some (f.hear u)) false := by
          simp only [Stage.after, Phase.after, if_neg hj]; rfl
        rw [e]
        refine ⟨fun o i hi => ?_, ?_, trivial⟩
        · simp only [Stage.sound, Phase.mix, soundOf]
          rw [vsound_snd hf, fadeGain_done hn (by omega)]
          ring
        · have hj2 : ¬ j + (u.n + v.n) < n := by omega
          simp only [Stage.after, Phase.after, joined_n, if_neg hj2]
          exact .steady (.some (vhear_pair hf u v)) false
    | stuck k => exact hc.elim
    | jump k =>
      have hw0 : w = none := hc
      subst hw0
      exact ⟨fun o i hi => vsound_snd hf u v o i, .steady (.some (vhear_pair hf u v)) false, trivial⟩

/-! ## Any number of blocks -/

/-- The stage after some blocks, and what they become. -/
noncomputable def playStage (irs : ℕ → Buf) (specs : ℕ → ConvolverSpec) (rate : ℕ) : Stage → List Buf → Stage
  | s, [] => s
  | s, b :: bs => playStage irs specs rate (s.after irs specs rate b) bs
noncomputable def playSound (irs : ℕ → Buf) (specs : ℕ → ConvolverSpec) (rate : ℕ) : Stage → List Buf → List Buf
  | _, [] => []
  | s, b :: bs => ⟨b.ch, b.n, fun o i => s.sound irs specs b o i⟩ :: playSound irs specs rate (s.after irs specs rate b) bs

theorem playSound_len (rate : ℕ) : ∀ (bs : List Buf) (s : Stage), totalLen (playSound irs specs rate s bs) = totalLen bs
  | [], _ => rfl
  | b :: bs, s => by simp only [playSound, totalLen]; rw [playSound_len rate bs]

/-- A cuttable signal sounds, block by block, as if it were one block. -/
theorem cut_many (rate : ℕ) : ∀ (bs : List Buf) (b : Buf), (∀ q ∈ b :: bs, 0 < q.n) → ∀ {x : Stage}, SSame N irs specs x x → Cuttable (totalLen (b :: bs)) x →
    (∀ o < N, ∀ i < totalLen (b :: bs), stream (playSound irs specs rate x (b :: bs)) o i = x.sound irs specs (joined (b :: bs)) o i) ∧
      SSame N irs specs (x.after irs specs rate (joined (b :: bs))) (playStage irs specs rate x (b :: bs)) := by
  intro bs
  induction bs with
  | nil =>
    intro b _ x h _
    have hj := joined_same N [b]
    refine ⟨fun o ho i hi => ?_, ssame_after h hj rate⟩
    have hi : i < b.n := by simpa [totalLen] using hi
    simp only [playSound, stream]
    rw [if_pos hi]
    exact (ssame_sound h hj ho (by simpa [joined, totalLen] using hi)).symm
  | cons b2 bs ih =>
    intro b hpos x h hc
    have hu : 0 < b.n := hpos b (by simp)
    have hv : 0 < (joined (b2 :: bs)).n := by
      have := hpos b2 (by simp)
      simp only [joined, totalLen]; omega
    have hlen : totalLen (b :: b2 :: bs) = b.n + (joined (b2 :: bs)).n := rfl
    rw [hlen] at hc ⊢
    obtain ⟨k1, k2, k3⟩ := cut_two h rate b (joined (b2 :: bs)) hu hv hc
    have hs := ssame_after h (SameSignal.refl N [b]) rate
    obtain ⟨m1, m2⟩ := ih b2 (fun q hq => hpos q (by simp [hq])) (x := x.after irs specs rate b) hs k3
    have hj : SameSignal N [joined (b :: b2 :: bs)] [joined [b, joined (b2 :: bs)]] := by
      refine SameSignal.trans (joined_same N _) (SameSignal.symm (SameSignal.trans (joined_same N [b, joined (b2 :: bs)]) ?_))
      exact SameSignal.append (SameSignal.refl N [b]) (joined_same N (b2 :: bs))
    constructor
    · intro o ho i hi
      rw [ssame_sound h hj ho (by rw [show (joined (b :: b2 :: bs)).n = _ from hlen]; exact hi)]
      rw [playSound]
      simp only [stream]
      by_cases hib : i < b.n
      · rw [if_pos hib]
        exact (sound_fst h b _ o i hib).symm
      · obtain ⟨k, rfl⟩ : ∃ k, i = b.n + k := ⟨i - b.n, by omega⟩
        rw [if_neg hib, Nat.add_sub_cancel_left, k1 o k (by omega)]
        exact m1 o ho k (by rw [show totalLen (b2 :: bs) = (joined (b2 :: bs)).n from rfl]; omega)
    · exact (ssame_after h hj rate).trans (k2.trans m2)

/-- The same signal in other blocks. -/
theorem recut_play (rate : ℕ) {b b' : Buf} {bs bs' : List Buf} (same : SameSignal N (b :: bs) (b' :: bs')) (pos : ∀ q ∈ b :: bs, 0 < q.n) (pos' : ∀ q ∈ b' :: bs', 0 < q.n)
    {x y : Stage} (h : SSame N irs specs x y) (hc : Cuttable (totalLen (b :: bs)) x) :
    SameSignal N (playSound irs specs rate x (b :: bs)) (playSound irs specs rate y (b' :: bs')) ∧
      SSame N irs specs (playStage irs specs rate x (b :: bs)) (playStage irs specs rate y (b' :: bs')) := by
  obtain ⟨m1, m2⟩ := cut_many rate bs b pos h.left hc
  obtain ⟨k1, k2⟩ := cut_many rate bs' b' pos' h.symm.left (by rw [← same.1]; exact cuttable_same h hc)
  have hj : SameSignal N [joined (b :: bs)] [joined (b' :: bs')] := SameSignal.trans (joined_same N _) (SameSignal.trans same (SameSignal.symm (joined_same N _)))
  refine ⟨⟨by rw [playSound_len, playSound_len, same.1], fun o ho t => ?_⟩, m2.symm.trans ((ssame_after h hj rate).trans k2)⟩
  by_cases ht : t < totalLen (b :: bs)
  · rw [m1 o ho t ht, k1 o ho t (by rw [← same.1]; exact ht)]
    exact ssame_sound h hj ho ht
  · rw [stream_beyond _ _ _ (by rw [playSound_len]; omega), stream_beyond _ _ _ (by rw [playSound_len, ← same.1]; omega)]

/-! ## Histories -/

theorem run_append : ∀ (xs ys : List (List ℕ × Call)) (r : Reference), Reference.run irs specs r (xs ++ ys) =
    ((Reference.run irs specs (Reference.run irs specs r xs).1 ys).1, (Reference.run irs specs r xs).2 ++ (Reference.run irs specs (Reference.run irs specs r xs).1 ys).2) := by
  intro xs
  induction xs with
  | nil => intro ys r; rfl
  | cons x xs ih =>
    intro ys r
    obtain ⟨batch, k⟩ := x
    simp only [List.cons_append, Reference.run]
    rw [ih]
    simp only [List.append_assoc]

theorem run_blocks : ∀ (bs : List Buf) (r : Reference), (Reference.run irs specs r (bs.map fun b => ([], Call.process b))).1 = ⟨playStage irs specs r.rate r.stage bs, r.rate⟩ ∧
    rendered irs specs (Reference.run irs specs r (bs.map fun b => ([], Call.process b))).2 = playSound irs specs r.rate r.stage bs := by
  intro bs
  induction bs with
  | nil => intro r; exact ⟨rfl, rfl⟩
  | cons b bs ih =>
    intro r
    obtain ⟨h1, h2⟩ := ih ⟨r.stage.after irs specs r.rate b, r.rate⟩
    refine ⟨h1, ?_⟩
    simp only [List.map_cons, Reference.run, Reference.call, List.foldl_nil, rendered, List.singleton_append, playSound]
    rw [← h2]; rfl

theorem run_play (batch : List ℕ) (b : Buf) (bs : List Buf) (r : Reference) :
    (Reference.run irs specs r ((Piece.play b bs).calls batch)).1 = ⟨playStage irs specs r.rate (batch.foldl (Stage.arrive irs specs r.rate) r.stage) (b :: bs), r.rate⟩ ∧
    rendered irs specs (Reference.run irs specs r ((Piece.play b bs).calls batch)).2 = playSound irs specs r.rate (batch.foldl (Stage.arrive irs specs r.rate) r.stage) (b :: bs) := by
  obtain ⟨h1, h2⟩ := run_blocks (irs := irs) (specs := specs) bs ⟨(batch.foldl (Stage.arrive irs specs r.rate) r.stage).after irs specs r.rate b, r.rate⟩
  refine ⟨h1, ?_⟩
  simp only [Piece.calls, Reference.run, Reference.call, rendered, List.singleton_append, playSound, List.map_cons]
  rw [← h2]; rfl

theorem rendered_append (xs ys : List (Stage × Buf)) : rendered irs specs (xs ++ ys) = rendered irs specs xs ++ rendered irs specs ys := List.map_append

theorem reference_recut : ∀ (ps qs : List (List ℕ × Piece)), Recuts N ps qs → (∀ p ∈ ps, ∀ i ∈ p.1, ValidRouting (specs i).inputRouting (irs i).ch N) →
    ∀ (x y : Stage) (rate : ℕ), SSame N irs specs x y → Unhurried irs specs ⟨x, rate⟩ ps →
    SameSignal N (rendered irs specs (Reference.run irs specs ⟨x, rate⟩ (pieced ps)).2) (rendered irs specs (Reference.run irs specs ⟨y, rate⟩ (pieced qs)).2) := by
  intro ps
  induction ps with
  | nil => intro qs h _ x y rate _ _; cases h; exact SameSignal.refl _ _
  | cons p ps ih =>
    intro qs h hv x y rate hs hu
    obtain ⟨batch, p⟩ := p
    cases h with
    | @cons _ q _ qs hq ht =>
    obtain ⟨batch', q⟩ := q
    obtain ⟨e, hq⟩ := hq
    dsimp only at e hq
    subst e
    have hb := hv (batch, p) (by simp)
    have hv' : ∀ q ∈ ps, ∀ i ∈ q.1, ValidRouting (specs i).inputRouting (irs i).ch N := fun q hq => hv q (by simp [hq])
    dsimp only at hb
    obtain ⟨hc, hu⟩ := hu
    simp only [pieced, List.flatMap_cons]
    rw [run_append, run_append, rendered_append, rendered_append]
    cases hq with
    | play same pos pos' =>
      have hs' := ssame_batch rate batch hb hs
      obtain ⟨k1, k2⟩ := recut_play rate same pos pos' hs' (hc _ _ rfl)
      rw [(run_play batch _ _ ⟨x, rate⟩).1] at hu ⊢
      rw [(run_play batch _ _ ⟨y, rate⟩).1, (run_play batch _ _ ⟨x, rate⟩).2, (run_play batch _ _ ⟨y, rate⟩).2]
      exact SameSignal.append k1 (ih qs ht hv' _ _ rate k2 hu)
    | other k =>
      cases k with
      | process b =>
        have hs' := ssame_batch rate batch hb hs
        refine SameSignal.append ?_ (ih qs ht hv' _ _ rate (ssame_after hs' (SameSignal.refl N [b]) rate) hu)
        refine ⟨rfl, fun o ho t => ?_⟩
        simp only [Piece.calls, Reference.run, Reference.call, List.append_nil, rendered, List.map_cons, List.map_nil, stream]
        split_ifs with hi
        · exact ssame_sound hs' (SameSignal.refl N [b]) ho hi
        · rfl
      | reset => exact ih qs ht hv' _ _ rate (ssame_reset rate hb hs) hu
      | clear => exact ih qs ht hv' _ _ rate (ssame_drop (ssame_reset rate hb hs)) hu
      | prepare p g => exact ih qs ht hv' _ _ _ (ssame_reset _ hb hs) hu

end same

theorem numbered_pieced {V : Type} (ps : List (List (Held V) × Piece)) : numbered (pieced ps) = pieced (numberedPieces ps) := by
  unfold numbered pieced numberedPieces
  rw [List.map_flatMap, List.flatMap_map]
  congr 1
  funext p
  obtain ⟨batch, p⟩ := p
  cases p with
  | play b bs => simp [Piece.calls, Function.comp_def]
  | other k => rfl

theorem recuts_numbered {V : Type} {N : ℕ} {ps qs : List (List (Held V) × Piece)} (h : Recuts N ps qs) : Recuts N (numberedPieces ps) (numberedPieces qs) := by
  unfold numberedPieces
  induction h with
  | nil => exact .nil
  | cons h _ ih => exact .cons ⟨congrArg (List.map Held.id) h.1, h.2⟩ ih

/-- Each call of the second history finds what some call of the first one finds, and is one of its calls or plays something. -/
theorem recuts_mem {H : Type} {N : ℕ} {ps qs : List (List H × Piece)} (h : Recuts N ps qs) : ∀ x ∈ pieced qs,
    (x.1 = [] ∨ ∃ y ∈ pieced ps, y.1 = x.1) ∧ ((∃ b, x.2 = .process b) ∨ ∃ y ∈ pieced ps, y.2 = x.2) := by
  induction h with
  | nil => intro x hx; cases hx
  | @cons p q ps qs hpq _ ih =>
    intro x hx
    unfold pieced at hx ⊢
    simp only [List.flatMap_cons, List.mem_append] at hx ⊢
    obtain ⟨batch, p⟩ := p
    obtain ⟨batch', q⟩ := q
    obtain ⟨e, hr⟩ := hpq
    dsimp only at e hr
    subst e
    rcases hx with hx | hx
    · cases hr with
      | @play b b' bs bs' _ _ _ =>
        simp only [Piece.calls, List.mem_cons, List.mem_map] at hx
        rcases hx with rfl | ⟨q, _, rfl⟩
        · exact ⟨.inr ⟨(batch, .process b), .inl (by simp [Piece.calls]), rfl⟩, .inl ⟨b', rfl⟩⟩
        · exact ⟨.inl rfl, .inl ⟨q, rfl⟩⟩
      | other k => exact ⟨.inr ⟨x, .inl hx, rfl⟩, .inr ⟨x, .inl hx, rfl⟩⟩
    · obtain ⟨h1, h2⟩ := ih x hx
      exact ⟨h1.imp id fun ⟨y, hy, e⟩ => ⟨y, .inr hy, e⟩, h2.imp id fun ⟨y, hy, e⟩ => ⟨y, .inr hy, e⟩⟩

theorem recuts_built {F : RealFFT} {N : ℕ} {irs : ℕ → Buf} {maxBs : ℕ → ℕ} {specs : ℕ → ConvolverSpec} {ps qs : List (List (Held Convolver) × Piece)} (h : Recuts N ps qs)
    (hB : BuiltFor F N irs maxBs specs (pieced ps)) : BuiltFor F N irs maxBs specs (pieced qs) := by
  intro x hx g hg
  rcases (recuts_mem h x hx).1 with e | ⟨y, hy, e⟩
  · rw [e] at hg; cases hg
  · exact hB y hy g (by rw [e]; exact hg)

theorem recuts_rates {V : Type} {N : ℕ} {ps qs : List (List (Held V) × Piece)} (h : Recuts N ps qs) (hr : WholeRates (pieced ps)) : WholeRates (pieced qs) := by
  intro x hx p g e
  rcases (recuts_mem h x hx).2 with ⟨b, eb⟩ | ⟨y, hy, ey⟩
  · rw [eb] at e; cases e
  · exact hr y hy p g (ey.trans e)

theorem sameSamples_signal {N : ℕ} {xs ys : List Buf} (h : SameSamples N xs ys) : SameSignal N xs ys := by
  refine ⟨(Proofs.SameSamples.totalLen h).symm, fun o ho t => ?_⟩
  by_cases ht : t < totalLen xs
  · exact (Proofs.SameSamples.stream h o ho t ht).symm
  · rw [stream_beyond _ _ _ (by omega), stream_beyond _ _ _ (by rw [Proofs.SameSamples.totalLen h]; omega)]

theorem pieced_valid {F : RealFFT} {N : ℕ} {irs : ℕ → Buf} {maxBs : ℕ → ℕ} {specs : ℕ → ConvolverSpec} {ps : List (List (Held Convolver) × Piece)}
    (hB : BuiltFor F N irs maxBs specs (pieced ps)) : ∀ p ∈ numberedPieces ps, ∀ i ∈ p.1, ValidRouting (specs i).inputRouting (irs i).ch N := by
  intro p hp i hi
  obtain ⟨q, hq, rfl⟩ := List.mem_map.1 hp
  obtain ⟨g, hg, rfl⟩ := List.mem_map.1 hi
  obtain ⟨batch, q⟩ := q
  cases q with
  | play b bs => exact (hB (batch, .process b) (List.mem_flatMap.2 ⟨_, hq, by simp [Piece.calls]⟩) g hg).1.inputs
  | other k => exact (hB (batch, k) (List.mem_flatMap.2 ⟨_, hq, by simp [Piece.calls]⟩) g hg).1.inputs

/-- **C103.** The host may cut the signal into blocks as it likes (of one sample or more, within the prepared size): as long as responses arrive at the same samples, and the signals it cuts
differently are cuttable (`Cuttable`: no fade is running; or a crossfade or fade-in is, and nothing waits for its end, or the end is not within the signal; or a response is fading out, and the
end of that is not within the signal), the output is the same, sample by sample, before, during and after fades. Calls of `reset`, `prepare` and `Clear` may come in between. -/
theorem C103_splitting {F : RealFFT} (hF : Lawful F) {N : ℕ} {irs : ℕ → Buf} {maxBs : ℕ → ℕ} {specs : ℕ → ConvolverSpec} {ps qs : List (List (Held Convolver) × Piece)}
    (hcut : Recuts N ps qs) (hB : BuiltFor F N irs maxBs specs (pieced ps)) (hw : WellFormed N (Serves F N) none (pieced ps)) (hw' : WellFormed N (Serves F N) none (pieced qs))
    (hr : WholeRates (pieced ps)) (hu : Unhurried irs specs {} (numberedPieces ps)) :
    ∃ c outs c' outs', perform (convolverOps F) {} (pieced ps) = some (c, outs) ∧ perform (convolverOps F) {} (pieced qs) = some (c', outs') ∧ SameSignal N outs outs' := by
  obtain ⟨c1, o1, e1, _, r1⟩ := C85_reference hF hB hw hr
  obtain ⟨c2, o2, e2, _, r2⟩ := C85_reference hF (recuts_built hcut hB) hw' (recuts_rates hcut hr)
  refine ⟨c1, o1, c2, o2, e1, e2, ?_⟩
  refine SameSignal.trans (sameSamples_signal r1) (SameSignal.trans ?_ (SameSignal.symm (sameSamples_signal r2)))
  rw [numbered_pieced, numbered_pieced]
  exact reference_recut (N := N) _ _ (recuts_numbered hcut) (pieced_valid hB) _ _ 0 (.steady .none false) hu

/-- The fade of a response is a crossfade of at most `len` samples. -/
def CrossfadeWithin (irs : ℕ → Buf) (specs : ℕ → ConvolverSpec) (rate len i : ℕ) : Prop :=
  (expectedFade rate (irs i).n (specs i).fadeStrategy).1 = .crossfade ∧ (expectedFade rate (irs i).n (specs i).fadeStrategy).2 ≤ len

theorem firstPhase_crossfade {irs : ℕ → Buf} {specs : ℕ → ConvolverSpec} {rate len i : ℕ} (h : CrossfadeWithin irs specs rate len i) (hr : 0 < rate) :
    ∃ n, firstPhase irs specs rate i = .crossfade n 0 ∧ 0 < n ∧ n ≤ len := by
  obtain ⟨h1, h2⟩ := h
  unfold firstPhase
  unfold expectedFade at h1 h2 ⊢
  split_ifs at h1 h2 ⊢
  · refine ⟨_, rfl, ?_, by dsimp only at h2; omega⟩
    have : 0 < ⌈(rate : ℚ) / 10⌉ := by
      rw [Int.ceil_pos]
      have : (0 : ℚ) < rate := by exact_mod_cast hr
      positivity
    have := le_max_left ⌈(rate : ℚ) / 10⌉ (min ⌈(14 * (irs i).n : ℚ) / 100⌉ (4 * rate))
    omega

theorem unhurried_crossfades {N : ℕ} {irs : ℕ → Buf} {specs : ℕ → ConvolverSpec} {rate : ℕ} (hr : 0 < rate) : ∀ (ps : List (List ℕ × Piece)),
    (∀ p ∈ ps, ∀ i ∈ p.1, ValidRouting (specs i).inputRouting (irs i).ch N) →
    (∀ p ∈ ps, p.1.length ≤ 1 ∧ ∃ b bs, p.2 = .play b bs ∧ (∀ q ∈ b :: bs, 0 < q.n) ∧ ∀ i ∈ p.1, CrossfadeWithin irs specs rate (totalLen (b :: bs)) i) →
    ∀ {v : Option Voice}, OSame N irs specs v v → Unhurried irs specs ⟨.steady v false, rate⟩ ps := by
  intro ps
  induction ps with
  | nil => intro _ _ v _; exact trivial
  | cons p ps ih =>
    intro hv hp v h
    obtain ⟨batch, p⟩ := p
    obtain ⟨hlen, b, bs, rfl, hpos, hcf⟩ := hp _ (List.mem_cons_self ..)
    have hb := hv _ (List.mem_cons_self ..)
    have ih := @ih (fun q hq => hv q (by simp [hq])) (fun q hq => hp q (by simp [hq]))
    dsimp only at hlen hb hcf
    have hs := ssame_batch rate batch hb (.steady h false)
    suffices hx : ∃ x, batch.foldl (Stage.arrive irs specs rate) (.steady v false) = x ∧ Cuttable (totalLen (b :: bs)) x ∧
        ∃ v', x.after irs specs rate (joined (b :: bs)) = .steady v' false by
      obtain ⟨x, hx, hc, v', hv'⟩ := hx
      rw [hx] at hs
      have hm := (cut_many rate bs b hpos hs.left hc).2
      rw [hv'] at hm
      refine ⟨fun b' bs' e => by cases e; dsimp only; rw [hx]; exact hc, ?_⟩
      rw [(run_play batch b bs _).1]
      dsimp only
      rw [hx]
      generalize playStage irs specs rate x (b :: bs) = y at hm
      cases hm with
      | steady hm _ => exact ih hm.symm.left
    cases batch with
    | nil => exact ⟨_, rfl, trivial, _, rfl⟩
    | cons i batch =>
      have : batch = [] := by simpa using hlen
      subst this
      cases h with
      | none => exact ⟨_, rfl, trivial, _, rfl⟩
      | @some v _ h =>
        obtain ⟨n, e, hn, hle⟩ := firstPhase_crossfade (hcf i (by simp)) hr
        refine ⟨.fading (some v) ⟨i, []⟩ none (.crossfade n 0), ?_, ⟨hn, .inl rfl⟩, some (Voice.hear ⟨i, []⟩ (joined (b :: bs))), ?_⟩
        · simp only [List.foldl_cons, List.foldl_nil, Stage.arrive, e]
        · have hj : ¬ 0 + (joined (b :: bs)).n < n := by show ¬ 0 + totalLen (b :: bs) < n; omega
          simp only [Stage.after, Phase.after, if_neg hj]
          rfl

/-- **C103** (crossfades). After `prepare` at rate `r`, let responses arrive one at a time, each with a crossfade that is over before the next one arrives. Then the block lengths are
inaudible: any two ways of cutting the signals between the arrivals into blocks give the same output. -/
theorem C103_crossfades {F : RealFFT} (hF : Lawful F) {N : ℕ} {irs : ℕ → Buf} {maxBs : ℕ → ℕ} {specs : ℕ → ConvolverSpec} {p : ProcSpec} {g : ℕ → ℕ → ℝ} {r : ℕ} (hr : p.sampleRate = r)
    (hr0 : 0 < r) (hr1 : r ≤ 200000) {ps qs : List (List (Held Convolver) × Piece)}
    (hone : ∀ q ∈ ps, q.1.length ≤ 1 ∧ ∃ b bs, q.2 = .play b bs ∧ ∀ f ∈ q.1, CrossfadeWithin irs specs r (totalLen (b :: bs)) f.id)
    (hcut : Recuts N ps qs) (hB : BuiltFor F N irs maxBs specs (pieced ps))
    (hw : WellFormed N (Serves F N) none (([], .prepare p g) :: pieced ps)) (hw' : WellFormed N (Serves F N) none (([], .prepare p g) :: pieced qs)) :
    ∃ c outs c' outs', perform (convolverOps F) {} (([], .prepare p g) :: pieced ps) = some (c, outs) ∧
      perform (convolverOps F) {} (([], .prepare p g) :: pieced qs) = some (c', outs') ∧ SameSignal N outs outs' := by
  have hB' : BuiltFor F N irs maxBs specs (pieced (([], .other (.prepare p g)) :: ps)) := by
    intro x hx f hf
    rcases List.mem_cons.1 (show x ∈ ([], Call.prepare p g) :: pieced ps from hx) with rfl | hx
    · cases hf
    · exact hB x hx f hf
  refine C103_splitting hF (ps := ([], .other (.prepare p g)) :: ps) (qs := ([], .other (.prepare p g)) :: qs) (.cons ⟨rfl, .other _⟩ hcut) hB' hw hw' ?_ ?_
  · intro x hx p' g' e
    rcases List.mem_cons.1 (show x ∈ ([], Call.prepare p g) :: pieced ps from hx) with rfl | hx
    · cases e; exact ⟨r, hr, hr1⟩
    · obtain ⟨q, hq, hx⟩ := List.mem_flatMap.1 hx
      obtain ⟨_, b, bs, e', _⟩ := hone q hq
      rw [e'] at hx
      simp only [Piece.calls, List.mem_cons, List.mem_map] at hx
      rcases hx with rfl | ⟨_, _, rfl⟩ <;> cases e
  · refine ⟨fun b bs e => (by cases e), ?_⟩
    have hfl : ⌊p.sampleRate⌋₊ = r := by rw [hr, Nat.floor_natCast]
    show Unhurried irs specs ⟨.steady none false, ⌊p.sampleRate⌋₊⟩ (numberedPieces ps)
    rw [hfl]
    refine unhurried_crossfades (N := N) hr0 _ (pieced_valid hB) (fun q hq => ?_) .none
    obtain ⟨q, hm, rfl⟩ := List.mem_map.1 hq
    clear hq
    obtain ⟨h1, b, bs, e, h2⟩ := hone q hm
    refine ⟨by simpa using h1, b, bs, e, ?_, fun i hi => ?_⟩
    · have : ∃ q', Recut N q.2 q' := by
        obtain ⟨i, hi, rfl⟩ := List.getElem_of_mem hm
        exact ⟨_, ((List.forall₂_iff_get.1 hcut).2 i hi (by rw [← hcut.length_eq]; exact hi)).2⟩
      obtain ⟨q', hq'⟩ := this
      rw [e] at hq'
      cases hq' with
      | play _ pos _ => exact pos
    · obtain ⟨f, hf, rfl⟩ := List.mem_map.1 hi
      exact h2 f hf

/-- **C103** (the exception). In an in/out fade block lengths are audible: if the fade-out of `n` samples, `j` of which are over, ends within a block, the rest of this block is silent, and the fade-in
begins with the next block (`Stage.after`). -/
theorem C103_rest_is_silent {F : RealFFT} (hF : Lawful F) {N : ℕ} {irs : ℕ → Buf} {maxBs : ℕ → ℕ} {specs : ℕ → ConvolverSpec} {hist : List (List (Held Convolver) × Call)}
    {batch : List (Held Convolver)} {blk : Buf} (hB : BuiltFor F N irs maxBs specs (hist ++ [(batch, .process blk)]))
    (hw : WellFormed N (Serves F N) none (hist ++ [(batch, .process blk)])) (hr : WholeRates (hist ++ [(batch, .process blk)])) {a : Option Voice} {f : Voice} {w : Option ℕ} {n j : ℕ}
    (hs : ∃ r, r = (Reference.run irs specs {} (numbered hist)).1 ∧ (batch.map Held.id).foldl (Stage.arrive irs specs r.rate) r.stage = .fading a f w (.fadeOut n j)) (hn : 0 < n) :
    ∃ c outs last, perform (convolverOps F) {} (hist ++ [(batch, .process blk)]) = some (c, outs ++ [last]) ∧ last.n = blk.n ∧
      (∀ o < N, ∀ i < blk.n, n ≤ j + i + 1 → last.data o i = 0) ∧
      (n ≤ j + blk.n → ∃ a', (Reference.run irs specs {} (numbered (hist ++ [(batch, .process blk)]))).1.stage = .fading a' f w (.fadeIn n 0)) := by
  obtain ⟨r, hr', hs⟩ := hs
  obtain ⟨c, outs, e, _, h⟩ := C85_reference hF hB hw hr
  have e1 : Reference.run irs specs {} (numbered (hist ++ [(batch, .process blk)])) =
      (⟨Stage.after irs specs r.rate (.fading a f w (.fadeOut n j)) blk, r.rate⟩, (Reference.run irs specs {} (numbered hist)).2 ++ [(.fading a f w (.fadeOut n j), blk)]) := by
    unfold numbered at hr' ⊢
    rw [List.map_append, run_append, ← hr', ← hs]
    rfl
  rw [e1, rendered_append] at h
  have h1 := List.forall₂_take_append _ _ _ h
  have h2 := List.forall₂_drop_append _ _ _ h
  generalize hk : (rendered irs specs (Reference.run irs specs {} (numbered hist)).2).length = k at h1 h2
  rw [← List.take_append_drop k outs] at e
  generalize List.take k outs = o1 at e h1
  generalize List.drop k outs = o2 at e h2
  cases h2 with
  | @cons last _ o2 _ hl h2 =>
    cases h2
    obtain ⟨l1, l2, l3, l4⟩ := hl
    dsimp only at l3 l4
    refine ⟨c, o1, last, e, l3, fun o ho i hi hni => ?_, fun hle => ?_⟩
    · rw [l4 o ho i (by omega)]
      simp only [Stage.sound, Phase.mix]
      have : fadeGain n (j + i) = 1 := by
        unfold fadeGain
        have h0 : (0 : ℝ) < n := by exact_mod_cast hn
        have h' : (n : ℝ) ≤ j + i + 1 := by exact_mod_cast hni
        exact min_eq_left (by rw [le_div_iff₀ h0]; push_cast; linarith)
      rw [this]; ring
    · rw [e1]
      simp only [Stage.after, Phase.after, if_neg (show ¬ j + blk.n < n by omega)]
      exact ⟨_, rfl⟩

/-! ## A concrete case -/

/-- A block of `k` ones in each of two channels. -/
noncomputable def ones (k : ℕ) : Buf := ⟨2, k, fun _ _ => 1⟩

theorem ones_stream (k : ℕ) : ∀ (m ch t : ℕ), stream (List.replicate m (ones k)) ch t = if t < m * k then 1 else 0
  | 0, _, t => by simp [stream]
  | m + 1, ch, t => by
    rw [List.replicate_succ]
    simp only [stream]
    rw [ones_stream k m]
    have hk : (ones k).n = k := rfl
    rw [hk, Nat.succ_mul]
    by_cases h : t < k
    · rw [if_pos h, if_pos (by omega)]; rfl
    · rw [if_neg h]
      by_cases h2 : t < m * k + k
      · rw [if_pos (by omega), if_pos h2]
      · rw [if_neg (by omega), if_neg h2]

theorem ones_len (k : ℕ) : ∀ m : ℕ, totalLen (List.replicate m (ones k)) = m * k
  | 0 => by simp [totalLen]
  | m + 1 => by rw [List.replicate_succ, totalLen, ones_len k m, Nat.succ_mul, Nat.add_comm]; rfl

theorem wellFormed_quiet {V : Type} {N M : ℕ} {G : V → Prop} {rest : List (List (Held V) × Call)} (h : WellFormed N G (some M) rest) : ∀ bs : List Buf,
    (∀ b ∈ bs, b.ch = N ∧ b.n ≤ M) → WellFormed N G (some M) ((bs.map fun b => ([], Call.process b)) ++ rest)
  | [], _ => h
  | b :: bs, hb => by
    refine ⟨by simp, fun e => (by cases e), (hb b (by simp)).1, fun m hm => ?_, wellFormed_quiet h bs fun q hq => hb q (by simp [hq])⟩
    cases hm
    exact (hb b (by simp)).2

theorem example_crossfade (len i : ℕ) (h : 4800 ≤ len) : CrossfadeWithin (fun _ => exampleIR) (fun _ => exampleSpec) 48000 len i := by
  have : expectedFade 48000 exampleIR.n exampleSpec.fadeStrategy = (.crossfade, 4800) := by
    unfold expectedFade
    rw [if_pos ⟨rfl, by norm_num [exampleIR]⟩]
    have h1 : ⌈((48000 : ℕ) : ℚ) / 10⌉ = 4800 := by rw [Int.ceil_eq_iff]; norm_num
    have h2 : ⌈(14 * (exampleIR.n : ℚ)) / 100⌉ = 700 := by rw [Int.ceil_eq_iff]; norm_num [exampleIR]
    rw [h1, h2]; norm_num
  unfold CrossfadeWithin
  rw [this]
  exact ⟨rfl, show (4800 : ℤ) ≤ len by exact_mod_cast h⟩

/-- Two signals of `m + 1` blocks of `k` ones: responses 1 and 2 arrive with their first blocks. -/
noncomputable def examplePieces (v : Convolver) (m k : ℕ) : List (List (Held Convolver) × Piece) :=
  [([⟨1, v⟩], .play (ones k) (List.replicate m (ones k))), ([⟨2, v⟩], .play (ones k) (List.replicate m (ones k)))]

/-- The hypotheses of `C103_crossfades` hold for two signals of 6272 samples, played in 98 blocks of 64 samples each or in 128 blocks of 49 samples; response 2 is faded to over the first
4800 samples of the second signal, which end with a block of 64 samples, but amid a block of 49 samples. -/
example : ∃ v, ∃ c outs c' outs', perform (convolverOps referenceFFT) {} (([], .prepare exampleFormat fun _ _ => 7) :: pieced (examplePieces v 97 64)) = some (c, outs) ∧
    perform (convolverOps referenceFFT) {} (([], .prepare exampleFormat fun _ _ => 7) :: pieced (examplePieces v 127 49)) = some (c', outs') ∧ SameSignal 2 outs outs' := by
  obtain ⟨v, hv, hs⟩ := example_convolver
  refine ⟨v, ?_⟩
  have wf : ∀ m k : ℕ, k ≤ 64 → WellFormed 2 (Serves referenceFFT 2) none (([], .prepare exampleFormat fun _ _ => 7) :: pieced (examplePieces v m k)) := by
    intro m k hk
    have hrep : ∀ b ∈ List.replicate m (ones k), b.ch = 2 ∧ b.n ≤ exampleFormat.maximumBlockSize := by
      intro b hb
      rw [List.eq_of_mem_replicate hb]
      exact ⟨rfl, hk⟩
    refine ⟨by simp, fun _ _ => rfl, exampleFormat_valid, by simpa using hs, fun e => (by cases e), rfl, fun _ h => (by cases h; exact hk), wellFormed_quiet ?_ _ hrep⟩
    refine ⟨by simpa using hs, fun e => (by cases e), rfl, fun _ h => (by cases h; exact hk), ?_⟩
    exact wellFormed_quiet (rest := []) trivial _ hrep
  have hlen : ∀ m k : ℕ, totalLen (ones k :: List.replicate m (ones k)) = (m + 1) * k := fun m k => by rw [← List.replicate_succ, ones_len]
  have hsig : SameSignal 2 (ones 64 :: List.replicate 97 (ones 64)) (ones 49 :: List.replicate 127 (ones 49)) := by
    rw [← List.replicate_succ, ← List.replicate_succ]
    refine ⟨by rw [ones_len, ones_len], fun ch _ t => ?_⟩
    rw [ones_stream, ones_stream]
  have hpos : ∀ m k : ℕ, 0 < k → ∀ q ∈ ones k :: List.replicate m (ones k), 0 < q.n := by
    intro m k hk q hq
    rw [← List.replicate_succ] at hq
    rw [List.eq_of_mem_replicate hq]
    exact hk
  have hrec : Recut 2 (.play (ones 64) (List.replicate 97 (ones 64))) (.play (ones 49) (List.replicate 127 (ones 49))) := .play hsig (hpos 97 64 (by norm_num)) (hpos 127 49 (by norm_num))
  refine C103_crossfades referenceFFT_lawful (irs := fun _ => exampleIR) (maxBs := fun _ => 64) (specs := fun _ => exampleSpec) (r := 48000) (by norm_num [exampleFormat]) (by norm_num)
    (by norm_num) ?_ (.cons ⟨rfl, hrec⟩ (.cons ⟨rfl, hrec⟩ .nil)) ?_ (wf 97 64 le_rfl) (wf 127 49 (by norm_num))
  · intro q hq
    simp only [examplePieces, List.mem_cons, List.not_mem_nil, or_false] at hq
    rcases hq with rfl | rfl <;> exact ⟨le_rfl, _, _, rfl, fun f _ => example_crossfade _ _ (by rw [hlen]; norm_num)⟩
  · intro x hx g hg
    have : g.obj = v := by
      obtain ⟨q, hq, hx⟩ := List.mem_flatMap.1 hx
      simp only [examplePieces, List.mem_cons, List.not_mem_nil, or_false] at hq
      rcases hq with rfl | rfl <;> simp only [Piece.calls, List.mem_cons, List.mem_map] at hx <;> rcases hx with rfl | ⟨_, _, rfl⟩
      · rw [List.mem_singleton.1 hg]
      · cases hg
      · rw [List.mem_singleton.1 hg]
      · cases hg
    rw [this]
    exact ⟨exampleUsable, hv⟩

theorem fadeOut_blocks {irs : ℕ → Buf} {specs : ℕ → ConvolverSpec} {rate n : ℕ} {f : Voice} {w : Option ℕ} : ∀ (bs : List Buf) (a : Option Voice) (j : ℕ), j + totalLen bs < n →
    ∃ a', playStage irs specs rate (.fading a f w (.fadeOut n j)) bs = .fading a' f w (.fadeOut n (j + totalLen bs))
  | [], a, j, _ => ⟨a, rfl⟩
  | b :: bs, a, j, h => by
    simp only [totalLen] at h ⊢
    obtain ⟨a', e⟩ := fadeOut_blocks (irs := irs) (specs := specs) (rate := rate) (n := n) (f := f) (w := w) bs (a.map (·.hear b)) (j + b.n) (by omega)
    refine ⟨a', ?_⟩
    rw [playStage, ← Nat.add_assoc, ← e]
    congr 1
    simp only [Stage.after, Phase.after, if_pos (show j + b.n < n by omega)]
    rfl

/-- The hypotheses of `C103_rest_is_silent` hold: response 2 arrives while response 1 plays, with an in/out fade (19200 samples out, 19200 samples in). Amid the 305th of the following blocks of 63
samples the fade-out ends, 48 samples after its beginning, and the last 16 samples of this block are silent. -/
example : ∃ v, ∃ c outs last, perform (convolverOps referenceFFT) {} ([([], .prepare exampleFormat fun _ _ => 7), ([⟨1, v⟩], .process (ones 63)), ([⟨2, v⟩], .process (ones 63))] ++
      (List.replicate 303 (ones 63)).map (fun b => ([], .process b)) ++ [([], .process (ones 63))]) = some (c, outs ++ [last]) ∧ last.n = 63 ∧
      ∀ o < 2, ∀ i < 63, 47 ≤ i → last.data o i = 0 := by
  obtain ⟨v, hv, hs⟩ := example_convolver_inOut
  refine ⟨v, ?_⟩
  have hfl : ⌊exampleFormat.sampleRate⌋₊ = 48000 := by
    have : exampleFormat.sampleRate = ((48000 : ℕ) : ℚ) := by norm_num [exampleFormat]
    rw [this, Nat.floor_natCast]
  have hp : firstPhase (fun _ => exampleIR) (fun _ => exampleSpecInOut) 48000 2 = .fadeOut 19200 0 := by
    unfold firstPhase
    have : expectedFade 48000 exampleIR.n exampleSpecInOut.fadeStrategy = (.inOut, 19200) := by
      unfold expectedFade
      rw [if_neg (by simp [exampleSpecInOut])]
      have h1 : ⌈(4 * ((48000 : ℕ) : ℚ)) / 10⌉ = 19200 := by rw [Int.ceil_eq_iff]; norm_num
      rw [h1]
    rw [this]; rfl
  have hn : (ones 63).n = 63 := rfl
  set hist : List (List (Held Convolver) × Call) := [([], .prepare exampleFormat fun _ _ => 7), ([⟨1, v⟩], .process (ones 63)), ([⟨2, v⟩], .process (ones 63))] ++
      (List.replicate 303 (ones 63)).map (fun b => ([], .process b)) with hh
  have key : ∃ a w, (Reference.run (fun _ => exampleIR) (fun _ => exampleSpecInOut) {} (numbered hist)).1 = ⟨.fading a ⟨2, []⟩ w (.fadeOut 19200 19152), 48000⟩ := by
    have e0 : numbered hist = [([], .prepare exampleFormat fun _ _ => 7), ([1], .process (ones 63)), ([2], .process (ones 63))] ++
        (List.replicate 303 (ones 63)).map (fun b => ([], .process b)) := by
      rw [hh, numbered, List.map_append, List.map_map]
      rfl
    have e1 : (Reference.run (fun _ => exampleIR) (fun _ => exampleSpecInOut) {} [([], .prepare exampleFormat fun _ _ => 7), ([1], .process (ones 63)), ([2], .process (ones 63))]).1 =
        ⟨.fading (some ⟨1, [ones 63, ones 63]⟩) ⟨2, []⟩ none (.fadeOut 19200 63), 48000⟩ := by
      simp only [Reference.run, Reference.call, hfl, List.foldl_cons, List.foldl_nil, Stage.reset, Stage.calm, Stage.restart, Option.map_none, Stage.arrive, Stage.after, Option.map_some,
        Voice.hear, List.nil_append, hp]
      rw [show (Phase.fadeOut 19200 0).after (ones 63).n = some (.fadeOut 19200 63) from if_pos (e := some (.fadeIn 19200 0)) (show 0 + 63 < 19200 by norm_num)]
      rfl
    rw [e0, run_append, e1]
    dsimp only
    rw [(run_blocks (List.replicate 303 (ones 63)) _).1]
    dsimp only
    obtain ⟨a, e⟩ := fadeOut_blocks (irs := fun _ => exampleIR) (specs := fun _ => exampleSpecInOut) (rate := 48000) (n := 19200) (f := ⟨2, []⟩) (w := none)
      (List.replicate 303 (ones 63)) (some ⟨1, [ones 63, ones 63]⟩) 63 (by rw [ones_len]; norm_num)
    rw [ones_len] at e
    exact ⟨a, none, by rw [e]⟩
  obtain ⟨a, w, key⟩ := key
  have hmem : ∀ x ∈ hist ++ [(([] : List (Held Convolver)), Call.process (ones 63))], (∀ g ∈ x.1, g.obj = v) ∧ ∀ p g, x.2 = .prepare p g → p = exampleFormat := by
    intro x hx
    rw [hh] at hx
    simp only [List.cons_append, List.nil_append, List.mem_cons, List.mem_append, List.mem_map, List.not_mem_nil, or_false] at hx
    rcases hx with rfl | rfl | rfl | ⟨_, _, rfl⟩ | rfl
    · exact ⟨fun g hg => (by cases hg), fun p g e => (by cases e; rfl)⟩
    · exact ⟨fun g hg => (by rw [List.mem_singleton.1 hg]), fun p g e => (by cases e)⟩
    · exact ⟨fun g hg => (by rw [List.mem_singleton.1 hg]), fun p g e => (by cases e)⟩
    · exact ⟨fun g hg => (by cases hg), fun p g e => (by cases e)⟩
    · exact ⟨fun g hg => (by cases hg), fun p g e => (by cases e)⟩
  obtain ⟨c, outs, last, e, h1, h2, _⟩ := C103_rest_is_silent referenceFFT_lawful (N := 2) (irs := fun _ => exampleIR) (maxBs := fun _ => 64) (specs := fun _ => exampleSpecInOut)
    (hist := hist) (batch := []) (blk := ones 63) (a := a) (f := ⟨2, []⟩) (w := w) (n := 19200) (j := 19152)
    (fun x hx g hg => by rw [(hmem x hx).1 g hg]; exact ⟨exampleUsableInOut, hv⟩)
    (by
      rw [hh, List.append_assoc]
      refine ⟨by simp, fun _ _ => rfl, exampleFormat_valid, by simpa using hs, fun e => (by cases e), rfl, fun _ h => (by cases h; exact (by decide : 63 ≤ 64)), ?_⟩
      refine ⟨by simpa using hs, fun e => (by cases e), rfl, fun _ h => (by cases h; exact (by decide : 63 ≤ 64)), ?_⟩
      refine wellFormed_quiet (M := 64) ?_ _ fun b hb => ?_
      · exact ⟨by simp, fun e => (by cases e), rfl, fun _ h => (by cases h; exact (by decide : 63 ≤ 64)), trivial⟩
      rw [List.eq_of_mem_replicate hb]
      exact ⟨rfl, (by decide : 63 ≤ 64)⟩)
    (fun x hx p g e => by rw [(hmem x hx).2 p g e]; exact ⟨48000, by norm_num [exampleFormat], by norm_num⟩)
    ⟨_, rfl, by rw [key]; rfl⟩ (by norm_num)
  exact ⟨c, outs, last, e, h1, fun o ho i hi h => h2 o ho i hi (by omega)⟩

end Zones.Props
