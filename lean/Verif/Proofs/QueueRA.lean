import Verif.Model.QueueRA
import Verif.Proofs.Queue

/-! Invariant of the queue on a weakly ordered memory. -/

open Zones.Model

namespace Zones.Proofs

variable {α : Type}

/-- A view that some thread has or had: of `nvs` and `nve` stores, `T i` accesses to slot `i`; the `k`-th store to `validStart` gave back
the places of the first `rel k` commands. Who knows of a store knows of the accesses before it. -/
structure GV (nvs nve : ℕ) (T : ℤ → ℕ) (rel : ℕ → ℕ) (w : Knowledge) : Prop where
  vs : w.vs < nvs
  ve : w.ve < nve
  freed : ∀ j < rel w.vs, 2 * (j / 400) + 2 ≤ w.slots ((j % 400 : ℕ) : ℤ)
  filled : ∀ j < w.ve, 2 * (j / 400) + 1 ≤ w.slots ((j % 400 : ℕ) : ℤ)
  known : ∀ i, w.slots i ≤ T i

theorem GV.join {nvs nve : ℕ} {T : ℤ → ℕ} {rel : ℕ → ℕ} {v w : Knowledge} (hv : GV nvs nve T rel v) (hw : GV nvs nve T rel w) :
    GV nvs nve T rel (v.join w) where
  vs := max_lt hv.vs hw.vs
  ve := max_lt hv.ve hw.ve
  freed j h := by
    simp only [Knowledge.join] at h ⊢
    rcases le_total v.vs w.vs with hle | hle
    · rw [max_eq_right hle] at h
      exact le_max_of_le_right (hw.freed j h)
    · rw [max_eq_left hle] at h
      exact le_max_of_le_left (hv.freed j h)
  filled j h := by
    simp only [Knowledge.join] at h ⊢
    rcases lt_max_iff.1 h with h | h
    · exact le_max_of_le_left (hv.filled j h)
    · exact le_max_of_le_right (hw.filled j h)
  known i := max_le (hv.known i) (hw.known i)

theorem GV.mono {nvs nve nvs' nve' : ℕ} {T T' : ℤ → ℕ} {rel rel' : ℕ → ℕ} {w : Knowledge} (h : GV nvs nve T rel w) (h1 : nvs ≤ nvs')
    (h2 : nve ≤ nve') (hT : ∀ i, T i ≤ T' i) (hr : ∀ k < nvs, rel' k = rel k) : GV nvs' nve' T' rel' w where
  vs := lt_of_lt_of_le h.vs h1
  ve := lt_of_lt_of_le h.ve h2
  freed j hj := h.freed j (by rwa [hr _ h.vs] at hj)
  filled := h.filled
  known i := (h.known i).trans (hT i)

/-- What the pushing thread knows. -/
def RP (rel : ℕ → ℕ) (pv : Knowledge) (slots : ℤ → Option α) (W : ℕ) : PPc α → Prop
  | .idle => True
  | .free1 _ => True
  | .free2 _ v => ∃ k ≤ pv.vs, v = ((rel k % 400 : ℕ) : ℤ) ∧ rel k ≤ W ∧ W - rel k ≤ 399
  | .prep1 _ => W - rel pv.vs ≤ 398
  | .prep2 _ v => ∃ k ≤ pv.vs, v = ((rel k % 400 : ℕ) : ℤ) ∧ rel k ≤ W ∧ W - rel k ≤ 398
  | .write _ w => w = ⟨((W % 400 : ℕ) : ℤ), 1, 0, 0⟩ ∧ W - rel pv.vs ≤ 398
  | .writing _ i b => i = ((W % 400 : ℕ) : ℤ) ∧ b = 1 ∧ W - rel pv.vs ≤ 398
  | .fin1 a b => b = 1 ∧ W - rel pv.vs ≤ 398 ∧ slots ((W % 400 : ℕ) : ℤ) = some a ∧ 2 * (W / 400) + 1 ≤ pv.slots ((W % 400 : ℕ) : ℤ)
  | .fin2 a v => v = (((W+1) % 400 : ℕ) : ℤ) ∧ W - rel pv.vs ≤ 398 ∧ slots ((W % 400 : ℕ) : ℤ) = some a ∧
      2 * (W / 400) + 1 ≤ pv.slots ((W % 400 : ℕ) : ℤ)

/-- What the servicing thread knows. -/
def RC (cve R V : ℕ) : CPc → Prop
  | .idle => V = R
  | .ready1 => V = R
  | .ready2 v => V = R ∧ v = ((R % 400 : ℕ) : ℤ)
  | .prep1 n => V = R ∧ ∃ k : ℕ, n = k ∧ R + k ≤ cve
  | .prep2 n v => V = R ∧ v = ((R % 400 : ℕ) : ℤ) ∧ ∃ k : ℕ, n = k ∧ R + k ≤ cve
  | .loop is b => ∃ k m : ℕ, b = k ∧ R + k ≤ cve ∧ V + m = R + k ∧
      is = (List.range m).map (fun i : ℕ => (((V + i) % 400 : ℕ) : ℤ))
  | .reading j is b => ∃ k m : ℕ, b = k ∧ R + k ≤ cve ∧ V + (m + 1) = R + k ∧
      j = ((V % 400 : ℕ) : ℤ) ∧ is = (List.range m).map (fun i : ℕ => (((V + 1 + i) % 400 : ℕ) : ℤ))
  | .fin1 b => ∃ k : ℕ, b = k ∧ R + k ≤ cve ∧ V = R + k
  | .fin2 v => ∃ k : ℕ, v = (((R + k) % 400 : ℕ) : ℤ) ∧ R + k ≤ cve ∧ V = R + k

/-- 1 when the slot of the current push has been assigned to -/
def assigned : PPc α → ℕ
  | .fin1 _ _ => 1
  | .fin2 _ _ => 1
  | _ => 0

/-- The invariant. -/
structure RInv (rel : ℕ → ℕ) (s : RSys α) : Prop where
  vlen : 0 < s.vs.len
  elen : s.ve.len = s.accepted.length + 1
  vmsg : ∀ k < s.vs.len, (s.vs.msg k).val = ((rel k % 400 : ℕ) : ℤ) ∧ (s.vs.msg k).view.vs = k ∧
    GV s.vs.len s.ve.len s.touched rel (s.vs.msg k).view
  emsg : ∀ k < s.ve.len, (s.ve.msg k).val = ((k % 400 : ℕ) : ℤ) ∧ (s.ve.msg k).view.ve = k ∧
    GV s.vs.len s.ve.len s.touched rel (s.ve.msg k).view
  mono : ∀ j k, j ≤ k → k < s.vs.len → rel j ≤ rel k
  last : rel (s.vs.len - 1) = s.released
  lo : s.released ≤ s.visited.length
  mid : s.visited.length ≤ s.cv.ve
  hi : s.accepted.length - rel s.pv.vs ≤ 399
  pv : GV s.vs.len s.ve.len s.touched rel s.pv
  cv : GV s.vs.len s.ve.len s.touched rel s.cv
  pve : s.pv.ve = s.accepted.length
  cvs : s.cv.vs = s.vs.len - 1
  own : ∀ j < s.visited.length, 2 * (j / 400) + 2 ≤ s.cv.slots ((j % 400 : ℕ) : ℤ)
  slots : ∀ j, s.visited.length ≤ j → (hj : j < s.accepted.length) → s.slots ((j % 400 : ℕ) : ℤ) = some s.accepted[j]
  visited : s.visited = (s.accepted.take s.visited.length).map some
  t1 : ∀ j, s.accepted.length + assigned s.p ≤ j → s.touched ((j % 400 : ℕ) : ℤ) ≤ 2 * (j / 400)
  t2 : ∀ j, s.visited.length ≤ j → s.touched ((j % 400 : ℕ) : ℤ) ≤ 2 * (j / 400) + 1
  race : s.race = false
  p : RP rel s.pv s.slots s.accepted.length s.p
  c : RC s.cv.ve s.released s.visited.length s.c

theorem rinv_init : RInv (fun _ => 0) (RSys.init : RSys α) := by
  have hg : GV 1 1 (fun _ => 0) (fun _ => 0) Knowledge.none :=
    ⟨by simp [Knowledge.none], by simp [Knowledge.none], fun j h => by simp at h, fun j h => by simp [Knowledge.none] at h, fun i => le_refl _⟩
  refine ⟨by simp [RSys.init, Loc.init], rfl, fun k hk => ⟨rfl, ?_, hg⟩, fun k hk => ⟨?_, ?_, hg⟩, fun _ _ _ _ => le_refl _, rfl, le_refl _,
    le_refl _, by simp [RSys.init], hg, hg, rfl, rfl, fun j h => by simp [RSys.init] at h, fun j h hj => by simp [RSys.init] at hj,
    rfl, fun _ _ => by simp [RSys.init], fun _ _ => by simp [RSys.init], rfl, trivial, rfl⟩
  all_goals
    have hk : k < 1 := hk
    have : k = 0 := by omega
    subst this
    rfl

section
variable {rel : ℕ → ℕ} {s : RSys α}

theorem RInv.released_le (h : RInv rel s) {k : ℕ} (hk : k < s.vs.len) : rel k ≤ s.released := by
  rw [← h.last]
  exact h.mono _ _ (by omega) (by have := h.vlen; omega)

theorem RInv.visited_le (h : RInv rel s) : s.visited.length ≤ s.accepted.length := by
  have := h.mid; have := h.cv.ve; have := h.elen; omega

theorem RInv.within (h : RInv rel s) : s.accepted.length - s.released ≤ 399 := by
  have := h.hi; have := h.released_le h.pv.vs; omega

/-- The pushing thread learns more. -/
theorem RInv.learnP (h : RInv rel s) {w : Knowledge} (hw : GV s.vs.len s.ve.len s.touched rel w) : RInv rel { s with pv := s.pv.join w } := by
  have hv := h.pv.join hw
  have hr : rel s.pv.vs ≤ rel (s.pv.join w).vs := h.mono _ _ (le_max_left _ _) hv.vs
  have hs : ∀ i, s.pv.slots i ≤ (s.pv.join w).slots i := fun i => le_max_left _ _
  have hk : s.pv.vs ≤ (s.pv.join w).vs := le_max_left _ _
  refine { h with hi := ?_, pv := hv, pve := ?_, p := ?_ }
  · have := h.hi
    show s.accepted.length - rel (s.pv.join w).vs ≤ 399
    omega
  · have h1 := hw.ve
    have h2 := h.elen
    have h3 := h.pve
    show max s.pv.ve w.ve = s.accepted.length
    omega
  · have hp := h.p
    show RP rel (s.pv.join w) s.slots s.accepted.length s.p
    cases hpc : s.p with
    | idle => trivial
    | free1 a => trivial
    | free2 a v => rw [hpc] at hp; obtain ⟨k, a, b⟩ := hp; exact ⟨k, a.trans hk, b⟩
    | prep1 a => rw [hpc] at hp; simp only [RP] at hp ⊢; omega
    | prep2 a v => rw [hpc] at hp; obtain ⟨k, a, b⟩ := hp; exact ⟨k, a.trans hk, b⟩
    | write a w => rw [hpc] at hp; simp only [RP] at hp ⊢; exact ⟨hp.1, by omega⟩
    | writing a i b => rw [hpc] at hp; simp only [RP] at hp ⊢; exact ⟨hp.1, hp.2.1, by omega⟩
    | fin1 a b => rw [hpc] at hp; simp only [RP] at hp ⊢; exact ⟨hp.1, by omega, hp.2.2.1, hp.2.2.2.trans (hs _)⟩
    | fin2 a v => rw [hpc] at hp; simp only [RP] at hp ⊢; exact ⟨hp.1, by omega, hp.2.2.1, hp.2.2.2.trans (hs _)⟩

/-- The servicing thread learns more. -/
theorem RInv.learnC (h : RInv rel s) {w : Knowledge} (hw : GV s.vs.len s.ve.len s.touched rel w) : RInv rel { s with cv := s.cv.join w } := by
  have hv := h.cv.join hw
  have hs : ∀ i, s.cv.slots i ≤ (s.cv.join w).slots i := fun i => le_max_left _ _
  have hk : s.cv.ve ≤ (s.cv.join w).ve := le_max_left _ _
  refine { h with mid := h.mid.trans hk, cv := hv, cvs := ?_, own := fun j hj => (h.own j hj).trans (hs _), c := ?_ }
  · have h1 := hw.vs
    have h3 := h.cvs
    show max s.cv.vs w.vs = s.vs.len - 1
    omega
  · have hc := h.c
    show RC (s.cv.join w).ve s.released s.visited.length s.c
    cases hcc : s.c with
    | idle => rw [hcc] at hc; exact hc
    | ready1 => rw [hcc] at hc; exact hc
    | ready2 v => rw [hcc] at hc; exact hc
    | prep1 n => rw [hcc] at hc; obtain ⟨a, k, b, c⟩ := hc; exact ⟨a, k, b, by omega⟩
    | prep2 n v => rw [hcc] at hc; obtain ⟨a, a', k, b, c⟩ := hc; exact ⟨a, a', k, b, by omega⟩
    | loop is b => rw [hcc] at hc; obtain ⟨k, m, a, b, c⟩ := hc; exact ⟨k, m, a, by omega, c⟩
    | reading i is b => rw [hcc] at hc; obtain ⟨k, m, a, b, c⟩ := hc; exact ⟨k, m, a, by omega, c⟩
    | fin1 b => rw [hcc] at hc; obtain ⟨k, a, b, c⟩ := hc; exact ⟨k, a, by omega, c⟩
    | fin2 v => rw [hcc] at hc; obtain ⟨k, a, b, c⟩ := hc; exact ⟨k, a, by omega, c⟩

theorem load_some {l : Loc} {v : Knowledge} {pos k : ℕ} {r : ℤ × Knowledge} (e : RSys.load l v pos k = some r) :
    pos ≤ k ∧ k < l.len ∧ r = ((l.msg k).val, v.join (l.msg k).view) := by
  unfold RSys.load at e
  split at e
  · rename_i h
    cases e
    exact ⟨h.1, h.2, rfl⟩
  · cases e

theorem RInv.setP (h : RInv rel s) {p : PPc α} (ha : assigned p = assigned s.p) (hp : RP rel s.pv s.slots s.accepted.length p)
    (rs : List Bool) : RInv rel { s with p := p, results := rs } :=
  { h with t1 := fun j hj => h.t1 j (by rw [← ha]; exact hj), p := hp }

theorem RInv.setC (h : RInv rel s) {c : CPc} (hc : RC s.cv.ve s.released s.visited.length c) : RInv rel { s with c := c } :=
  { h with c := hc }

/-- A load of `validStart` by the pushing thread. -/
theorem RInv.loadVsP (h : RInv rel s) {k : ℕ} {r : ℤ × Knowledge} (e : RSys.load s.vs s.pv s.pv.vs k = some r) :
    RInv rel { s with pv := r.2 } ∧ r.1 = ((rel k % 400 : ℕ) : ℤ) ∧ k ≤ r.2.vs ∧ rel k ≤ s.accepted.length ∧ rel s.pv.vs ≤ rel k := by
  obtain ⟨h1, h2, rfl⟩ := load_some e
  obtain ⟨m1, m2, m3⟩ := h.vmsg k h2
  refine ⟨h.learnP m3, m1, ?_, ?_, h.mono _ _ h1 h2⟩
  · show k ≤ max _ _
    rw [m2]
    exact le_max_right _ _
  · have := h.released_le h2
    have := h.lo
    have := h.visited_le
    omega

/-- A load of `validEnd` by the pushing thread, its only writer: it returns the newest value. -/
theorem RInv.loadVeP (h : RInv rel s) {k : ℕ} {r : ℤ × Knowledge} (e : RSys.load s.ve s.pv s.pv.ve k = some r) :
    RInv rel { s with pv := r.2 } ∧ r.1 = ((s.accepted.length % 400 : ℕ) : ℤ) := by
  obtain ⟨h1, h2, rfl⟩ := load_some e
  obtain ⟨m1, m2, m3⟩ := h.emsg k h2
  have : k = s.accepted.length := by have := h.elen; have := h.pve; omega
  subst this
  exact ⟨h.learnP m3, m1⟩

/-- A load of `validStart` by the servicing thread, its only writer: it returns the newest value. -/
theorem RInv.loadVsC (h : RInv rel s) {k : ℕ} {r : ℤ × Knowledge} (e : RSys.load s.vs s.cv s.cv.vs k = some r) :
    RInv rel { s with cv := r.2 } ∧ r.1 = ((s.released % 400 : ℕ) : ℤ) := by
  obtain ⟨h1, h2, rfl⟩ := load_some e
  obtain ⟨m1, m2, m3⟩ := h.vmsg k h2
  have hk : k = s.vs.len - 1 := by have := h.cvs; omega
  refine ⟨h.learnC m3, ?_⟩
  rw [m1, hk, h.last]

/-- A load of `validEnd` by the servicing thread. -/
theorem RInv.loadVeC (h : RInv rel s) {k : ℕ} {r : ℤ × Knowledge} (e : RSys.load s.ve s.cv s.cv.ve k = some r) :
    RInv rel { s with cv := r.2 } ∧ r.1 = ((k % 400 : ℕ) : ℤ) ∧ s.cv.ve ≤ k ∧ k ≤ r.2.ve ∧ k ≤ s.accepted.length := by
  obtain ⟨h1, h2, rfl⟩ := load_some e
  obtain ⟨m1, m2, m3⟩ := h.emsg k h2
  refine ⟨h.learnC m3, m1, h1, ?_, by have := h.elen; omega⟩
  show k ≤ max _ _
  rw [m2]
  exact le_max_right _ _

end

theorem rinv_pstep {rel : ℕ → ℕ} {s s' : RSys α} {k : ℕ} (h : RInv rel s) (e : s.pstep k = some s') : RInv rel s' := by
  have hp := h.p
  unfold RSys.pstep at e
  cases hpc : s.p with
  | idle => rw [hpc] at e; cases e
  | free1 a =>
    rw [hpc] at e
    simp only [Option.map_eq_some_iff] at e
    obtain ⟨r, er, rfl⟩ := e
    obtain ⟨h1, h2, h3, h4, h5⟩ := h.loadVsP er
    have hhi := h.hi
    exact h1.setP (p := .free2 a r.1) (by rw [show assigned ({ s with pv := r.2 } : RSys α).p = assigned s.p from rfl, hpc]; rfl) ⟨k, h3, h2, h4, by dsimp only; omega⟩ s.results
  | free2 a v =>
    rw [hpc] at e hp
    obtain ⟨j, hj, hv, hR, hW⟩ := hp
    simp only [Option.map_eq_some_iff] at e
    obtain ⟨r, er, rfl⟩ := e
    obtain ⟨h1, h2⟩ := h.loadVeP er
    have hfs : Fifo.freeSpace kMaxQueueSize v r.1 = 399 - ((s.accepted.length - rel j : ℕ) : ℤ) := by
      rw [hv, h2]; exact freeSpace_eq hR hW
    have hmono := h.mono j _ hj h.pv.vs
    simp only [hfs]
    have ha : assigned ({ s with pv := r.2 } : RSys α).p = 0 := by
      show assigned s.p = 0
      rw [hpc]; rfl
    split
    · exact h1.setP (p := .idle) ha.symm trivial _
    · refine h1.setP (p := .prep1 a) ha.symm ?_ s.results
      obtain ⟨h3, h4, rfl⟩ := load_some er
      have : rel s.pv.vs ≤ rel (s.pv.join (s.ve.msg k).view).vs := h.mono _ _ (le_max_left _ _) (h1.pv.vs)
      show s.accepted.length - rel (s.pv.join (s.ve.msg k).view).vs ≤ 398
      omega
  | prep1 a =>
    rw [hpc] at e hp
    simp only [RP] at hp
    simp only [Option.map_eq_some_iff] at e
    obtain ⟨r, er, rfl⟩ := e
    obtain ⟨h1, h2, h3, h4, h5⟩ := h.loadVsP er
    exact h1.setP (p := .prep2 a r.1) (by rw [show assigned ({ s with pv := r.2 } : RSys α).p = assigned s.p from rfl, hpc]; rfl) ⟨k, h3, h2, h4, by dsimp only; omega⟩ s.results
  | prep2 a v =>
    rw [hpc] at e hp
    obtain ⟨j, hj, hv, hR, hW⟩ := hp
    simp only [Option.map_eq_some_iff] at e
    obtain ⟨r, er, rfl⟩ := e
    obtain ⟨h1, h2⟩ := h.loadVeP er
    have hw : Fifo.prepareToWrite kMaxQueueSize v r.1 1 = ⟨((s.accepted.length % 400 : ℕ) : ℤ), 1, 0, 0⟩ := by
      rw [hv, h2]; exact prepareToWrite_eq hR hW
    have hmono := h.mono j _ hj h.pv.vs
    simp only [hw]
    have ha : assigned ({ s with pv := r.2 } : RSys α).p = 0 := by
      show assigned s.p = 0
      rw [hpc]; rfl
    refine h1.setP (p := .write a _) ha.symm ⟨rfl, ?_⟩ s.results
    obtain ⟨h3, h4, rfl⟩ := load_some er
    have : rel s.pv.vs ≤ rel (s.pv.join (s.ve.msg k).view).vs := h.mono _ _ (le_max_left _ _) (h1.pv.vs)
    show s.accepted.length - rel (s.pv.join (s.ve.msg k).view).vs ≤ 398
    omega
  | write a w =>
    rw [hpc] at e hp
    obtain ⟨hw, hW⟩ := hp
    subst hw
    simp only [ne_eq, one_ne_zero, not_false_eq_true, if_true] at e
    cases e
    exact h.setP (p := .writing a _ _) (by rw [hpc]; rfl) ⟨rfl, by norm_num, hW⟩ s.results
  | writing a i b =>
    rw [hpc] at e hp
    obtain ⟨hi, hb, hW⟩ := hp
    have hrel := h.released_le h.pv.vs
    have hlo := h.lo
    have hmid := h.visited_le
    have hslot0 : s.touched i ≤ 2 * (s.accepted.length / 400) := by
      rw [hi]
      exact h.t1 _ (by rw [hpc]; exact le_refl _)
    have hslot1 : 2 * (s.accepted.length / 400) ≤ s.pv.slots i := by
      rcases Nat.lt_or_ge s.accepted.length 400 with hl | hl
      · rw [Nat.div_eq_of_lt hl]
        exact Nat.zero_le _
      · have := h.pv.freed (s.accepted.length - 400) (by omega)
        rw [show (s.accepted.length - 400) % 400 = s.accepted.length % 400 by omega, ← hi] at this
        omega
    have hle : ∀ j, s.touched j ≤ Function.update s.touched i (s.touched i + 1) j := by
      intro j
      by_cases hj : j = i
      · subst hj; rw [Function.update_self]; omega
      · rw [Function.update_of_ne hj]
    cases e
    refine ⟨h.vlen, h.elen, fun k hk => ?_, fun k hk => ?_, h.mono, h.last, h.lo, h.mid, h.hi, ?_, ?_, h.pve, h.cvs, h.own,
      fun j h1 h2 => ?_, h.visited, fun j hj => ?_, fun j hj => ?_, ?_, ⟨hb, hW, ?_, ?_⟩, h.c⟩
    · obtain ⟨m1, m2, m3⟩ := h.vmsg k hk
      exact ⟨m1, m2, m3.mono (le_refl _) (le_refl _) hle (fun _ _ => rfl)⟩
    · obtain ⟨m1, m2, m3⟩ := h.emsg k hk
      exact ⟨m1, m2, m3.mono (le_refl _) (le_refl _) hle (fun _ _ => rfl)⟩
    · have hg := h.pv
      have hup : ∀ j, s.pv.slots j ≤ Function.update s.pv.slots i (s.touched i + 1) j := by
        intro j
        by_cases hj : j = i
        · subst hj; rw [Function.update_self]; have := hg.known j; omega
        · rw [Function.update_of_ne hj]
      refine ⟨hg.vs, hg.ve, fun j hj => (hg.freed j hj).trans (hup _), fun j hj => (hg.filled j hj).trans (hup _), fun j => ?_⟩
      show Function.update s.pv.slots i (s.touched i + 1) j ≤ Function.update s.touched i (s.touched i + 1) j
      by_cases hj : j = i
      · subst hj; rw [Function.update_self, Function.update_self]
      · rw [Function.update_of_ne hj, Function.update_of_ne hj]; exact hg.known j
    · exact h.cv.mono (le_refl _) (le_refl _) hle (fun _ _ => rfl)
    · show Function.update s.slots i (some a) _ = _
      have h2' : j < s.accepted.length := h2
      have h1' : s.visited.length ≤ j := h1
      rw [hi, Function.update_of_ne (by omega)]
      exact h.slots j h1 h2
    · show Function.update s.touched i (s.touched i + 1) _ ≤ _
      have hj' : s.accepted.length + 1 ≤ j := hj
      by_cases hji : ((j % 400 : ℕ) : ℤ) = i
      · rw [hji, Function.update_self]
        omega
      · rw [Function.update_of_ne hji]
        exact h.t1 j (by rw [hpc]; show _ + 0 ≤ j; omega)
    · show Function.update s.touched i (s.touched i + 1) _ ≤ _
      have hj' : s.visited.length ≤ j := hj
      by_cases hji : ((j % 400 : ℕ) : ℤ) = i
      · rw [hji, Function.update_self]
        have : s.accepted.length ≤ j := by omega
        omega
      · rw [Function.update_of_ne hji]
        exact h.t2 j hj
    · show (s.race || decide (s.pv.slots i < s.touched i)) = false
      rw [h.race, decide_eq_false (by omega)]
      rfl
    · show Function.update s.slots i (some a) _ = _
      rw [← hi, Function.update_self]
    · show 2 * (s.accepted.length / 400) + 1 ≤ Function.update s.pv.slots i (s.touched i + 1) ((s.accepted.length % 400 : ℕ) : ℤ)
      rw [← hi, Function.update_self]
      have := h.pv.known i
      omega
  | fin1 a b =>
    rw [hpc] at e hp
    obtain ⟨hb, hW, hs, hs'⟩ := hp
    simp only [Option.map_eq_some_iff] at e
    obtain ⟨r, er, rfl⟩ := e
    obtain ⟨h1, h2⟩ := h.loadVeP er
    obtain ⟨h3, h4, rfl⟩ := load_some er
    have hp' := h1.p
    rw [show ({ s with pv := s.pv.join (s.ve.msg k).view } : RSys α).p = s.p from rfl, hpc] at hp'
    obtain ⟨_, q2, q3, q4⟩ := hp'
    have ha : assigned ({ s with pv := s.pv.join (s.ve.msg k).view } : RSys α).p = 1 := by
      show assigned s.p = 1
      rw [hpc]; rfl
    refine h1.setP (p := .fin2 a _) ha.symm ⟨?_, q2, q3, q4⟩ s.results
    rw [h2, hb]
    exact advance_eq _ 1 (by norm_num)
  | fin2 a v =>
    rw [hpc] at e hp
    obtain ⟨hv, hW, hs, hs'⟩ := hp
    cases e
    have hmid := h.visited_le
    have hpvg : GV s.vs.len (s.ve.len + 1) s.touched rel { s.pv with ve := s.ve.len } := by
      have hg := h.pv
      refine ⟨hg.vs, by show s.ve.len < s.ve.len + 1; omega, hg.freed, fun j hj => ?_, hg.known⟩
      have hj' : j < s.ve.len := hj
      rw [h.elen] at hj'
      rcases Nat.lt_or_ge j s.accepted.length with hl | hl
      · exact hg.filled j (by rw [h.pve]; exact hl)
      · have : j = s.accepted.length := by omega
        subst this
        exact hs'
    refine ⟨h.vlen, ?_, fun k hk => ?_, fun k hk => ?_, h.mono, h.last, h.lo, h.mid, ?_, hpvg, ?_, ?_, h.cvs, h.own,
      fun j h1 h2 => ?_, ?_, fun j hj => ?_, h.t2, h.race, trivial, h.c⟩
    · show s.ve.len + 1 = (s.accepted ++ [a]).length + 1
      rw [h.elen]; simp
    · obtain ⟨m1, m2, m3⟩ := h.vmsg k hk
      exact ⟨m1, m2, m3.mono (le_refl _) (Nat.le_succ _) (fun _ => le_refl _) (fun _ _ => rfl)⟩
    · have hk' : k < s.ve.len + 1 := hk
      show (Function.update s.ve.msg s.ve.len _ k).val = _ ∧ (Function.update s.ve.msg s.ve.len _ k).view.ve = _ ∧
        GV s.vs.len (s.ve.len + 1) s.touched rel (Function.update s.ve.msg s.ve.len _ k).view
      by_cases hkl : k = s.ve.len
      · subst hkl
        rw [Function.update_self]
        refine ⟨?_, rfl, hpvg⟩
        show v = _
        rw [hv, h.elen]
      · rw [Function.update_of_ne hkl]
        obtain ⟨m1, m2, m3⟩ := h.emsg k (by omega)
        exact ⟨m1, m2, m3.mono (le_refl _) (Nat.le_succ _) (fun _ => le_refl _) (fun _ _ => rfl)⟩
    · show (s.accepted ++ [a]).length - rel s.pv.vs ≤ 399
      simp; omega
    · exact h.cv.mono (le_refl _) (Nat.le_succ _) (fun _ => le_refl _) (fun _ _ => rfl)
    · show s.ve.len = (s.accepted ++ [a]).length
      rw [h.elen]; simp
    · show s.slots _ = some ((s.accepted ++ [a])[j])
      have h2' : j < (s.accepted ++ [a]).length := h2
      simp only [List.length_append, List.length_singleton] at h2'
      by_cases hj : j < s.accepted.length
      · rw [h.slots j h1 hj, List.getElem_append_left hj]
      · have : j = s.accepted.length := by omega
        subst this
        rw [hs]; simp
    · show s.visited = ((s.accepted ++ [a]).take s.visited.length).map some
      rw [List.take_append_of_le_length hmid]
      exact h.visited
    · have hj' : (s.accepted ++ [a]).length + 0 ≤ j := hj
      simp only [List.length_append, List.length_singleton] at hj'
      exact h.t1 j (by rw [hpc]; exact hj')

/-- The invariant holds in the next state, with the same history of `validStart`. -/
def Next (rel : ℕ → ℕ) (s s' : RSys α) : Prop := ∃ rel', RInv rel' s' ∧ (∀ k < s.vs.len, rel' k = rel k) ∧ s.vs.len ≤ s'.vs.len

theorem next_same {rel : ℕ → ℕ} {s s' : RSys α} (h : RInv rel s') (hv : s'.vs = s.vs) : Next rel s s' :=
  ⟨rel, h, fun _ _ => rfl, by rw [hv]⟩

theorem rinv_cstep {rel : ℕ → ℕ} {s s' : RSys α} {k : ℕ} (h : RInv rel s) (e : s.cstep k = some s') : Next rel s s' := by
  have hc := h.c
  have hlo := h.lo
  have hmid := h.visited_le
  have hwithin := h.within
  unfold RSys.cstep at e
  cases hcc : s.c with
  | idle => rw [hcc] at e; cases e
  | ready1 =>
    rw [hcc] at e hc
    simp only [Option.map_eq_some_iff] at e
    obtain ⟨r, er, rfl⟩ := e
    obtain ⟨h1, h2⟩ := h.loadVsC er
    exact next_same (h1.setC (c := .ready2 r.1) ⟨hc, h2⟩) rfl
  | ready2 v =>
    rw [hcc] at e hc
    simp only [Option.map_eq_some_iff] at e
    obtain ⟨r, er, rfl⟩ := e
    obtain ⟨h1, h2, h3, h4, h5⟩ := h.loadVeC er
    have hm := h.mid
    refine next_same (h1.setC (c := .prep1 _) ⟨hc.1, k - s.released, ?_, ?_⟩) rfl
    · rw [hc.2, h2]; exact numReady_eq (by omega) (by omega)
    · show s.released + (k - s.released) ≤ r.2.ve
      omega
  | prep1 n =>
    rw [hcc] at e hc
    simp only [Option.map_eq_some_iff] at e
    obtain ⟨r, er, rfl⟩ := e
    obtain ⟨h1, h2⟩ := h.loadVsC er
    have hc' := h1.c
    rw [show ({ s with cv := r.2 } : RSys α).c = s.c from rfl, hcc] at hc'
    exact next_same (h1.setC (c := .prep2 n r.1) ⟨hc'.1, h2, hc'.2⟩) rfl
  | prep2 n v =>
    rw [hcc] at e hc
    simp only [Option.map_eq_some_iff] at e
    obtain ⟨r, er, rfl⟩ := e
    obtain ⟨h1, h2, h3, h4, h5⟩ := h.loadVeC er
    obtain ⟨hV, hv, m, hn, hk⟩ := hc
    obtain ⟨p1, p2⟩ := prepareToRead_eq (R := s.released) (W := k) (n := m) (by omega) (by omega) (by omega)
    have q1 : (Fifo.prepareToRead kMaxQueueSize v r.1 n).indices =
        (List.range m).map (fun i : ℕ => (((s.visited.length + i) % 400 : ℕ) : ℤ)) := by
      rw [hv, h2, hn, hV]; exact p1
    have q2 : (Fifo.prepareToRead kMaxQueueSize v r.1 n).b1 + (Fifo.prepareToRead kMaxQueueSize v r.1 n).b2 = m := by
      rw [hv, h2, hn]; exact p2
    simp only [q1, q2]
    exact next_same (h1.setC (c := .loop _ _) ⟨m, m, rfl, by show s.released + m ≤ r.2.ve; omega, congrArg (· + m) hV, rfl⟩) rfl
  | loop is b =>
    rw [hcc] at hc
    obtain ⟨m, l, hb, hk, hm, his⟩ := hc
    cases is with
    | nil =>
      rw [hcc] at e; cases e
      have : l = 0 := by
        have := congrArg List.length his
        simpa using this.symm
      subst this
      exact next_same (h.setC (c := .fin1 b) ⟨m, hb, hk, hm⟩) rfl
    | cons i is =>
      rw [hcc] at e; cases e
      cases l with
      | zero => simp at his
      | succ l =>
        rw [List.range_succ_eq_map, List.map_cons, List.map_map] at his
        injection his with h1 h2
        refine next_same (h.setC (c := .reading i is b) ⟨m, l, hb, hk, hm, h1, ?_⟩) rfl
        rw [h2]
        refine List.map_congr_left fun i _ => ?_
        simp only [Function.comp, Nat.succ_eq_add_one]
        rw [show s.visited.length + 1 + i = s.visited.length + (i + 1) by omega]
  | reading i is b =>
    rw [hcc] at e hc
    obtain ⟨m, l, hb, hk, hm, hi, his⟩ := hc
    have hcve := h.cv.ve
    have hel := h.elen
    have hlt : s.visited.length < s.accepted.length := by omega
    have hslot := h.slots _ (le_refl _) hlt
    rw [← hi] at hslot
    have hrel := h.released_le h.pv.vs
    have htouch : s.touched i ≤ 2 * (s.visited.length / 400) + 1 := by
      rw [hi]
      exact h.t2 _ (le_refl _)
    have hknow : 2 * (s.visited.length / 400) + 1 ≤ s.cv.slots i := by
      rw [hi]
      exact h.cv.filled _ (by omega)
    have hle : ∀ j, s.touched j ≤ Function.update s.touched i (s.touched i + 1) j := by
      intro j
      by_cases hj : j = i
      · subst hj; rw [Function.update_self]; omega
      · rw [Function.update_of_ne hj]
    have hup : ∀ j, s.cv.slots j ≤ Function.update s.cv.slots i (s.touched i + 1) j := by
      intro j
      by_cases hj : j = i
      · subst hj; rw [Function.update_self]; have := h.cv.known j; omega
      · rw [Function.update_of_ne hj]
    cases e
    refine next_same ⟨h.vlen, h.elen, fun k hk => ?_, fun k hk => ?_, h.mono, h.last, ?_, ?_, h.hi, ?_, ?_, h.pve, h.cvs, fun j hj => ?_,
      fun j h1 h2 => ?_, ?_, fun j hj => ?_, fun j hj => ?_, ?_, ?_, ⟨m, l, hb, hk, ?_, ?_⟩⟩ rfl
    · obtain ⟨m1, m2, m3⟩ := h.vmsg k hk
      exact ⟨m1, m2, m3.mono (le_refl _) (le_refl _) hle (fun _ _ => rfl)⟩
    · obtain ⟨m1, m2, m3⟩ := h.emsg k hk
      exact ⟨m1, m2, m3.mono (le_refl _) (le_refl _) hle (fun _ _ => rfl)⟩
    · show s.released ≤ (s.visited ++ [s.slots i]).length
      simp; omega
    · show (s.visited ++ [s.slots i]).length ≤ s.cv.ve
      simp; omega
    · exact h.pv.mono (le_refl _) (le_refl _) hle (fun _ _ => rfl)
    · have hg := h.cv
      refine ⟨hg.vs, hg.ve, fun j hj => (hg.freed j hj).trans (hup _), fun j hj => (hg.filled j hj).trans (hup _), fun j => ?_⟩
      show Function.update s.cv.slots i (s.touched i + 1) j ≤ Function.update s.touched i (s.touched i + 1) j
      by_cases hj : j = i
      · subst hj; rw [Function.update_self, Function.update_self]
      · rw [Function.update_of_ne hj, Function.update_of_ne hj]; exact hg.known j
    · show _ ≤ Function.update s.cv.slots i (s.touched i + 1) _
      have hj' : j < (s.visited ++ [s.slots i]).length := hj
      simp only [List.length_append, List.length_singleton] at hj'
      rcases Nat.lt_or_ge j s.visited.length with hl | hl
      · exact (h.own j hl).trans (hup _)
      · have : j = s.visited.length := by omega
        subst this
        rw [← hi, Function.update_self]
        have := h.cv.known i
        omega
    · show Function.update s.slots i none _ = _
      have h1' : (s.visited ++ [s.slots i]).length ≤ j := h1
      have h2' : j < s.accepted.length := h2
      simp only [List.length_append, List.length_singleton] at h1'
      rw [Function.update_of_ne (by omega)]
      exact h.slots j (by omega) h2
    · show s.visited ++ [s.slots i] = (s.accepted.take (s.visited ++ [s.slots i]).length).map some
      rw [List.length_append, List.length_singleton, List.take_succ_eq_append_getElem hlt, List.map_append, ← h.visited, hslot]
      rfl
    · show Function.update s.touched i (s.touched i + 1) _ ≤ _
      have hj' : s.accepted.length + assigned s.p ≤ j := hj
      by_cases hji : ((j % 400 : ℕ) : ℤ) = i
      · rw [hji, Function.update_self]
        omega
      · rw [Function.update_of_ne hji]
        exact h.t1 j hj
    · show Function.update s.touched i (s.touched i + 1) _ ≤ _
      have hj' : (s.visited ++ [s.slots i]).length ≤ j := hj
      simp only [List.length_append, List.length_singleton] at hj'
      by_cases hji : ((j % 400 : ℕ) : ℤ) = i
      · rw [hji, Function.update_self]
        omega
      · rw [Function.update_of_ne hji]
        exact h.t2 j (by omega)
    · show (s.race || decide (s.cv.slots i < s.touched i)) = false
      rw [h.race, decide_eq_false (by omega)]
      rfl
    · have hp := h.p
      show RP rel s.pv (Function.update s.slots i none) s.accepted.length s.p
      cases hpc : s.p with
      | idle => trivial
      | free1 a => trivial
      | free2 a v => rw [hpc] at hp; exact hp
      | prep1 a => rw [hpc] at hp; exact hp
      | prep2 a v => rw [hpc] at hp; exact hp
      | write a w => rw [hpc] at hp; exact hp
      | writing a i b => rw [hpc] at hp; exact hp
      | fin1 a b =>
        rw [hpc] at hp
        simp only [RP] at hp
        refine ⟨hp.1, hp.2.1, ?_, hp.2.2.2⟩
        rw [Function.update_of_ne (by omega)]
        exact hp.2.2.1
      | fin2 a v =>
        rw [hpc] at hp
        simp only [RP] at hp
        refine ⟨hp.1, hp.2.1, ?_, hp.2.2.2⟩
        rw [Function.update_of_ne (by omega)]
        exact hp.2.2.1
    · show (s.visited ++ [s.slots i]).length + l = _
      simp; omega
    · show is = _
      rw [his]
      show _ = (List.range l).map (fun j : ℕ => ((((s.visited ++ [s.slots i]).length + j) % 400 : ℕ) : ℤ))
      rw [List.length_append, List.length_singleton]
  | fin1 b =>
    rw [hcc] at e hc
    simp only [Option.map_eq_some_iff] at e
    obtain ⟨r, er, rfl⟩ := e
    obtain ⟨h1, h2⟩ := h.loadVsC er
    have hc' := h1.c
    rw [show ({ s with cv := r.2 } : RSys α).c = s.c from rfl, hcc] at hc'
    obtain ⟨m, hb, hk, hV⟩ := hc'
    have hcve := h1.cv.ve
    have hel := h1.elen
    dsimp only at hk hV hcve hel
    refine next_same (h1.setC (c := .fin2 _) ⟨m, ?_, hk, hV⟩) rfl
    rw [h2, hb]
    exact advance_eq _ m (by omega)
  | fin2 v =>
    rw [hcc] at e hc
    obtain ⟨m, hv, hk, hV⟩ := hc
    cases e
    have hrel : ∀ k < s.vs.len, Function.update rel s.vs.len s.visited.length k = rel k := fun k hk => Function.update_of_ne (by omega) _ _
    have hgc : GV (s.vs.len + 1) s.ve.len s.touched (Function.update rel s.vs.len s.visited.length) { s.cv with vs := s.vs.len } := by
      have hg := h.cv
      refine ⟨by show s.vs.len < s.vs.len + 1; omega, hg.ve, fun j hj => ?_, hg.filled, hg.known⟩
      have hj' : j < Function.update rel s.vs.len s.visited.length s.vs.len := hj
      rw [Function.update_self] at hj'
      exact h.own j hj'
    have hgm : ∀ w, GV s.vs.len s.ve.len s.touched rel w →
        GV (s.vs.len + 1) s.ve.len s.touched (Function.update rel s.vs.len s.visited.length) w :=
      fun w hw => hw.mono (Nat.le_succ _) (le_refl _) (fun _ => le_refl _) hrel
    refine ⟨Function.update rel s.vs.len s.visited.length, ⟨by show 0 < s.vs.len + 1; omega, h.elen, fun k hk => ?_, fun k hk => ?_,
      fun j k hjk hk => ?_, ?_, le_refl _, h.mid, ?_, hgm _ h.pv, hgc, h.pve, rfl, h.own, h.slots, h.visited, h.t1, h.t2, h.race, ?_, rfl⟩, hrel, Nat.le_succ _⟩
    · have hk' : k < s.vs.len + 1 := hk
      show (Function.update s.vs.msg s.vs.len _ k).val = _ ∧ (Function.update s.vs.msg s.vs.len _ k).view.vs = _ ∧
        GV (s.vs.len + 1) s.ve.len s.touched _ (Function.update s.vs.msg s.vs.len _ k).view
      by_cases hkl : k = s.vs.len
      · subst hkl
        rw [Function.update_self, Function.update_self]
        refine ⟨?_, rfl, hgc⟩
        show v = _
        rw [hv, hV]
      · rw [Function.update_of_ne hkl, Function.update_of_ne hkl]
        obtain ⟨m1, m2, m3⟩ := h.vmsg k (by omega)
        exact ⟨m1, m2, hgm _ m3⟩
    · obtain ⟨m1, m2, m3⟩ := h.emsg k hk
      exact ⟨m1, m2, hgm _ m3⟩
    · have hk' : k < s.vs.len + 1 := hk
      by_cases hkl : k = s.vs.len
      · subst hkl
        rw [Function.update_self]
        rcases Nat.lt_or_ge j s.vs.len with hj | hj
        · rw [hrel j hj]
          exact (h.released_le hj).trans h.lo
        · have : j = s.vs.len := by omega
          subst this
          rw [Function.update_self]
      · rw [hrel k (by omega), hrel j (by omega)]
        exact h.mono j k hjk (by omega)
    · show Function.update rel s.vs.len s.visited.length (s.vs.len + 1 - 1) = s.visited.length
      rw [Nat.add_sub_cancel, Function.update_self]
    · show s.accepted.length - Function.update rel s.vs.len s.visited.length s.pv.vs ≤ 399
      rw [hrel _ h.pv.vs]
      exact h.hi
    · have hp := h.p
      have hpvs := h.pv.vs
      show RP (Function.update rel s.vs.len s.visited.length) s.pv s.slots s.accepted.length s.p
      cases hpc : s.p with
      | idle => trivial
      | free1 a => trivial
      | free2 a v => rw [hpc] at hp; obtain ⟨k, a, b⟩ := hp; exact ⟨k, a, by rw [hrel k (by omega)]; exact b⟩
      | prep1 a => rw [hpc] at hp; simp only [RP] at hp ⊢; rw [hrel _ hpvs]; exact hp
      | prep2 a v => rw [hpc] at hp; obtain ⟨k, a, b⟩ := hp; exact ⟨k, a, by rw [hrel k (by omega)]; exact b⟩
      | write a w => rw [hpc] at hp; simp only [RP] at hp ⊢; rw [hrel _ hpvs]; exact hp
      | writing a i b => rw [hpc] at hp; simp only [RP] at hp ⊢; rw [hrel _ hpvs]; exact hp
      | fin1 a b => rw [hpc] at hp; simp only [RP] at hp ⊢; rw [hrel _ hpvs]; exact hp
      | fin2 a v => rw [hpc] at hp; simp only [RP] at hp ⊢; rw [hrel _ hpvs]; exact hp

theorem pstep_vs {s s' : RSys α} {k : ℕ} (e : s.pstep k = some s') : s'.vs = s.vs := by
  unfold RSys.pstep at e
  split at e
  all_goals first
    | cases e; done
    | (cases e; rfl)
    | (simp only [Option.map_eq_some_iff] at e
       obtain ⟨r, _, rfl⟩ := e
       first | rfl | (split <;> rfl))
    | (split at e
       · cases e; rfl
       · split at e <;> (cases e; rfl))

theorem rinv_step {rel : ℕ → ℕ} {s s' : RSys α} {l : RLabel α} (h : RInv rel s) (e : s.step l = some s') : Next rel s s' := by
  cases l with
  | push a =>
    unfold RSys.step at e
    simp only at e
    split at e
    · rename_i hp
      cases e
      exact next_same (h.setP (p := .free1 a) (by rw [hp]; rfl) trivial s.results) rfl
    · cases e
  | producer k => exact next_same (rinv_pstep h e) (pstep_vs e)
  | service =>
    unfold RSys.step at e
    simp only at e
    split at e
    · rename_i hc
      cases e
      have := h.c
      rw [hc] at this
      exact next_same (h.setC (c := .ready1) this) rfl
    · cases e
  | consumer k => exact rinv_cstep h e
  | producerTold => cases e; exact next_same (h.learnP h.cv) rfl
  | consumerTold => cases e; exact next_same (h.learnC h.pv) rfl

theorem rinv_run {s s' : RSys α} {ls : List (RLabel α)} (h : ∃ rel, RInv rel s) (e : s.run ls = some s') : ∃ rel, RInv rel s' := by
  induction ls generalizing s with
  | nil => cases e; exact h
  | cons l ls ih =>
    unfold RSys.run at e
    rw [Option.bind_eq_some_iff] at e
    obtain ⟨t, ea, eb⟩ := e
    obtain ⟨rel, h⟩ := h
    obtain ⟨rel', h', _⟩ := rinv_step h ea
    exact ih ⟨rel', h'⟩ eb

end Zones.Proofs
