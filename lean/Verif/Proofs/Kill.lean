import Verif.Spec.Kill
import Verif.Props.EngineSys

/-! # Proofs about killed background threads (for C106) -/

namespace Zones.Proofs.Kill
open Zones.Model Zones.Spec Zones.Proofs

variable {V R : Type}

/-- The engine with another record of destroyed convolvers. -/
def engP (f : Option (List (ℕ × Site))) (x : Eng V R) : Eng V R := { x with freed := f.getD x.freed }

def patch (φ : ℕ → Option (List (ℕ × Site))) (s : Sys V R) : Sys V R := { s with engs := fun e => engP (φ e) (s.engs e) }

/-- Nothing goes on in the engine any more. -/
structure Frozen (x : Eng V R) : Prop where
  dead : x.status = .dead
  pc : x.pc = .idle
  loader : x.loader = none
  bg : x.bg = none

theorem setEng_p (φ : ℕ → Option (List (ℕ × Site))) (s : Sys V R) (e : ℕ) (x : Eng V R) :
    patch φ (s.setEng e x) = (patch φ s).setEng e (engP (φ e) x) := by
  simp only [patch, Sys.setEng]
  congr 1
  funext e'
  simp only [Function.update_apply]
  split_ifs with h
  · rw [h]
  · rfl

theorem setEng_pn (φ : ℕ → Option (List (ℕ × Site))) (s : Sys V R) (e n : ℕ) (x : Eng V R) :
    patch φ { s.setEng e x with next := n } = { (patch φ s).setEng e (engP (φ e) x) with next := n } := by
  show ({ patch φ (s.setEng e x) with next := n } : Sys V R) = _
  rw [setEng_p]

theorem setEng_pj (φ : ℕ → Option (List (ℕ × Site))) (s : Sys V R) (e : ℕ) (js : List (Job V R)) (x : Eng V R) :
    patch φ { s.setEng e x with jobs := js } = { (patch φ s).setEng e (engP (φ e) x) with jobs := js } := by
  show ({ patch φ (s.setEng e x) with jobs := js } : Sys V R) = _
  rw [setEng_p]

theorem setEng_pa (φ : ℕ → Option (List (ℕ × Site))) (s : Sys V R) (e : ℕ) (l : List ℕ) (x : Eng V R) :
    patch φ { s.setEng e x with async := l } = { (patch φ s).setEng e (engP (φ e) x) with async := l } := by
  show ({ patch φ (s.setEng e x) with async := l } : Sys V R) = _
  rw [setEng_p]

theorem engs_none {φ : ℕ → Option (List (ℕ × Site))} {s : Sys V R} {e : ℕ} (h : φ e = none) : (patch φ s).engs e = s.engs e := by
  show engP (φ e) _ = _
  rw [h]; rfl

/-- Steps do not depend on the records of dead engines. -/
theorem step_patch {ops : ConvOps V} {build : R → ProcSpec → V} {s s' : Sys V R} {l : Label R} {φ : ℕ → Option (List (ℕ × Site))}
    (hφ : ∀ e, φ e ≠ none → Frozen (s.engs e)) (h : Step ops build s l s') : Step ops build (patch φ s) l (patch φ s') := by
  have alive : ∀ {e}, (s.engs e).status = .alive → φ e = none := fun {e} ha => by
    by_contra hc
    have := (hφ e hc).dead
    rw [ha] at this; cases this
  have busy : ∀ {e}, (s.engs e).pc ≠ .idle → φ e = none := fun {e} ha => by
    by_contra hc
    exact ha (hφ e hc).pc
  have back : ∀ {e}, (s.engs e).bg ≠ none → φ e = none := fun {e} ha => by
    by_contra hc
    exact ha (hφ e hc).bg
  cases h with
  | create h => rw [setEng_p]; exact .create h
  | loadLock h hm => rw [setEng_pn]; exact .loadLock h hm
  | loadRemove h => rw [setEng_pj]; exact .loadRemove h
  | loadFlag h hs => rw [setEng_p]; exact .loadFlag h hs
  | loadSkip h hs => rw [setEng_p]; exact .loadSkip h hs
  | loadAdd h hs => rw [setEng_pj]; exact .loadAdd h hs
  | pick h => exact .pick h
  | build h hj => rw [setEng_p]; exact .build h hj
  | jobLock h hj ha hm => rw [setEng_p]; exact .jobLock h hj ha hm
  | jobLockDead h hj ha => rw [setEng_p]; exact .jobLockDead h hj ha
  | jobStop h hj ha hst =>
    have e0 := alive ha
    rw [setEng_p, e0]
    have hx := Step.jobStop (ops := ops) (build := build) (s := patch φ s) h hj ha hst
    rw [engs_none e0] at hx
    exact hx
  | jobPush h hj ha hst hroom => rw [setEng_p]; exact .jobPush h hj ha hst hroom
  | jobRefused h hj ha hst hfull =>
    have e0 := alive ha
    rw [setEng_p, e0]
    have hx := Step.jobRefused (ops := ops) (build := build) (s := patch φ s) h hj ha hst hfull
    rw [engs_none e0] at hx
    exact hx
  | jobCheckDead h hj ha => rw [setEng_p]; exact .jobCheckDead h hj ha
  | jobDone h hj ha => rw [setEng_pa]; exact .jobDone h hj ha
  | jobDoneDead h hj ha => rw [setEng_p]; exact .jobDoneDead h hj ha
  | call ha h => rw [setEng_p]; exact .call ha h
  | service h => rw [setEng_p]; exact .service h
  | visit h hc =>
    rename_i e n k done g rest
    have e0 := busy (by rw [h]; nofun)
    rw [setEng_p, e0]
    have hx := Step.visit (ops := ops) (build := build) (s := patch φ s) (e := e) h hc
    rw [engs_none e0] at hx
    exact hx
  | serviced h => rw [setEng_p]; exact .serviced h
  | body h hr =>
    have e0 := busy (by rw [h]; nofun)
    rw [setEng_p, e0]
    have hx := Step.body (ops := ops) (build := build) (s := patch φ s) h hr
    rw [engs_none e0] at hx
    exact hx
  | bgBegin ha h => rw [setEng_p]; exact .bgBegin ha h
  | bgVisit h hc =>
    have e0 := back (by rw [h]; nofun)
    rw [setEng_p, e0]
    have hx := Step.bgVisit (ops := ops) (build := build) (s := patch φ s) h hc
    rw [engs_none e0] at hx
    exact hx
  | bgEnd h => rw [setEng_p]; exact .bgEnd h
  | async h ha => rw [setEng_pa]; exact .async h ha
  | asyncDead h ha => rw [setEng_pa]; exact .asyncDead h ha
  | destroy ha h hl hb =>
    have e0 := alive ha
    rw [setEng_p, e0]
    have hx := Step.destroy (ops := ops) (build := build) (s := patch φ s) ha h hl hb
    rw [engs_none e0] at hx
    exact hx

/-- Nothing happens in a frozen engine, and its record stays. -/
theorem frozen_step {ops : ConvOps V} {build : R → ProcSpec → V} {s s' : Sys V R} {l : Label R} (h : Step ops build s l s') {e : ℕ} (hf : Frozen (s.engs e)) :
    Frozen (s'.engs e) ∧ (s'.engs e).freed = (s.engs e).freed := by
  have other : ∀ {s1 : Sys V R} {e0 : ℕ} {x : Eng V R}, s1.engs = Function.update s.engs e0 x → ((e0 = e) → Frozen x ∧ x.freed = (s.engs e0).freed) →
      Frozen (s1.engs e) ∧ (s1.engs e).freed = (s.engs e).freed := by
    intro s1 e0 x h1 h2
    rw [h1, Function.update_apply]
    split_ifs with hh
    · subst hh; exact h2 rfl
    · exact ⟨hf, rfl⟩
  have dead : ∀ {e0}, e0 = e → (s.engs e0).status = .alive → False := fun {e0} h1 h2 => by subst h1; rw [hf.dead] at h2; cases h2
  have idle : ∀ {e0 k}, e0 = e → (s.engs e0).pc = k → k ≠ .idle → False := fun {e0 k} h1 h2 h3 => by subst h1; rw [hf.pc] at h2; exact h3 h2.symm
  have noload : ∀ {e0 k}, e0 = e → (s.engs e0).loader = some k → False := fun {e0 k} h1 h2 => by subst h1; rw [hf.loader] at h2; cases h2
  have nobg : ∀ {e0 k}, e0 = e → (s.engs e0).bg = some k → False := fun {e0 k} h1 h2 => by subst h1; rw [hf.bg] at h2; cases h2
  cases h with
  | create h => exact other rfl fun he => (by subst he; rw [hf.dead] at h; cases h)
  | loadLock h hm => exact other rfl fun he => (dead he h).elim
  | loadRemove h => exact other rfl fun he => (noload he h).elim
  | loadFlag h hs => exact other rfl fun he => (noload he h).elim
  | loadSkip h hs => exact other rfl fun he => (noload he h).elim
  | loadAdd h hs => exact other rfl fun he => (noload he h).elim
  | pick h => exact ⟨hf, rfl⟩
  | build h hj => exact other rfl fun he => by subst he; exact ⟨⟨hf.dead, hf.pc, hf.loader, hf.bg⟩, rfl⟩
  | jobLock h hj ha hm => exact other rfl fun he => (dead he ha).elim
  | jobLockDead h hj ha => exact other rfl fun he => by subst he; exact ⟨⟨hf.dead, hf.pc, hf.loader, hf.bg⟩, rfl⟩
  | jobStop h hj ha hst => exact other rfl fun he => (dead he ha).elim
  | jobPush h hj ha hst hroom => exact other rfl fun he => (dead he ha).elim
  | jobRefused h hj ha hst hfull => exact other rfl fun he => (dead he ha).elim
  | jobCheckDead h hj ha => exact other rfl fun he => by subst he; exact ⟨⟨hf.dead, hf.pc, hf.loader, hf.bg⟩, rfl⟩
  | jobDone h hj ha => exact other rfl fun he => (dead he ha).elim
  | jobDoneDead h hj ha => exact other rfl fun he => by subst he; exact ⟨⟨hf.dead, hf.pc, hf.loader, hf.bg⟩, rfl⟩
  | call ha h => exact other rfl fun he => (dead he ha).elim
  | service h => exact other rfl fun he => (idle he h nofun).elim
  | visit h hc => exact other rfl fun he => (idle he h nofun).elim
  | serviced h => exact other rfl fun he => (idle he h nofun).elim
  | body h hr => exact other rfl fun he => (idle he h nofun).elim
  | bgBegin ha h => exact other rfl fun he => (dead he ha).elim
  | bgVisit h hc => exact other rfl fun he => (nobg he h).elim
  | bgEnd h => exact other rfl fun he => (nobg he h).elim
  | async h ha => exact other rfl fun he => (dead he ha).elim
  | asyncDead h ha => exact other rfl fun he => by subst he; exact ⟨⟨hf.dead, hf.pc, hf.loader, hf.bg⟩, rfl⟩
  | destroy ha h hl hb => exact other rfl fun he => (dead he ha).elim

/-- The background thread finishes its `Service`. -/
theorem drain {ops : ConvOps V} {build : R → ProcSpec → V} {e : ℕ} : ∀ (n : ℕ) {s : Sys V R}, (s.engs e).bg = some n → n ≤ (s.engs e).ntf.length →
    Run ops build s (List.replicate n (.bgVisit e) ++ [.bgEnd e])
      (s.setEng e { s.engs e with
        ntf := (s.engs e).ntf.drop n
        ntfTaken := 0
        bg := none
        freed := (s.engs e).freed ++ (((s.engs e).ntf.take n).flatMap Option.toList).map fun h => (h.id, .background) }) := by
  intro n
  induction n with
  | zero =>
    intro s h _
    have := Run.single (Step.bgEnd (ops := ops) (build := build) h)
    simpa using this
  | succ n ih =>
    intro s h hn
    cases hc : (s.engs e).ntf with
    | nil => rw [hc] at hn; simp at hn
    | cons o rest =>
      have h1 := Step.bgVisit (ops := ops) (build := build) h hc
      refine .cons h1 ?_
      generalize hs1 : s.setEng e { s.engs e with
          ntf := rest
          ntfTaken := (s.engs e).ntfTaken + 1
          bg := some n
          freed := (s.engs e).freed ++ o.toList.map fun h => (h.id, Site.background) } = s1 at h1
      have hx : s1.engs e = { s.engs e with
          ntf := rest
          ntfTaken := (s.engs e).ntfTaken + 1
          bg := some n
          freed := (s.engs e).freed ++ o.toList.map fun h => (h.id, Site.background) } := by rw [← hs1]; simp [Sys.setEng]
      have h2 := ih (s := s1) (by rw [hx]) (by rw [hx]; rw [hc] at hn; simpa using hn)
      rw [hx] at h2
      have he : s.setEng e { s.engs e with
          ntf := (o :: rest).drop (n + 1)
          ntfTaken := 0
          bg := none
          freed := (s.engs e).freed ++ (((o :: rest).take (n + 1)).flatMap Option.toList).map fun h => (h.id, Site.background) } = s1.setEng e { s.engs e with
          ntf := rest.drop n
          ntfTaken := 0
          bg := none
          freed := (s.engs e).freed ++ (o.toList.map fun h => (h.id, Site.background)) ++ ((rest.take n).flatMap Option.toList).map fun h => (h.id, Site.background) } := by
        rw [← hs1]
        simp [Sys.setEng, List.append_assoc]
      rw [he]
      exact h2

/-- How a system with kills and one without belong together. -/
structure Sim (ops : ConvOps V) (build : R → ProcSpec → V) (kls : List (KLabel R)) (k : KSys V R) (ls : List (Label R)) (t : Sys V R)
    (φ : ℕ → Option (List (ℕ × Site))) : Prop where
  exec : Exec ops build ls t
  same : t = patch φ k.sys
  frozen : ∀ e, φ e ≠ none → Frozen (k.sys.engs e)
  freed : ∀ e, ((t.engs e).freed.map Prod.fst).Perm ((k.sys.engs e).freed.map Prod.fst ++ k.lost e)
  one : ∀ e, (k.lost e).length ≤ 1
  whole : ∀ e, φ e = none → k.lost e = []
  killed : ∀ e, φ e ≠ none → KLabel.kill e ∈ kls
  labels : foreground ls = foreground (kls.map KLabel.asIfWaited)

theorem foreground_append (a b : List (Label R)) : foreground (a ++ b) = foreground a ++ foreground b := List.filter_append ..

theorem Sim.step {ops : ConvOps V} {build : R → ProcSpec → V} {kls : List (KLabel R)} {k k' : KSys V R} {ls : List (Label R)} {t : Sys V R}
    {φ : ℕ → Option (List (ℕ × Site))} (h : Sim ops build kls k ls t φ) {l : KLabel R} (hs : KStep ops build k l k') :
    ∃ ls' t' φ', Sim ops build (kls ++ [l]) k' ls' t' φ' := by
  obtain ⟨g1, g2, g3, g4, g5, g6, g7, g8⟩ := h
  have kill : ∀ {e n : ℕ} {lo : List ℕ} {x : Eng V R}, l = .kill e → (k.sys.engs e).status = .alive → (k.sys.engs e).pc = .idle → (k.sys.engs e).loader = none →
      (k.sys.engs e).bg = some n → k'.sys = k.sys.setEng e x.killed → k'.lost = Function.update k.lost e lo → lo.length ≤ 1 →
      (∀ f, ({ x with freed := f } : Eng V R) = { k.sys.engs e with freed := f, ntf := x.ntf }) →
      (((k.sys.engs e).freed.map Prod.fst) ++ (k.sys.engs e).holding.map Held.id).Perm (x.freed.map Prod.fst ++ x.holding.map Held.id ++ lo) →
      ∃ ls' t' φ', Sim ops build (kls ++ [l]) k' ls' t' φ' := by
    intro e n lo x hl ha hp hlo hb hk hlost hone hx hperm
    have e0 : φ e = none := by
      by_contra hc
      have := (g3 e hc).dead
      rw [ha] at this; cases this
    have te : t.engs e = k.sys.engs e := by rw [g2, engs_none e0]
    have hn : n ≤ (t.engs e).ntf.length := ((exec_inv g1).flow e).bg n (by rw [te]; exact hb)
    have r1 := drain (ops := ops) (build := build) n (s := t) (e := e) (by rw [te]; exact hb) hn
    generalize hy : ({ t.engs e with
        ntf := (t.engs e).ntf.drop n
        ntfTaken := 0
        bg := none
        freed := (t.engs e).freed ++ (((t.engs e).ntf.take n).flatMap Option.toList).map fun h => (h.id, Site.background) } : Eng V R) = y at r1
    have hye : (t.setEng e y).engs e = y := by simp [Sys.setEng]
    have r2 : Step ops build (t.setEng e y) (.destroy e) _ := Step.destroy (by rw [hye, ← hy, te]; exact ha) (by rw [hye, ← hy, te]; exact hp)
      (by rw [hye, ← hy, te]; exact hlo) (by rw [hye, ← hy])
    rw [hye] at r2
    generalize hz : ({ y with
          status := .dead
          core := {}
          cmd := []
          ntf := []
          freed := y.freed ++ y.holding.map fun h => (h.id, Site.destructor) } : Eng V R) = z at r2
    have hset : (t.setEng e y).setEng e z = t.setEng e z := by simp [Sys.setEng]
    rw [hset] at r2
    have hzx : z = engP (some z.freed) x.killed := by
      have := hx z.freed
      rw [← hz, ← hy, te]
      have h1 : x.killed = ({ ({ x with freed := [] } : Eng V R) with
          status := .dead, core := {}, cmd := [], ntf := [], ntfTaken := 0, bg := none, freed := x.freed ++ x.holding.map fun h => (h.id, Site.destructor) } : Eng V R) := rfl
      rw [h1, hx []]
      rfl
    have hfr : Frozen x.killed := by
      have h1 : x.killed = ({ ({ x with freed := [] } : Eng V R) with
          status := .dead, core := {}, cmd := [], ntf := [], ntfTaken := 0, bg := none, freed := x.freed ++ x.holding.map fun h => (h.id, Site.destructor) } : Eng V R) := rfl
      rw [h1, hx []]
      exact ⟨rfl, hp, hlo, rfl⟩
    have hzf : (z.freed.map Prod.fst).Perm (x.killed.freed.map Prod.fst ++ lo) := by
      have a1 : z.freed.map Prod.fst = (k.sys.engs e).freed.map Prod.fst ++ idsOf ((k.sys.engs e).ntf.take n) ++ y.holding.map Held.id := by
        rw [← hz]
        simp only [List.map_append, List.map_map]
        rw [← hy, te]
        simp only [List.map_append, freed_ids]
        rfl
      have a2 : x.killed.freed.map Prod.fst = x.freed.map Prod.fst ++ x.holding.map Held.id := by
        show (x.freed ++ x.holding.map fun h => (h.id, Site.destructor)).map Prod.fst = _
        rw [List.map_append, List.map_map]; rfl
      rw [a1, a2]
      refine List.Perm.trans ?_ hperm
      rw [List.append_assoc]
      refine List.Perm.append_left _ ?_
      rw [← hy, te, List.perm_iff_count]
      intro i
      have := idsOf_split (k.sys.engs e).ntf n i
      simp only [Eng.holding, List.map_append, List.count_append]
      have q1 : ∀ os : List (Option (Held V)), (os.flatMap Option.toList).map Held.id = idsOf os := fun os => rfl
      rw [q1, q1]
      omega
    refine ⟨ls ++ (List.replicate n (.bgVisit e) ++ [.bgEnd e] ++ [.destroy e]), t.setEng e z, Function.update φ e (some z.freed), ?_⟩
    constructor
    · exact Run.append g1 (Run.append r1 (Run.single r2))
    · rw [hk, setEng_p, Function.update_self, ← hzx]
      have : ∀ w : Eng V R, (patch φ k.sys).setEng e w = (patch (Function.update φ e (some z.freed)) k.sys).setEng e w := fun w => by
        simp only [patch, Sys.setEng]
        congr 1
        funext e'
        simp only [Function.update_apply]
        split_ifs <;> rfl
      rw [g2]
      exact this z
    · intro e' he'
      rw [hk, setEng_engs]
      split_ifs with hh
      · exact hfr
      · rw [Function.update_apply, if_neg hh] at he'
        exact g3 e' he'
    · intro e'
      rw [hk, hlost, setEng_engs, setEng_engs, Function.update_apply]
      by_cases hh : e' = e
      · subst hh; simpa using hzf
      · rw [if_neg hh, if_neg hh, if_neg hh]; exact g4 e'
    · intro e'
      rw [hlost, Function.update_apply]
      split_ifs
      · exact hone
      · exact g5 e'
    · intro e' he'
      rw [Function.update_apply] at he'
      split_ifs at he' with hh
      rw [hlost, Function.update_apply, if_neg hh]
      exact g6 e' he'
    · intro e' he'
      rw [Function.update_apply] at he'
      split_ifs at he' with hh
      · rw [hl, hh]; simp
      · exact List.mem_append_left _ (g7 e' he')
    · rw [foreground_append, foreground_append, foreground_append, List.map_append, foreground_append, g8, hl]
      have : foreground (List.replicate n (.bgVisit e) : List (Label R)) = [] := by
        unfold foreground
        rw [List.filter_eq_nil_iff]
        intro a ha
        rw [List.eq_of_mem_replicate ha]
        simp [inBackground]
      rw [this]
      rfl
  cases hs with
  | @sys l0 s' h0 =>
    refine ⟨ls ++ [l0], patch φ s', φ, ?_⟩
    constructor
    · exact Run.append g1 (Run.single (g2 ▸ step_patch g3 h0))
    · rfl
    · exact fun e he => (frozen_step h0 (g3 e he)).1
    · intro e
      by_cases he : φ e = none
      · show ((engP (φ e) (s'.engs e)).freed.map Prod.fst).Perm ((s'.engs e).freed.map Prod.fst ++ k.lost e)
        rw [g6 e he, List.append_nil, he]
        exact List.Perm.refl _
      · have h1 := (frozen_step h0 (g3 e he)).2
        have h2 := g4 e
        show ((engP (φ e) (s'.engs e)).freed.map Prod.fst).Perm ((s'.engs e).freed.map Prod.fst ++ k.lost e)
        rw [h1]
        rw [g2] at h2
        obtain ⟨f, hf⟩ := Option.ne_none_iff_exists'.mp he
        have h3 : (engP (φ e) (s'.engs e)).freed = ((patch φ k.sys).engs e).freed := by
          show (engP (φ e) (s'.engs e)).freed = (engP (φ e) (k.sys.engs e)).freed
          rw [hf]; rfl
        rw [h3]
        exact h2
    · exact g5
    · exact g6
    · exact fun e he => List.mem_append_left _ (g7 e he)
    · rw [foreground_append, List.map_append, foreground_append, g8]; rfl
  | @kill e n ha hp hlo hb =>
    have e0 : φ e = none := by
      by_contra hc
      have := (g3 e hc).dead
      rw [ha] at this; cases this
    exact kill (lo := []) (x := k.sys.engs e) rfl ha hp hlo hb rfl (by rw [← g6 e e0, Function.update_eq_self]) (by simp) (fun f => rfl) (by simp)
  | @killVisiting e n o rest ha hp hlo hb hc =>
    have e0 : φ e = none := by
      by_contra hc
      have := (g3 e hc).dead
      rw [ha] at this; cases this
    refine kill (lo := o.toList.map Held.id) (x := { k.sys.engs e with ntf := rest }) rfl ha hp hlo hb rfl (by rw [g6 e e0]; rfl) ?_ (fun f => rfl) ?_
    · cases o <;> simp
    · rw [List.append_assoc]
      refine List.Perm.append_left _ ?_
      rw [List.perm_iff_count]
      intro i
      simp only [Eng.holding, hc, List.flatMap_cons, List.map_append, List.count_append]
      omega

theorem sim {ops : ConvOps V} {build : R → ProcSpec → V} {kls : List (KLabel R)} {k : KSys V R} (h : KExec ops build kls k) :
    ∃ ls t φ, Sim ops build kls k ls t φ := by
  have key : ∀ (k : KSys V R) kls k', KRun ops build k kls k' → ∀ pre ls t φ, Sim ops build pre k ls t φ → ∃ ls' t' φ', Sim ops build (pre ++ kls) k' ls' t' φ' := by
    intro k kls k' hr
    induction hr with
    | nil s => intro pre ls t φ hp; rw [List.append_nil]; exact ⟨ls, t, φ, hp⟩
    | cons h1 _ ih =>
      intro pre ls t φ hp
      obtain ⟨ls', t', φ', hp'⟩ := hp.step h1
      obtain ⟨a, b, c, hh⟩ := ih _ _ _ _ hp'
      exact ⟨a, b, c, by simpa using hh⟩
  refine key _ _ _ h [] [] {} (fun _ => none) ?_
  exact ⟨.nil _, rfl, fun e he => (he rfl).elim, fun e => List.Perm.refl _, fun e => Nat.zero_le _, fun e _ => rfl, fun e he => (he rfl).elim, rfl⟩

end Zones.Proofs.Kill
