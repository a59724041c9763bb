import Verif.Proofs.EngineTrace

/-! Where every convolver is. -/

open Zones.Model Zones.Spec

namespace Zones.Proofs

variable {V R : Type}

set_option linter.unusedSimpArgs false
set_option linter.unusedVariables false

/-- The convolvers an engine holds or has seen destroyed. -/
def placed (x : Eng V R) : List ℕ := x.cmd.map Held.id ++ slots x.core ++ idsOf x.ntf ++ x.freed.map Prod.fst

/-- The job holds a convolver. -/
def Job.carries (j : Job V R) : Bool := match j.pc with
  | .built _ | .locked _ => true
  | _ => false

@[grind =] theorem carries_iff {j : Job V R} : Job.carries j = true ↔ (∃ v, j.pc = .built v) ∨ ∃ v, j.pc = .locked v := by
  unfold Job.carries
  cases j.pc <;> simp

/-- What the whereabouts depend on. -/
structure WhereAbs (jobs : List (Job V R)) (next : ℕ) (loader : ℕ → Option (ℕ × R × LPc)) (made P : ℕ → List ℕ) : Prop where
  nodup : ∀ e, (P e).Nodup
  mnodup : ∀ e, (made e).Nodup
  mlt : ∀ e, ∀ i ∈ made e, i < next
  mload : ∀ e i r p, loader e = some (i, r, p) → ∀ m ∈ made e, m < i
  pm : ∀ e, ∀ i ∈ P e, i ∈ made e
  mp : ∀ e, ∀ i ∈ made e, i ∈ P e ∨ ∃ j ∈ jobs, j.eng = e ∧ j.id = i ∧ Job.carries j = true
  jm : ∀ j ∈ jobs, Job.carries j = true → j.id ∈ made j.eng
  jp : ∀ j ∈ jobs, Job.carries j = true → j.id ∉ P j.eng
  jn : ∀ j ∈ jobs, j.pc = .queued ∨ j.pc = .building → j.id ∉ made j.eng

def Where (s : Sys V R) : Prop := WhereAbs s.jobs s.next (fun e => (s.engs e).loader) (fun e => (s.engs e).made) (fun e => placed (s.engs e))

theorem Where.same {s s' : Sys V R} (h : Where s) (q : Quiet s s') (hp : ∀ e, (placed (s'.engs e)).Perm (placed (s.engs e))) : Where s' := by
  obtain ⟨q1, q2, q3⟩ := q
  have hl : ∀ e, (s'.engs e).loader = (s.engs e).loader := fun e => (q3 e).loader
  have hm : ∀ e, (s'.engs e).made = (s.engs e).made := fun e => (q3 e).made
  obtain ⟨a1, a2, a3, a4, a5, a6, a7, a8, a9⟩ := h
  unfold Where
  rw [q1, q2]
  simp only [hl, hm]
  have hmem : ∀ e i, i ∈ placed (s'.engs e) ↔ i ∈ placed (s.engs e) := fun e i => (hp e).mem_iff
  exact ⟨fun e => (hp e).nodup_iff.mpr (a1 e), a2, a3, a4, fun e i hi => a5 e i ((hmem e i).mp hi),
    fun e i hi => (a6 e i hi).imp (hmem e i).mpr id, a7, fun j hj hc hi => a8 j hj hc ((hmem _ _).mp hi), a9⟩

theorem placed_set {s : Sys V R} {e0 : ℕ} {x : Eng V R} (h : (placed x).Perm (placed (s.engs e0))) : ∀ e, (placed ((s.setEng e0 x).engs e)).Perm (placed (s.engs e)) := by
  intro e
  rw [setEng_engs]
  by_cases hc : e = e0
  · rw [if_pos hc]; subst hc; exact h
  · rw [if_neg hc]

theorem idsOf_append (a b : List (Option (Held V))) : idsOf (a ++ b) = idsOf a ++ idsOf b := by
  unfold idsOf
  rw [List.flatMap_append, List.map_append]

theorem idsOf_split (os : List (Option (Held V))) (n : ℕ) (i : ℕ) :
    (idsOf (os.take n)).count i + (idsOf (os.drop n)).count i = (idsOf os).count i := by
  rw [← List.count_append, ← idsOf_append, List.take_append_drop]

theorem freed_ids (os : List (Option (Held V))) (t : Site) : ((os.flatMap Option.toList).map fun h => (h.id, t)).map Prod.fst = idsOf os := by
  unfold idsOf
  rw [List.map_map]
  rfl

theorem held_ids (l : List (Held V)) (t : Site) : (l.map fun h => (h.id, t)).map Prod.fst = l.map Held.id := by
  rw [List.map_map]
  rfl

theorem flat_ids (os : List (Option (Held V))) : (os.flatMap Option.toList).map Held.id = idsOf os := rfl

theorem visit_placed (ops : ConvOps V) (x : Eng V R) {g : Held V} {rest : List (Held V)} (hc : x.cmd = g :: rest) (n : ℕ) (pc : APc V) :
    (placed { x.visit ops g with
      cmd := rest
      cmdTaken := n
      pc := pc }).Perm (placed x) := by
  rw [visit_eq]
  unfold placed
  simp only [List.map_append, freed_ids, idsOf_append, hc]
  rw [List.perm_iff_count]
  intro i
  have h1 := (List.perm_iff_count.mp (handle_slots ops x.core g)) i
  have h2 := idsOf_split (x.core.handle ops g).2 (ntfRoom x) i
  simp only [List.count_append, List.map_cons, List.count_cons] at h1 ⊢
  omega

theorem finish_placed {ops : ConvOps V} (x : Eng V R) {d : List (Held V)} {k : Call} {r : Core V × Core.Effects V} (h : x.core.callBody ops k = some r) :
    (placed (x.finish d k r)).Perm (placed x) := by
  rw [finish_eq]
  unfold placed
  simp only [List.map_append, held_ids, flat_ids, idsOf_append]
  rw [List.perm_iff_count]
  intro i
  have h1 := (List.perm_iff_count.mp (callBody_slots h).1) i
  have h2 := idsOf_split r.2.pushed (ntfRoom x) i
  simp only [List.count_append] at h1 ⊢
  omega

theorem bgVisit_placed (x : Eng V R) {o : Option (Held V)} {rest : List (Option (Held V))} (hc : x.ntf = o :: rest) (n : ℕ) (b : Option ℕ) :
    (placed { x with
      ntf := rest
      ntfTaken := n
      bg := b
      freed := x.freed ++ o.toList.map fun h => (h.id, Site.background) }).Perm (placed x) := by
  unfold placed
  have e : idsOf (o :: rest) = o.toList.map Held.id ++ idsOf rest := by unfold idsOf; simp
  simp only [List.map_append, held_ids, hc, e]
  rw [List.perm_iff_count]
  intro i
  simp only [List.count_append]
  omega

theorem toList_ids (o : Option (Held V)) : (o.map Held.id).toList = o.toList.map Held.id := by
  cases o <;> rfl

theorem destroy_placed (x : Eng V R) :
    (placed { x with
      status := .dead
      core := {}
      cmd := []
      ntf := []
      freed := x.freed ++ x.holding.map fun h => (h.id, Site.destructor) }).Perm (placed x) := by
  unfold placed Eng.holding
  have e : slots ({} : Core V) = [] := rfl
  have e2 : idsOf ([] : List (Option (Held V))) = [] := rfl
  simp only [List.map_append, held_ids, e, e2, List.map_nil, List.nil_append]
  unfold slots idsOf
  simp only [toList_ids]
  rw [List.perm_iff_count]
  intro i
  simp only [List.count_append]
  omega

theorem Where.qset {s : Sys V R} (h : Where s) {e0 : ℕ} {x : Eng V R} (hl : SameLoads (s.engs e0) x) (hp : (placed x).Perm (placed (s.engs e0))) :
    Where (s.setEng e0 x) :=
  h.same (quiet_set hl) (placed_set hp)

macro "where_step" : tactic => `(tactic|
  (constructor <;> (try simp only [forall_removeAll, exists_removeAll, setEng_jobs, setEng_next, setJob_next, dropJob_next]) <;> grind))

theorem loader_set (s : Sys V R) (e : ℕ) (x : Eng V R) (e' : ℕ) : ((s.setEng e x).engs e').loader = if e' = e then x.loader else (s.engs e').loader := by
  rw [setEng_engs]; split_ifs <;> rfl

theorem made_set (s : Sys V R) (e : ℕ) (x : Eng V R) (e' : ℕ) : ((s.setEng e x).engs e').made = if e' = e then x.made else (s.engs e').made := by
  rw [setEng_engs]; split_ifs <;> rfl

theorem placed_set_eq (s : Sys V R) (e : ℕ) (x : Eng V R) (e' : ℕ) : placed ((s.setEng e x).engs e') = if e' = e then placed x else placed (s.engs e') := by
  rw [setEng_engs]; split_ifs <;> rfl

theorem perm_push (x : Eng V R) (g : Held V) : (placed { x with
    cmd := x.cmd ++ [g]
    delivered := x.delivered ++ [g] }).Perm (g.id :: placed x) := by
  rw [List.perm_iff_count]
  intro i
  simp only [placed, List.map_append, List.count_append, List.count_cons, List.map_cons, List.map_nil, List.count_nil]
  omega

theorem perm_free (x : Eng V R) (j : ℕ) (t : Site) (o : Option ℕ) : (placed { x with
    holder := o
    freed := x.freed ++ [(j, t)] }).Perm (j :: placed x) := by
  rw [List.perm_iff_count]
  intro i
  simp only [placed, List.map_append, List.count_append, List.count_cons, List.map_cons, List.map_nil, List.count_nil]
  omega

theorem mem_of_perm {l l' : List ℕ} {a : ℕ} (h : l.Perm (a :: l')) (i : ℕ) : i ∈ l ↔ i = a ∨ i ∈ l' := h.mem_iff.trans List.mem_cons

theorem nodup_of_perm {l l' : List ℕ} {a : ℕ} (h : l.Perm (a :: l')) (hn : l'.Nodup) (ha : a ∉ l') : l.Nodup := by
  rw [h.nodup_iff, List.nodup_cons]; exact ⟨ha, hn⟩

set_option maxHeartbeats 2000000 in
theorem Where.step {ops : ConvOps V} {build : R → ProcSpec → V} {s s' : Sys V R} {l : Label R} (hN : Ids s) (hL : Locks s) (hO : Order s)
    (hI : Where s) (h : Step ops build s l s') : Where s' := by
  have hsame := @same_job V R s hN.nodup
  have hjload := hO.jload
  have hjlt := hN.jlt
  have hllt := hN.llt
  have hlnew := hN.lnew
  cases h
  case create e h1 =>
    obtain ⟨a1, a2, a3, a4, a5, a6, a7, a8, a9⟩ := hI
    unfold Where
    simp only [loader_set, made_set, placed_set_eq]
    have hp : placed { s.engs e with status := .alive } = placed (s.engs e) := rfl
    rw [hp]
    where_step
  case loadLock e req h1 h2 =>
    obtain ⟨a1, a2, a3, a4, a5, a6, a7, a8, a9⟩ := hI
    unfold Where
    simp only [loader_set, made_set, placed_set_eq]
    have hp : placed { s.engs e with loader := some (s.next, req, .locked) } = placed (s.engs e) := rfl
    rw [hp]
    where_step
  case loadRemove e i req h1 =>
    obtain ⟨a1, a2, a3, a4, a5, a6, a7, a8, a9⟩ := hI
    unfold Where
    simp only [loader_set, made_set, placed_set_eq]
    have hp : placed { s.engs e with loader := some (i, req, .removed) } = placed (s.engs e) := rfl
    rw [hp]
    where_step
  case loadFlag e i req h1 h2 =>
    obtain ⟨a1, a2, a3, a4, a5, a6, a7, a8, a9⟩ := hI
    unfold Where
    simp only [loader_set, made_set, placed_set_eq]
    have hp : placed { s.engs e with
        loader := some (i, req, .flagged)
        loading := true
        notified := (s.engs e).notified ++ [true] } = placed (s.engs e) := rfl
    rw [hp]
    where_step
  case loadSkip e i req h1 h2 =>
    obtain ⟨a1, a2, a3, a4, a5, a6, a7, a8, a9⟩ := hI
    unfold Where
    simp only [loader_set, made_set, placed_set_eq]
    have hp : placed { s.engs e with loader := (none : Option (ℕ × R × LPc)) } = placed (s.engs e) := rfl
    rw [hp]
    where_step
  case loadAdd e i req p h1 h2 =>
    obtain ⟨a1, a2, a3, a4, a5, a6, a7, a8, a9⟩ := hI
    unfold Where
    simp only [loader_set, made_set, placed_set_eq]
    have hp : placed { s.engs e with loader := (none : Option (ℕ × R × LPc)) } = placed (s.engs e) := rfl
    rw [hp]
    where_step
  case pick j h1 =>
    obtain ⟨a1, a2, a3, a4, a5, a6, a7, a8, a9⟩ := hI
    have h2 := mem_of_find h1
    have h4 := @mem_setJob_iff V R s j { j with pc := .building } h2.1 rfl
    have hq : j.pc = .queued := h2.2
    unfold Where
    simp only [setJob_engs]
    where_step
  case build j h1 h2 =>
    obtain ⟨a1, a2, a3, a4, a5, a6, a7, a8, a9⟩ := hI
    have h4 := @mem_setJob_iff V R s j { j with pc := .built (build j.req j.spec) } h1 rfl
    have h8 := setJob_mem (j' := { j with pc := .built (build j.req j.spec) }) h1 rfl
    unfold Where
    simp only [loader_set, made_set, placed_set_eq]
    have hp : placed { s.engs j.eng with made := (s.engs j.eng).made ++ [j.id] } = placed (s.engs j.eng) := rfl
    rw [hp]
    simp only [setJob_engs]
    where_step
  case jobLock j v h1 h2 h5 h6 =>
    obtain ⟨a1, a2, a3, a4, a5, a6, a7, a8, a9⟩ := hI
    have h4 := @mem_setJob_iff V R s j { j with pc := .locked v } h1 rfl
    have h8 := setJob_mem (j' := { j with pc := .locked v }) h1 rfl
    unfold Where
    simp only [loader_set, made_set, placed_set_eq]
    have hp : placed { s.engs j.eng with holder := some j.id } = placed (s.engs j.eng) := rfl
    rw [hp]
    simp only [setJob_engs]
    where_step
  case jobLockDead j v h1 h2 h5 => exact hI.qset ⟨rfl, rfl, rfl, rfl, rfl⟩ (.refl _)
  case jobStop j v h1 h2 h5 h6 =>
    obtain ⟨a1, a2, a3, a4, a5, a6, a7, a8, a9⟩ := hI
    have h4 := @mem_dropJob V R s
    have hc : j.id ∉ placed (s.engs j.eng) := a8 j h1 (by rw [carries_iff]; exact Or.inr ⟨v, h2⟩)
    have hm := mem_of_perm (perm_free (s.engs j.eng) j.id .worker none)
    have hn := nodup_of_perm (perm_free (s.engs j.eng) j.id .worker none) (a1 _) hc
    unfold Where
    simp only [loader_set, made_set, placed_set_eq, dropJob_engs]
    generalize placed { s.engs j.eng with
        holder := none
        freed := (s.engs j.eng).freed ++ [(j.id, .worker)] } = P at hm hn ⊢
    where_step
  case jobPush j v h1 h2 h5 h6 h7 =>
    obtain ⟨a1, a2, a3, a4, a5, a6, a7, a8, a9⟩ := hI
    have h4 := @mem_setJob_iff V R s j { j with pc := .pushed } h1 rfl
    have hc : j.id ∉ placed (s.engs j.eng) := a8 j h1 (by rw [carries_iff]; exact Or.inr ⟨v, h2⟩)
    have hm := mem_of_perm (perm_push (s.engs j.eng) ⟨j.id, v⟩)
    have hn := nodup_of_perm (perm_push (s.engs j.eng) ⟨j.id, v⟩) (a1 _) hc
    unfold Where
    simp only [loader_set, made_set, placed_set_eq, setJob_engs]
    generalize placed { s.engs j.eng with
        cmd := (s.engs j.eng).cmd ++ [⟨j.id, v⟩]
        delivered := (s.engs j.eng).delivered ++ [⟨j.id, v⟩] } = P at hm hn ⊢
    where_step
  case jobRefused j v h1 h2 h5 h6 h7 =>
    obtain ⟨a1, a2, a3, a4, a5, a6, a7, a8, a9⟩ := hI
    have h4 := @mem_setJob_iff V R s j { j with pc := .pushed } h1 rfl
    have hc : j.id ∉ placed (s.engs j.eng) := a8 j h1 (by rw [carries_iff]; exact Or.inr ⟨v, h2⟩)
    have hm := mem_of_perm (perm_free (s.engs j.eng) j.id .worker (s.engs j.eng).holder)
    have hn := nodup_of_perm (perm_free (s.engs j.eng) j.id .worker (s.engs j.eng).holder) (a1 _) hc
    unfold Where
    simp only [loader_set, made_set, placed_set_eq, setJob_engs]
    generalize placed { s.engs j.eng with
        freed := (s.engs j.eng).freed ++ [(j.id, .worker)] } = P at hm hn ⊢
    where_step
  case jobCheckDead j v h1 h2 h5 => exact hI.qset ⟨rfl, rfl, rfl, rfl, rfl⟩ (.refl _)
  case jobDone j h1 h2 h5 =>
    obtain ⟨a1, a2, a3, a4, a5, a6, a7, a8, a9⟩ := hI
    have h4 := @mem_dropJob V R s
    unfold Where
    simp only [loader_set, made_set, placed_set_eq, dropJob_engs]
    have hp : placed { s.engs j.eng with
        holder := none
        loading := false } = placed (s.engs j.eng) := rfl
    rw [hp]
    where_step
  case jobDoneDead j h1 h2 h5 => exact hI.qset ⟨rfl, rfl, rfl, rfl, rfl⟩ (.refl _)
  case call e k h1 h2 =>
    refine hI.qset ⟨rfl, rfl, rfl, rfl, rfl⟩ ?_
    have : slots ((s.engs e).core.callHead k) = slots (s.engs e).core := by cases k <;> rfl
    unfold placed
    simp only [this]
    exact .refl _
  case service e k h1 => exact hI.qset ⟨rfl, rfl, rfl, rfl, rfl⟩ (.refl _)
  case visit e n k d g rest h1 h2 =>
    have h := visit_loads ops (s.engs e) g
    exact hI.qset ⟨h.status, h.loader, h.holder, h.delivered, h.made⟩ (visit_placed ops (s.engs e) h2 _ _)
  case serviced e k d h1 => exact hI.qset ⟨rfl, rfl, rfl, rfl, rfl⟩ (.refl _)
  case body e k d r h1 h2 => exact hI.qset (finish_loads _ _ _ _) (finish_placed (s.engs e) h2)
  case bgBegin e h1 h2 => exact hI.qset ⟨rfl, rfl, rfl, rfl, rfl⟩ (.refl _)
  case bgVisit e n o rest h1 h2 => exact hI.qset ⟨rfl, rfl, rfl, rfl, rfl⟩ (bgVisit_placed (s.engs e) h2 _ _)
  case bgEnd e h1 => exact hI.qset ⟨rfl, rfl, rfl, rfl, rfl⟩ (.refl _)
  case async e rest h1 h2 =>
    exact hI.qset (e0 := e) (x := { s.engs e with notified := (s.engs e).notified ++ [(s.engs e).loading] }) ⟨rfl, rfl, rfl, rfl, rfl⟩ (.refl _)
  case asyncDead e rest h1 h2 => exact hI.qset (e0 := e) (x := { s.engs e with touched := true }) ⟨rfl, rfl, rfl, rfl, rfl⟩ (.refl _)
  case destroy e h1 h2 h3 h4 =>
    obtain ⟨a1, a2, a3, a4, a5, a6, a7, a8, a9⟩ := hI
    have hp := destroy_placed (s.engs e)
    have hm := fun i => hp.mem_iff (a := i)
    have hn := hp.nodup_iff.mpr (a1 e)
    unfold Where
    simp only [loader_set, made_set, placed_set_eq]
    generalize placed { s.engs e with
        status := .dead
        core := {}
        cmd := []
        ntf := []
        freed := (s.engs e).freed ++ (s.engs e).holding.map fun h => (h.id, .destructor) } = P at hm hn ⊢
    where_step

theorem exec_where {ops : ConvOps V} {build : R → ProcSpec → V} {ls : List (Label R)} {s : Sys V R} (h : Exec ops build ls s) : Where s := by
  have : Inv ops s ∧ Where s := by
    refine run_induct (P := fun s => Inv ops s ∧ Where s) (fun s l s' hi hs => ⟨hi.1.step hs, hi.2.step hi.1.ids hi.1.locks hi.1.order hs⟩) h ⟨Inv.start ops, ?_⟩
    exact ⟨fun e => List.nodup_nil, fun e => List.nodup_nil, fun e i h => (by cases h), fun e i r p h => (by cases h), fun e i h => (by cases h),
      fun e i h => (by cases h), fun j h => (by cases h), fun j h => (by cases h), fun j h => (by cases h)⟩
  exact this.2

end Zones.Proofs
