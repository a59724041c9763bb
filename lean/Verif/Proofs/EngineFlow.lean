import Verif.Proofs.EngineSys

/-! What the audio side of one engine does in the concurrent system. -/

open Zones.Model Zones.Spec

namespace Zones.Proofs

variable {V R : Type}

set_option linter.unusedSimpArgs false
set_option linter.unusedVariables false

/-! ## The notification queue -/

/-- How many commands still fit. -/
def ntfRoom (x : Eng V R) : ℕ := queueRoom - (x.ntf.length + x.ntfTaken)

/-- What pushing several commands amounts to: the first ones enter the queue, the rest keep their convolver. -/
theorem notifyAll_eq (x : Eng V R) (os : List (Option (Held V))) :
    x.notifyAll os = { x with
      ntf := x.ntf ++ os.take (ntfRoom x)
      freed := x.freed ++ ((os.drop (ntfRoom x)).flatMap Option.toList).map fun h => (h.id, Site.audio) } := by
  induction os generalizing x with
  | nil =>
    show x = _
    simp
  | cons o os ih =>
    show (x.notify o).notifyAll os = _
    rw [ih]
    by_cases h : x.ntf.length + x.ntfTaken < queueRoom
    · have e : x.notify o = { x with ntf := x.ntf ++ [o] } := by unfold Eng.notify; rw [if_pos h]
      have e2 : ntfRoom x = ntfRoom (x.notify o) + 1 := by
        rw [e]; unfold ntfRoom; simp only [List.length_append, List.length_singleton]; omega
      rw [e2, e]
      simp
    · have e : x.notify o = { x with freed := x.freed ++ o.toList.map fun h => (h.id, Site.audio) } := by unfold Eng.notify; rw [if_neg h]
      have e2 : ntfRoom x = 0 := by unfold ntfRoom; omega
      have e3 : ntfRoom (x.notify o) = 0 := by rw [e]; unfold ntfRoom; simp only; omega
      rw [e2, e3, e]
      simp

/-! ## Audio-side calls in progress -/

/-- The call in progress. -/
def APc.calling : APc V → Option Call
  | .idle => none
  | .entered k => some k
  | .serving k _ _ => some k
  | .served k _ => some k

/-- The commands it has visited. -/
def APc.visited : APc V → List (Held V)
  | .idle => []
  | .entered _ => []
  | .serving _ d _ => d
  | .served _ d => d

/-- The slots are what the completed calls and the part of the current call make of them. -/
def Refines (ops : ConvOps V) (x : Eng V R) : Prop :=
  ∃ c0, ({} : Core V).calls ops x.hist = some c0 ∧
    match x.pc with
    | .idle => x.core = c0
    | .entered k => x.core = c0.callHead k
    | .serving k d _ => x.core = (c0.callHead k).service ops d
    | .served k d => x.core = (c0.callHead k).service ops d

structure Flow (ops : ConvOps V) (x : Eng V R) : Prop where
  cmdFits : x.cmd.length + x.cmdTaken ≤ queueRoom
  ntfFits : x.ntf.length + x.ntfTaken ≤ queueRoom
  serving : ∀ k d n, x.pc = .serving k d n → n ≤ x.cmd.length
  taken : x.cmdTaken = match x.pc with
    | .serving _ d _ => d.length
    | _ => 0
  bg : ∀ n, x.bg = some n → n ≤ x.ntf.length
  bgTaken : x.bg = none → x.ntfTaken = 0
  alive : x.pc ≠ .idle → x.status = .alive
  bgAlive : x.bg ≠ none → x.status = .alive
  refines : x.status ≠ .dead → Refines ops x
  flow : x.status ≠ .dead → x.hist.flatMap Prod.fst ++ APc.visited x.pc ++ x.cmd = x.delivered

theorem calls_snoc {ops : ConvOps V} (c : Core V) (hist : List (List (Held V) × Call)) (b : List (Held V) × Call) :
    c.calls ops (hist ++ [b]) = (c.calls ops hist).bind fun c' => (c'.call ops b.1 b.2).map Prod.fst := by
  induction hist generalizing c with
  | nil =>
    show (c.call ops b.1 b.2).bind (fun r => r.1.calls ops []) = (c.call ops b.1 b.2).map Prod.fst
    cases c.call ops b.1 b.2 <;> rfl
  | cons a hist ih =>
    show (c.call ops a.1 a.2).bind (fun r => r.1.calls ops (hist ++ [b])) = ((c.call ops a.1 a.2).bind (fun r => r.1.calls ops hist)).bind _
    cases c.call ops a.1 a.2 with
    | none => rfl
    | some r => exact ih r.1

theorem service_snoc {ops : ConvOps V} (c : Core V) (d : List (Held V)) (g : Held V) :
    c.service ops (d ++ [g]) = ((c.service ops d).handle ops g).1 := by
  unfold Core.service
  rw [List.foldl_append]
  rfl

theorem Flow.born (ops : ConvOps V) : Flow ops ({} : Eng V R) where
  cmdFits := Nat.zero_le _
  ntfFits := Nat.zero_le _
  serving := fun k d n h => by cases h
  taken := rfl
  bg := fun n h => by cases h
  bgTaken := fun _ => rfl
  alive := fun h => absurd rfl h
  bgAlive := fun h => absurd rfl h
  refines := fun _ => ⟨{}, rfl, rfl⟩
  flow := fun _ => rfl

theorem setEng_all {P : Eng V R → Prop} {s : Sys V R} (h : ∀ e, P (s.engs e)) {e0 : ℕ} {x : Eng V R} (hx : P x) : ∀ e, P ((s.setEng e0 x).engs e) := by
  intro e
  rw [setEng_engs]
  split_ifs
  · exact hx
  · exact h e

theorem visit_eq (ops : ConvOps V) (x : Eng V R) (g : Held V) : x.visit ops g = { x with
      core := (x.core.handle ops g).1
      ntf := x.ntf ++ (x.core.handle ops g).2.take (ntfRoom x)
      freed := x.freed ++ (((x.core.handle ops g).2.drop (ntfRoom x)).flatMap Option.toList).map fun h => (h.id, Site.audio) } := by
  unfold Eng.visit
  rw [notifyAll_eq]
  rfl

theorem finish_eq (x : Eng V R) (d : List (Held V)) (k : Call) (r : Core V × Core.Effects V) : x.finish d k r = { x with
      core := r.1
      pc := .idle
      hist := x.hist ++ [(d, k)]
      outs := x.outs ++ r.2.out.toList
      ntf := x.ntf ++ r.2.pushed.take (ntfRoom x)
      freed := x.freed ++ ((r.2.pushed.drop (ntfRoom x)).flatMap Option.toList).map (fun h => (h.id, Site.audio)) ++
        r.2.destroyed.map fun h => (h.id, Site.audio) } := by
  unfold Eng.finish
  simp only [notifyAll_eq]
  rfl

theorem room_take {x : Eng V R} (h : x.ntf.length + x.ntfTaken ≤ queueRoom) (os : List (Option (Held V))) :
    (x.ntf ++ os.take (ntfRoom x)).length + x.ntfTaken ≤ queueRoom := by
  rw [List.length_append, List.length_take]
  have : min (ntfRoom x) os.length ≤ ntfRoom x := min_le_left _ _
  unfold ntfRoom at *
  omega

theorem Flow.step {ops : ConvOps V} {build : R → ProcSpec → V} {s s' : Sys V R} {l : Label R} (hI : ∀ e, Flow ops (s.engs e)) (h : Step ops build s l s') :
    ∀ e, Flow ops (s'.engs e) := by
  cases h
  case create e h1 =>
    refine setEng_all hI ?_
    have h := hI e
    exact ⟨h.1, h.2, h.3, h.4, h.5, h.6, fun _ => rfl, fun _ => rfl, fun _ => h.refines (by rw [h1]; simp), fun _ => h.flow (by rw [h1]; simp)⟩
  case loadLock e req h1 h2 =>
    have h := hI e
    exact setEng_all hI ⟨h.1, h.2, h.3, h.4, h.5, h.6, h.7, h.8, h.9, h.10⟩
  case loadRemove e i req h1 =>
    have h := hI e
    exact setEng_all hI ⟨h.1, h.2, h.3, h.4, h.5, h.6, h.7, h.8, h.9, h.10⟩
  case loadFlag e i req h1 h2 =>
    have h := hI e
    exact setEng_all hI ⟨h.1, h.2, h.3, h.4, h.5, h.6, h.7, h.8, h.9, h.10⟩
  case loadSkip e i req h1 h2 =>
    have h := hI e
    exact setEng_all hI ⟨h.1, h.2, h.3, h.4, h.5, h.6, h.7, h.8, h.9, h.10⟩
  case loadAdd e i req p h1 h2 =>
    have h := hI e
    exact setEng_all hI ⟨h.1, h.2, h.3, h.4, h.5, h.6, h.7, h.8, h.9, h.10⟩
  case pick j h1 => exact hI
  case build j h1 h2 =>
    have h := hI j.eng
    exact setEng_all hI ⟨h.1, h.2, h.3, h.4, h.5, h.6, h.7, h.8, h.9, h.10⟩
  case jobLock j v h1 h2 h5 h6 =>
    have h := hI j.eng
    exact setEng_all hI ⟨h.1, h.2, h.3, h.4, h.5, h.6, h.7, h.8, h.9, h.10⟩
  case jobLockDead j v h1 h2 h5 =>
    have h := hI j.eng
    exact setEng_all hI ⟨h.1, h.2, h.3, h.4, h.5, h.6, h.7, h.8, h.9, h.10⟩
  case jobStop j v h1 h2 h5 h6 =>
    have h := hI j.eng
    exact setEng_all hI ⟨h.1, h.2, h.3, h.4, h.5, h.6, h.7, h.8, h.9, h.10⟩
  case jobPush j v h1 h2 h5 h6 h7 =>
    have h := hI j.eng
    refine setEng_all hI ⟨?_, h.2, fun k d n hc => ?_, h.4, h.5, h.6, h.7, h.8, h.9, fun hd => ?_⟩
    · simp only [List.length_append, List.length_singleton]; omega
    · have := h.3 k d n hc
      simp only [List.length_append, List.length_singleton]; omega
    · have := h.10 hd
      simp only [← this, List.append_assoc]
  case jobRefused j v h1 h2 h5 h6 h7 =>
    have h := hI j.eng
    exact setEng_all hI ⟨h.1, h.2, h.3, h.4, h.5, h.6, h.7, h.8, h.9, h.10⟩
  case jobCheckDead j v h1 h2 h5 =>
    have h := hI j.eng
    exact setEng_all hI ⟨h.1, h.2, h.3, h.4, h.5, h.6, h.7, h.8, h.9, h.10⟩
  case jobDone j h1 h2 h5 =>
    have h := hI j.eng
    exact setEng_all hI ⟨h.1, h.2, h.3, h.4, h.5, h.6, h.7, h.8, h.9, h.10⟩
  case jobDoneDead j h1 h2 h5 =>
    have h := hI j.eng
    exact setEng_all hI ⟨h.1, h.2, h.3, h.4, h.5, h.6, h.7, h.8, h.9, h.10⟩
  case call e k h1 h2 =>
    have h := hI e
    refine setEng_all hI ⟨h.1, h.2, fun k d n hc => (by cases hc), ?_, h.5, h.6, fun _ => h1, h.8, fun hd => ?_, fun hd => ?_⟩
    · have := h.4
      rw [h2] at this
      exact this
    · obtain ⟨c0, e1, e2⟩ := h.9 hd
      rw [h2] at e2
      exact ⟨c0, e1, by show Core.callHead _ k = _; rw [e2]⟩
    · have := h.10 hd
      rw [h2] at this
      exact this
  case service e k h1 =>
    have h := hI e
    refine setEng_all hI ⟨h.1, h.2, fun k d n hc => (by cases hc; exact le_rfl), ?_, h.5, h.6, fun _ => h.7 (by rw [h1]; simp), h.8, fun hd => ?_, fun hd => ?_⟩
    · have := h.4
      rw [h1] at this
      exact this
    · obtain ⟨c0, e1, e2⟩ := h.9 hd
      rw [h1] at e2
      exact ⟨c0, e1, e2⟩
    · have := h.10 hd
      rw [h1] at this
      exact this
  case visit e n k d g rest h1 h2 =>
    have h := hI e
    have hlen : (s.engs e).cmd.length = rest.length + 1 := by rw [h2]; rfl
    rw [visit_eq]
    refine setEng_all hI ⟨?_, room_take h.2 _, fun k' d' n' hc => ?_, ?_, fun n' hb => ?_, h.6, fun _ => h.7 (by rw [h1]; simp), h.8, fun hd => ?_, fun hd => ?_⟩
    · have := h.1
      simp only; omega
    · cases hc
      have := h.3 _ _ _ h1
      simp only; omega
    · have := h.4
      rw [h1] at this
      simp only [List.length_append, List.length_singleton] at this ⊢
      omega
    · have := h.5 n' hb
      simp only [List.length_append]; omega
    · obtain ⟨c0, e1, e2⟩ := h.9 hd
      rw [h1] at e2
      refine ⟨c0, e1, ?_⟩
      show ((s.engs e).core.handle ops g).1 = _
      rw [service_snoc, e2]
    · have := h.10 hd
      rw [h1, h2] at this
      simp only [APc.visited, ← this, List.append_assoc, List.singleton_append]
  case serviced e k d h1 =>
    have h := hI e
    refine setEng_all hI ⟨?_, h.2, fun k d n hc => (by cases hc), rfl, h.5, h.6, fun _ => h.7 (by rw [h1]; simp), h.8, fun hd => ?_, fun hd => ?_⟩
    · have := h.1
      simp only; omega
    · obtain ⟨c0, e1, e2⟩ := h.9 hd
      rw [h1] at e2
      exact ⟨c0, e1, e2⟩
    · have := h.10 hd
      rw [h1] at this
      exact this
  case body e k d r h1 h2 =>
    have h := hI e
    rw [finish_eq]
    refine setEng_all hI ⟨h.1, room_take h.2 _, fun k d n hc => (by cases hc), ?_, fun n' hb => ?_, h.6, fun hc => absurd rfl hc, h.8, fun hd => ?_, fun hd => ?_⟩
    · have := h.4
      rw [h1] at this
      exact this
    · have := h.5 n' hb
      simp only [List.length_append]; omega
    · obtain ⟨c0, e1, e2⟩ := h.9 hd
      rw [h1] at e2
      refine ⟨r.1, ?_, rfl⟩
      show Core.calls ops {} ((s.engs e).hist ++ [(d, k)]) = _
      rw [calls_snoc, e1]
      show Option.map Prod.fst (((c0.callHead k).service ops d).callBody ops k) = _
      rw [← e2, h2]
      rfl
    · have := h.10 hd
      rw [h1] at this
      simp only [APc.visited, List.flatMap_append, List.flatMap_cons, List.flatMap_nil, List.append_nil] at this ⊢
      exact this
  case bgBegin e h1 h2 =>
    have h := hI e
    exact setEng_all hI ⟨h.1, h.2, h.3, h.4, fun n hb => (by cases hb; exact le_rfl), fun hb => (by cases hb), h.7, fun _ => h1, h.9, h.10⟩
  case bgVisit e n o rest h1 h2 =>
    have h := hI e
    have hlen : (s.engs e).ntf.length = rest.length + 1 := by rw [h2]; rfl
    refine setEng_all hI ⟨h.1, ?_, h.3, h.4, fun n' hb => ?_, fun hb => (by cases hb), h.7, fun _ => h.8 (by rw [h1]; simp), h.9, h.10⟩
    · have := h.2
      simp only; omega
    · cases hb
      have := h.5 _ h1
      simp only; omega
  case bgEnd e h1 =>
    have h := hI e
    refine setEng_all hI ⟨h.1, ?_, h.3, h.4, fun n hb => (by cases hb), fun _ => rfl, h.7, fun hc => absurd rfl hc, h.9, h.10⟩
    have := h.2
    simp only; omega
  case async e rest h1 h2 =>
    have h := hI e
    exact setEng_all hI ⟨h.1, h.2, h.3, h.4, h.5, h.6, h.7, h.8, h.9, h.10⟩
  case asyncDead e rest h1 h2 =>
    have h := hI e
    exact setEng_all hI ⟨h.1, h.2, h.3, h.4, h.5, h.6, h.7, h.8, h.9, h.10⟩
  case destroy e h1 h2 h3 h4 =>
    have h := hI e
    refine setEng_all hI ⟨?_, ?_, fun k d n hc => ?_, h.4, fun n hb => ?_, h.6, fun hc => absurd h2 hc, fun hc => absurd h4 hc, fun hd => absurd rfl hd, fun hd => absurd rfl hd⟩
    · have := h.1
      simp only [List.length_nil]; omega
    · have := h.2
      simp only [List.length_nil]; omega
    · rw [h2] at hc; cases hc
    · rw [h4] at hb; cases hb

end Zones.Proofs
