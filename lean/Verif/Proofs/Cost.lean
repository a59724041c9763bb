import Verif.Model.Cost
import Mathlib.Algebra.BigOperators.Group.List.Basic
import Mathlib.Tactic.Abel

/-!
# Counting operations: the counted programs are the programs, and what one step of a sub convolver costs
-/

namespace Zones.Model.Cost

@[simp] theorem add_butterflies (a b : Cost) : (a + b).butterflies = a.butterflies + b.butterflies := rfl
@[simp] theorem add_products (a b : Cost) : (a + b).products = a.products + b.products := rfl
@[simp] theorem add_transforms (a b : Cost) : (a + b).transforms = a.transforms + b.transforms := rfl
@[simp] theorem add_spectra (a b : Cost) : (a + b).spectra = a.spectra + b.spectra := rfl
@[simp] theorem zero_butterflies : (0 : Cost).butterflies = 0 := rfl
@[simp] theorem zero_products : (0 : Cost).products = 0 := rfl
@[simp] theorem zero_transforms : (0 : Cost).transforms = 0 := rfl
@[simp] theorem zero_spectra : (0 : Cost).spectra = 0 := rfl

instance : AddCommMonoid Cost where
  add_assoc a b c := by ext <;> simp [add_assoc]
  zero_add a := by ext <;> simp
  add_zero a := by ext <;> simp
  add_comm a b := by ext <;> simp [add_comm]
  nsmul := nsmulRec

theorem sum_butterflies (l : List Cost) : l.sum.butterflies = (l.map (·.butterflies)).sum := by
  induction l with
  | nil => rfl
  | cons a l ih => simp [ih]

theorem sum_products (l : List Cost) : l.sum.products = (l.map (·.products)).sum := by
  induction l with
  | nil => rfl
  | cons a l ih => simp [ih]

theorem sum_transforms (l : List Cost) : l.sum.transforms = (l.map (·.transforms)).sum := by
  induction l with
  | nil => rfl
  | cons a l ih => simp [ih]

theorem sum_spectra (l : List Cost) : l.sum.spectra = (l.map (·.spectra)).sum := by
  induction l with
  | nil => rfl
  | cons a l ih => simp [ih]

end Zones.Model.Cost

namespace Zones.Proofs
open Zones.Model

variable {α β : Type}

/-- the counted program `m` does what `o` does and costs `c` -/
def Costs (m : Counted α) (o : Option α) (c : Cost) : Prop := ∀ c0, m c0 = o.map fun a => (a, c0 + c)

theorem Costs.free (o : Option α) : Costs (free o) o 0 := fun c0 => by simp [Model.free]

theorem Costs.pure (a : α) : Costs (pure a) (some a) 0 := fun c0 => by
  simp only [Option.map_some, add_zero]; rfl

theorem Costs.none (c : Cost) : Costs (Model.free (none : Option α)) none c := fun c0 => rfl

theorem Costs.congr {m : Counted α} {o : Option α} {c c' : Cost} (h : Costs m o c) (e : c = c') : Costs m o c' := e ▸ h

/-- the cost of an undefined run does not matter -/
theorem Costs.of_some {m : Counted α} {o : Option α} {c c' : Cost} (h : Costs m o c) (e : ∀ a, o = some a → c = c') : Costs m o c' := by
  intro c0
  rw [h c0]
  cases o with
  | none => rfl
  | some a => rw [e a rfl]

theorem Costs.bind {m : Counted α} {o : Option α} {c c' : Cost} {f : α → Counted β} {g : α → Option β} (h : Costs m o c)
    (hf : ∀ a, o = some a → Costs (f a) (g a) c') : Costs (m >>= f) (o.bind g) (c + c') := by
  intro c0
  show (m c0).bind (fun r => f r.1 r.2) = _
  rw [h c0]
  cases o with
  | none => rfl
  | some a =>
    simp only [Option.map_some, Option.bind_some]
    rw [hf a rfl (c0 + c), add_assoc]

theorem Costs.free_bind {o : Option α} {c' : Cost} {f : α → Counted β} {g : α → Option β}
    (hf : ∀ a, o = some a → Costs (f a) (g a) c') : Costs (Model.free o >>= f) (o.bind g) c' :=
  ((Costs.free o).bind hf).congr (zero_add _)

theorem Costs.pay_bind {c c' : Cost} {f : Unit → Counted β} {o : Option β} (hf : Costs (f ()) o c') : Costs (pay c >>= f) o (c + c') := by
  intro c0
  show f () (c0 + c) = _
  rw [hf, add_assoc]

/-- a loop whose iterations cost `w i` as long as `I` holds -/
theorem Costs.foldlM {ι : Type} {I : α → Prop} {fC : α → ι → Counted α} {f : α → ι → Option α} {w : ι → Cost} :
    ∀ (l : List ι) (a : α), I a → (∀ a, I a → ∀ i ∈ l, Costs (fC a i) (f a i) (w i)) → (∀ a, I a → ∀ i ∈ l, ∀ a', f a i = some a' → I a') →
      Costs (l.foldlM fC a) (l.foldlM f a) (l.map w).sum
  | [], a, _, _, _ => Costs.pure a
  | i :: l, a, ha, h, hI => by
    rw [List.foldlM_cons, List.foldlM_cons, List.map_cons, List.sum_cons]
    refine (h a ha i (by simp)).bind fun a' e => Costs.foldlM l a' (hI a ha i (by simp) a' e) (fun a ha i hi => h a ha i (by simp [hi]))
      fun a ha i hi => hI a ha i (by simp [hi])

/-- the same without an invariant -/
theorem Costs.foldlM' {ι : Type} {fC : α → ι → Counted α} {f : α → ι → Option α} {w : ι → Cost} (l : List ι) (a : α)
    (h : ∀ a, ∀ i ∈ l, Costs (fC a i) (f a i) (w i)) : Costs (l.foldlM fC a) (l.foldlM f a) (l.map w).sum :=
  Costs.foldlM (I := fun _ => True) l a trivial (fun a _ => h a) (fun _ _ _ _ _ _ => trivial)

/-! ## Transforms -/

/-- `n` butterflies -/
def bf (n : ℕ) : Cost := ⟨n, 0, 0, 0⟩

theorem bf_zero : bf 0 = 0 := rfl
theorem bf_add (m n : ℕ) : bf m + bf n = bf (m + n) := rfl

theorem sum_bf {ι : Type} (l : List ι) (f : ι → ℕ) : (l.map fun i => bf (f i)).sum = bf (l.map f).sum := by
  induction l with
  | nil => rfl
  | cons a l ih => rw [List.map_cons, List.sum_cons, ih, bf_add, List.map_cons, List.sum_cons]

theorem runLoopC_costs (body : (ℕ → ℂ) → Bfly → (ℕ → ℂ)) (sz : ℕ) (l : List Bfly) (d : ℕ → ℂ) :
    Costs (runLoopC body sz l d) (runLoop body sz l d) (bf l.length) :=
  (Costs.pay_bind (Costs.free _)).congr (add_zero _)

theorem length_flatMap_range {γ : Type} (n m : ℕ) (f : ℕ → ℕ → γ) :
    ((List.range n).flatMap fun i => (List.range m).map (f i)).length = n * m := by
  rw [List.length_flatMap]
  simp

theorem fftBflies_length (base M depth : ℕ) (h : depth < M) : (fftBflies base (2^M) (depth + 1)).length = 2^(M-1) := by
  unfold fftBflies
  simp only
  rw [length_flatMap_range, Nat.pow_div (by omega) (by norm_num), pow_succ, Nat.mul_div_cancel _ (by norm_num), ← pow_add]
  congr 1; omega

theorem segBflies_length (n k st cur : ℕ) : (segBflies n k st cur).length = k * (n / k / 2 / st) := by
  unfold segBflies
  simp only
  rw [length_flatMap_range]

theorem forwardFFT_costs (sz base M : ℕ) (d : ℕ → ℂ) :
    Costs (forwardFFTUnorderedC sz base (2^M) d) (forwardFFTUnordered sz base (2^M) d) (bf (M * 2^(M-1))) := by
  unfold forwardFFTUnorderedC forwardFFTUnordered
  rw [if_neg (by positivity), if_neg (by positivity), Nat.log_pow (by norm_num)]
  refine (Costs.foldlM' (w := fun _ => bf (2^(M-1))) _ d fun a i hi => ?_).congr ?_
  · rw [List.mem_reverse, List.mem_map] at hi
    obtain ⟨j, hj, rfl⟩ := hi
    rw [List.mem_range] at hj
    refine Costs.congr (runLoopC_costs _ _ _ _) ?_
    rw [fftBflies_length _ _ _ hj]
  · rw [sum_bf]; simp [Function.comp_def]

theorem inverseFFT_costs (sz base M : ℕ) (d : ℕ → ℂ) :
    Costs (inverseFFTUnorderedC sz base (2^M) d) (inverseFFTUnordered sz base (2^M) d) (bf (M * 2^(M-1))) := by
  unfold inverseFFTUnorderedC inverseFFTUnordered
  rw [if_neg (by positivity), if_neg (by positivity), Nat.log_pow (by norm_num)]
  refine (Costs.foldlM' (w := fun _ => bf (2^(M-1))) _ d fun a i hi => ?_).congr ?_
  · rw [List.mem_map] at hi
    obtain ⟨j, hj, rfl⟩ := hi
    rw [List.mem_range] at hj
    refine Costs.congr (runLoopC_costs _ _ _ _) ?_
    rw [fftBflies_length _ _ _ hj]
  · rw [sum_bf]; simp [Function.comp_def]

theorem segmentedForward_costs (sz n k st cur : ℕ) (d : ℕ → ℂ) :
    Costs (segmentedForwardC sz n k st cur d) (segmentedForward sz n k st cur d) (bf (k * (n / k / 2 / st))) := by
  unfold segmentedForwardC segmentedForward
  split
  · refine Costs.congr (runLoopC_costs _ _ _ _) ?_
    rw [segBflies_length]
  · exact Costs.none _

theorem segmentedInverse_costs (sz n k st cur : ℕ) (d : ℕ → ℂ) :
    Costs (segmentedInverseC sz n k st cur d) (segmentedInverse sz n k st cur d) (bf (k * (n / k / 2 / st))) := by
  unfold segmentedInverseC segmentedInverse
  split
  · refine Costs.congr (runLoopC_costs _ _ _ _) ?_
    rw [segBflies_length]
  · exact Costs.none _

/-- butterflies of a forward decomposition step, in phase `ph` -/
def splitCost (b p nd ph : ℕ) : ℕ := ((List.range nd).map fun d => if 2^p ≤ ph + 2^p / 2^d then 2^b * 2^d else 0).sum

/-- butterflies of an inverse decomposition step, in phase `ph` -/
def joinCost (b p nd ph : ℕ) : ℕ := ((List.range nd).map fun d => if ph < 2^p / 2^d then 2^b * 2^d else 0).sum

theorem seg_size {b p d : ℕ} (hd : d ≤ p) : 2^d * (2^(b+p+1) / 2^d / 2 / (2^p / 2^d)) = 2^b * 2^d := by
  obtain ⟨q, rfl⟩ : ∃ q, p = q + d := ⟨p - d, by omega⟩
  rw [Nat.pow_div (m := b + (q+d) + 1) (by omega) (by norm_num), Nat.pow_div (m := q + d) (by omega) (by norm_num),
    show b + (q+d) + 1 - d = b + q + 1 by omega, pow_succ, Nat.mul_div_cancel _ (by norm_num), show q + d - d = q by omega,
    pow_add, Nat.mul_div_cancel _ (by positivity), mul_comm]

theorem forwardSchedule_costs (sz b p nd ph : ℕ) (hnd : nd ≤ p + 1) (d : ℕ → ℂ) :
    Costs (forwardScheduleC sz nd (2^(b+p+1)) (2^p) d ph) (forwardSchedule sz nd (2^(b+p+1)) (2^p) d ph) (bf (splitCost b p nd ph)) := by
  unfold forwardScheduleC forwardSchedule splitCost
  rw [← sum_bf]
  refine Costs.foldlM' _ d fun a i hi => ?_
  rw [List.mem_range] at hi
  simp only
  have hle : 2^p / 2^i ≤ 2^p := Nat.div_le_self ..
  by_cases h : ph ≥ 2^p - 2^p / 2^i
  · have h' : 2^p ≤ ph + 2^p / 2^i := by generalize 2^p / 2^i = q at *; omega
    rw [if_pos h, if_pos h, if_pos h']
    split
    · exact Costs.none _
    · refine Costs.congr (segmentedForward_costs _ _ _ _ _ _) ?_
      rw [seg_size (by omega)]
  · have h' : ¬ 2^p ≤ ph + 2^p / 2^i := by generalize 2^p / 2^i = q at *; omega
    rw [if_neg h, if_neg h, if_neg h']
    exact Costs.pure a

theorem inverseSchedule_costs (sz b p nd ph : ℕ) (hnd : nd ≤ p + 1) (d : ℕ → ℂ) :
    Costs (inverseScheduleC sz nd (2^(b+p+1)) (2^p) d ph) (inverseSchedule sz nd (2^(b+p+1)) (2^p) d ph) (bf (joinCost b p nd ph)) := by
  unfold inverseScheduleC inverseSchedule joinCost
  rw [← sum_bf]
  refine (Costs.foldlM' (w := fun d => bf (if ph < 2^p / 2^d then 2^b * 2^d else 0)) _ d fun a i hi => ?_).congr ?_
  · rw [List.mem_reverse, List.mem_range] at hi
    simp only
    by_cases h : ph < 2^p / 2^i
    · rw [if_pos h, if_pos h, if_pos h]
      refine Costs.congr (segmentedInverse_costs _ _ _ _ _ _) ?_
      rw [seg_size (by omega)]
    · rw [if_neg h, if_neg h, if_neg h]
      exact Costs.pure a
  · rw [List.map_reverse, List.sum_reverse]

/-! ## One sub convolver of one channel -/

/-- the parts of the state the cost depends on -/
structure TdShape (b p K nd off ph : ℕ) (s : TDUPC) : Prop where
  points : s.fftPoints = 2^(b+p+1)
  phases : s.numPhases = 2^p
  phase : s.phase = ph
  depth : s.nd = nd
  parts : s.numPartitions = K
  offset : s.transformOffset = off

variable {b p K nd off ph : ℕ} {s s' : TDUPC}

/-- cost of the work on the pieces -/
def pieceCost (b p K nd off ph : ℕ) : Cost :=
  if off ≤ ph ∧ ph < off + 2^nd * 2 then ⟨(b+p+1-nd) * 2^(b+p-nd), K * 2^(b+p-nd), 0, 0⟩ else 0

/-- cost of one step -/
def tdCost (b p K nd off ph : ℕ) : Cost := bf (splitCost b p nd ph) + (pieceCost b p K nd off ph + bf (joinCost b p nd ph))

theorem begin_shape (h : TdShape b p K nd off ph s) (e : s.begin = some s') : TdShape b p K nd off ph s' := by
  unfold TDUPC.begin at e
  split at e
  · simp only [bind, Option.bind_eq_some_iff, pure, Option.some.injEq] at e
    obtain ⟨_, _, _, _, rfl⟩ := e
    exact ⟨h.1, h.2, h.3, h.4, h.5, h.6⟩
  · cases e; exact h

theorem fill_shape {bs : ℕ} {inp : ℕ → ℝ} (h : TdShape b p K nd off ph s) (e : s.fill bs inp = some s') : TdShape b p K nd off ph s' := by
  unfold TDUPC.fill at e
  simp only [bind, Option.bind_eq_some_iff, pure] at e
  obtain ⟨_, _, e⟩ := e
  split at e
  · cases e; exact ⟨h.1, h.2, h.3, h.4, h.5, h.6⟩
  · cases e

theorem forward_shape (h : TdShape b p K nd off ph s) (e : s.forward = some s') : TdShape b p K nd off ph s' := by
  unfold TDUPC.forward at e
  simp only [bind, Option.bind_eq_some_iff, pure, Option.some.injEq] at e
  obtain ⟨_, _, _, _, rfl⟩ := e
  exact ⟨h.1, h.2, h.3, h.4, h.5, h.6⟩

theorem inverse_shape (h : TdShape b p K nd off ph s) (e : s.inverse = some s') : TdShape b p K nd off ph s' := by
  unfold TDUPC.inverse at e
  simp only [bind, Option.bind_eq_some_iff, pure, Option.some.injEq] at e
  obtain ⟨_, _, _, _, rfl⟩ := e
  exact ⟨h.1, h.2, h.3, h.4, h.5, h.6⟩

theorem subForward_shape {o z : ℕ} (h : TdShape b p K nd off ph s) (e : s.subForward o z = some s') : TdShape b p K nd off ph s' := by
  unfold TDUPC.subForward at e
  simp only [bind, Option.bind_eq_some_iff, pure] at e
  obtain ⟨_, _, _, _, _, _, _, _, e⟩ := e
  split at e
  · cases e; exact ⟨h.1, h.2, h.3, h.4, h.5, h.6⟩
  · cases e

theorem accumulate_shape {o z : ℕ} (h : TdShape b p K nd off ph s) (e : s.accumulate o z = some s') : TdShape b p K nd off ph s' := by
  unfold TDUPC.accumulate at e
  simp only [bind, Option.bind_eq_some_iff, pure, Option.some.injEq] at e
  obtain ⟨_, _, _, _, rfl⟩ := e
  exact ⟨h.1, h.2, h.3, h.4, h.5, h.6⟩

theorem subInverse_shape {o z : ℕ} (h : TdShape b p K nd off ph s) (e : s.subInverse o z = some s') : TdShape b p K nd off ph s' := by
  unfold TDUPC.subInverse at e
  simp only [bind, Option.bind_eq_some_iff, pure, Option.some.injEq] at e
  obtain ⟨_, _, _, _, rfl⟩ := e
  exact ⟨h.1, h.2, h.3, h.4, h.5, h.6⟩

theorem transform_shape (h : TdShape b p K nd off ph s) (e : s.transform = some s') : TdShape b p K nd off ph s' := by
  unfold TDUPC.transform at e
  simp only at e
  split at e
  · simp only [bind, Option.bind_eq_some_iff] at e
    obtain ⟨s1, e1, s2, e2, e3⟩ := e
    have h1 : TdShape b p K nd off ph s1 := by
      split at e1
      · exact subForward_shape h e1
      · cases e1; exact h
    have h2 := accumulate_shape h1 e2
    split at e3
    · exact subInverse_shape h2 e3
    · cases e3; exact h2
  · cases e; exact h

theorem output_shape {bs : ℕ} {r : TDUPC × (ℕ → ℝ)} (h : TdShape b p K nd off ph s) (e : s.output bs = some r) :
    TdShape b p K nd off ((ph + 1) % 2^p) r.1 := by
  unfold TDUPC.output at e
  simp only [bind, Option.bind_eq_some_iff, pure] at e
  obtain ⟨_, _, e⟩ := e
  split at e
  · cases e; exact ⟨h.1, h.2, by show (s.phase + 1) % s.numPhases = _; rw [h.3, h.2], h.4, h.5, h.6⟩
  · cases e

theorem process_shape {bs : ℕ} {inp : ℕ → ℝ} {r : TDUPC × (ℕ → ℝ)} (h : TdShape b p K nd off ph s) (e : s.process bs inp = some r) :
    TdShape b p K nd off ((ph + 1) % 2^p) r.1 := by
  unfold TDUPC.process at e
  simp only [bind, Option.bind_eq_some_iff] at e
  obtain ⟨s1, e1, s2, e2, s3, e3, s4, e4, s5, e5, e6⟩ := e
  exact output_shape (inverse_shape (transform_shape (forward_shape (fill_shape (begin_shape h e1) e2) e3) e4) e5) e6

theorem reset_shape (h : TdShape b p K nd off ph s) : TdShape b p K nd off ph s.reset := ⟨h.1, h.2, h.3, h.4, h.5, h.6⟩

theorem forwardC_costs (h : TdShape b p K nd off ph s) (hnd : nd ≤ p + 1) : Costs s.forwardC s.forward (bf (splitCost b p nd ph)) := by
  unfold TDUPC.forwardC TDUPC.forward
  refine Costs.free_bind fun d _ => ?_
  rw [h.1, h.2, h.3, h.4]
  exact ((forwardSchedule_costs _ b p nd ph hnd d).bind fun _ _ => Costs.pure _).congr (add_zero _)

theorem inverseC_costs (h : TdShape b p K nd off ph s) (hnd : nd ≤ p + 1) : Costs s.inverseC s.inverse (bf (joinCost b p nd ph)) := by
  unfold TDUPC.inverseC TDUPC.inverse
  refine Costs.free_bind fun d _ => ?_
  rw [h.1, h.2, h.3, h.4]
  exact ((inverseSchedule_costs _ b p nd ph hnd d).bind fun _ _ => Costs.pure _).congr (add_zero _)

theorem subForwardC_costs (o M : ℕ) (s : TDUPC) : Costs (s.subForwardC o (2^M)) (s.subForward o (2^M)) (bf (M * 2^(M-1))) := by
  unfold TDUPC.subForwardC TDUPC.subForward
  refine Costs.free_bind fun d _ => ?_
  refine ((forwardFFT_costs _ _ M d).bind fun d _ => ?_).congr (add_zero _)
  refine Costs.free_bind fun f _ => Costs.free_bind fun fd _ => ?_
  split
  · exact Costs.pure _
  · exact Costs.none _

theorem subInverseC_costs (w M : ℕ) (s : TDUPC) : Costs (s.subInverseC w (2^M)) (s.subInverse w (2^M)) (bf (M * 2^(M-1))) := by
  unfold TDUPC.subInverseC TDUPC.subInverse
  refine Costs.free_bind fun d _ => ?_
  exact ((inverseFFT_costs _ _ M d).bind fun _ _ => Costs.pure _).congr (add_zero _)

theorem sum_products_const (n k : ℕ) : ((List.range n).map fun _ => (⟨0, k, 0, 0⟩ : Cost)).sum = ⟨0, n * k, 0, 0⟩ := by
  induction n with
  | zero => simp; rfl
  | succ n ih =>
    rw [List.range_succ, List.map_append, List.sum_append, ih]
    ext <;> simp <;> ring

theorem accumulateC_costs (h : TdShape b p K nd off ph s) (o k : ℕ) : Costs (s.accumulateC o k) (s.accumulate o k) ⟨0, K * k, 0, 0⟩ := by
  unfold TDUPC.accumulateC TDUPC.accumulate
  refine Costs.free_bind fun d _ => ?_
  rw [h.5]
  refine ((Costs.foldlM' (w := fun _ => ⟨0, k, 0, 0⟩) _ d fun a i _ => ?_).bind fun _ _ => Costs.pure _).congr ?_
  · exact (Costs.pay_bind (Costs.free _)).congr (add_zero _)
  · rw [add_zero, sum_products_const]

theorem transformC_costs (h : TdShape b p K nd off ph s) (hnd : nd ≤ b + p) : Costs s.transformC s.transform (pieceCost b p K nd off ph) := by
  unfold TDUPC.transformC TDUPC.transform pieceCost
  simp only
  rw [h.1, h.3, h.4, h.6, Nat.pow_div (by omega) (by norm_num)]
  by_cases hc : ph ≥ off ∧ ph < off + 2^nd * 2
  · rw [if_pos hc, if_pos hc, if_pos hc]
    have hhalf : 2^(b+p+1-nd) / 2 = 2^(b+p-nd) := by
      rw [show b + p + 1 - nd = b + p - nd + 1 by omega, pow_succ, Nat.mul_div_cancel _ (by norm_num)]
    have hM : b + p + 1 - nd - 1 = b + p - nd := by omega
    by_cases h2 : (ph - off) % 2 = 0
    · rw [if_pos h2, if_pos h2]
      refine ((subForwardC_costs _ _ s).bind fun s1 e1 => ((accumulateC_costs (subForward_shape h e1) _ _).bind (c' := 0) fun s2 _ => ?_)).congr ?_
      · rw [if_neg (by omega), if_neg (by omega)]; exact Costs.pure _
      · rw [hhalf, hM]; ext <;> simp [bf]
    · rw [if_neg h2, if_neg h2]
      refine ((Costs.pure s).bind fun s1 e1 => ((accumulateC_costs (s := s1) (by cases e1; exact h) _ _).bind
        (c' := bf ((b+p+1-nd) * 2^(b+p+1-nd-1))) fun s2 _ => ?_)).congr ?_
      · rw [if_pos h2, if_pos h2]; exact subInverseC_costs _ _ _
      · rw [hhalf, hM]; ext <;> simp [bf]
  · rw [if_neg hc, if_neg hc, if_neg hc]
    exact Costs.pure s

theorem tdProcess_costs (h : TdShape b p K nd off ph s) (hnd : nd ≤ p) (bs : ℕ) (inp : ℕ → ℝ) :
    Costs (s.processC bs inp) (s.process bs inp) (tdCost b p K nd off ph) := by
  unfold TDUPC.processC TDUPC.process tdCost
  refine Costs.free_bind fun s1 e1 => Costs.free_bind fun s2 e2 => ?_
  have h2 := fill_shape (begin_shape h e1) e2
  refine (forwardC_costs h2 (by omega)).bind fun s3 e3 => ?_
  have h3 := forward_shape h2 e3
  refine (transformC_costs h3 (by omega)).bind fun s4 e4 => ?_
  have h4 := transform_shape h3 e4
  exact ((inverseC_costs h4 (by omega)).bind fun s5 _ => Costs.free _).congr (add_zero _)

end Zones.Proofs
