import Verif.Proofs.Cost

/-!
# The counting programs are the programs

Whatever state they are run in: without the counters a counting program is the program it counts.
-/

namespace Zones.Proofs
open Zones.Model

variable {α β σ ι : Type}

/-- Without its counters `m` is `o`. -/
def Same (m : Counted α) (o : Option α) : Prop := ∀ κ, (m κ).map Prod.fst = o

theorem Same.free (o : Option α) : Same (free o) o := fun κ => by
  show (o.map _).map _ = o
  rw [Option.map_map]
  cases o <;> rfl

theorem Same.pure (a : α) : Same (pure a) (some a) := fun _ => rfl

theorem Same.bind {m : Counted α} {o : Option α} {f : α → Counted β} {g : α → Option β} (h : Same m o) (hf : ∀ a, Same (f a) (g a)) : Same (m >>= f) (o.bind g) := by
  intro κ
  show ((m κ).bind fun r => f r.1 r.2).map Prod.fst = _
  rw [← h κ]
  cases m κ with
  | none => rfl
  | some r => exact hf r.1 r.2

theorem Same.pay {c : Cost} {m : Counted α} {o : Option α} (h : Same m o) : Same (pay c >>= fun _ => m) o := fun κ => h _

theorem Same.ite {p : Prop} [Decidable p] {m m' : Counted α} {o o' : Option α} (h : Same m o) (h' : Same m' o') : Same (if p then m else m') (if p then o else o') := by
  by_cases hp : p
  · rw [if_pos hp, if_pos hp]; exact h
  · rw [if_neg hp, if_neg hp]; exact h'

theorem Same.foldlM {f : σ → ι → Counted σ} {g : σ → ι → Option σ} (h : ∀ s i, Same (f s i) (g s i)) : ∀ (l : List ι) (s : σ), Same (l.foldlM f s) (l.foldlM g s)
  | [], s => Same.pure s
  | i :: l, s => by
    rw [List.foldlM_cons, List.foldlM_cons]
    exact (h s i).bind fun s' => foldlM h l s'

theorem runLoop_same (body : (ℕ → ℂ) → Bfly → (ℕ → ℂ)) (sz : ℕ) (l : List Bfly) (d : ℕ → ℂ) : Same (runLoopC body sz l d) (runLoop body sz l d) := (Same.free _).pay

theorem forwardFFT_same (sz base n : ℕ) (d : ℕ → ℂ) : Same (forwardFFTUnorderedC sz base n d) (forwardFFTUnordered sz base n d) :=
  (Same.free none).ite (Same.foldlM (fun _ _ => runLoop_same _ _ _ _) _ _)

theorem inverseFFT_same (sz base n : ℕ) (d : ℕ → ℂ) : Same (inverseFFTUnorderedC sz base n d) (inverseFFTUnordered sz base n d) :=
  (Same.free none).ite (Same.foldlM (fun _ _ => runLoop_same _ _ _ _) _ _)

theorem segmentedForward_same (sz n m k j : ℕ) (d : ℕ → ℂ) : Same (segmentedForwardC sz n m k j d) (segmentedForward sz n m k j d) :=
  (runLoop_same _ _ _ _).ite (Same.free none)

theorem segmentedInverse_same (sz n m k j : ℕ) (d : ℕ → ℂ) : Same (segmentedInverseC sz n m k j d) (segmentedInverse sz n m k j d) :=
  (runLoop_same _ _ _ _).ite (Same.free none)

theorem forwardSchedule_same (sz nd n nb : ℕ) (d : ℕ → ℂ) (ph : ℕ) : Same (forwardScheduleC sz nd n nb d ph) (forwardSchedule sz nd n nb d ph) :=
  Same.foldlM (fun d _ => ((Same.free none).ite (segmentedForward_same _ _ _ _ _ _)).ite (Same.pure d)) _ _

theorem inverseSchedule_same (sz nd n nb : ℕ) (d : ℕ → ℂ) (ph : ℕ) : Same (inverseScheduleC sz nd n nb d ph) (inverseSchedule sz nd n nb d ph) :=
  Same.foldlM (fun d _ => (segmentedInverse_same _ _ _ _ _ _).ite (Same.pure d)) _ _

theorem td_forward_same (s : TDUPC) : Same s.forwardC s.forward :=
  (Same.free _).bind fun _ => (forwardSchedule_same _ _ _ _ _ _).bind fun _ => Same.pure _

theorem td_subForward_same (s : TDUPC) (o k : ℕ) : Same (s.subForwardC o k) (s.subForward o k) :=
  (Same.free _).bind fun _ => (forwardFFT_same _ _ _ _).bind fun _ => (Same.free _).bind fun _ => (Same.free _).bind fun _ => (Same.pure _).ite (Same.free none)

theorem td_accumulate_same (s : TDUPC) (o k : ℕ) : Same (s.accumulateC o k) (s.accumulate o k) :=
  (Same.free _).bind fun _ => (Same.foldlM (fun _ _ => (Same.free _).pay) _ _).bind fun _ => Same.pure _

theorem td_subInverse_same (s : TDUPC) (o k : ℕ) : Same (s.subInverseC o k) (s.subInverse o k) :=
  (Same.free _).bind fun _ => (inverseFFT_same _ _ _ _).bind fun _ => Same.pure _

theorem td_transform_same (s : TDUPC) : Same s.transformC s.transform :=
  Same.ite (((td_subForward_same _ _ _).ite (Same.pure _)).bind fun _ => (td_accumulate_same _ _ _).bind fun _ => (td_subInverse_same _ _ _).ite (Same.pure _)) (Same.pure _)

theorem td_inverse_same (s : TDUPC) : Same s.inverseC s.inverse :=
  (Same.free _).bind fun _ => (inverseSchedule_same _ _ _ _ _ _).bind fun _ => Same.pure _

theorem td_process_same (s : TDUPC) (bs : ℕ) (inp : ℕ → ℝ) : Same (s.processC bs inp) (s.process bs inp) :=
  (Same.free _).bind fun _ => (Same.free _).bind fun _ => (td_forward_same _).bind fun _ => (td_transform_same _).bind fun _ => (td_inverse_same _).bind fun _ => Same.free _

theorem multi_process_same (m : Multi) (blk : Buf) : Same (m.processC blk) (m.process blk) :=
  Same.foldlM (fun _ _ => (Same.free _).bind fun _ => ((td_process_same _ _ _).bind fun _ => Same.pure _).ite (Same.free none)) _ _

theorem upc_prelude_same (s : UPC) : Same s.preludeC s.prelude :=
  Same.ite ((Same.free _).bind fun _ => (Same.foldlM (fun _ _ => (Same.free _).pay) _ _).bind fun _ => (Same.free _).bind fun _ => Same.pure _) (Same.pure _)

theorem upc_channel_same (f : (ℕ → ℝ) → (ℕ → ℝ)) (b : CBuf) (c : ℕ) : Same (UPC.transformChannelC f b c) (UPC.transformChannel f b c) := (Same.free _).pay

theorem upc_body_same (F : RealFFT) (s : UPC) (blk : Buf) (d k : ℕ) : Same (s.bodyC F blk d k) (s.body F blk d k) :=
  (Same.free _).bind fun _ => (Same.free _).bind fun _ => (Same.free _).bind fun _ => (Same.free _).bind fun _ => (Same.free _).bind fun _ => (Same.free _).bind fun _ =>
    (Same.foldlM (fun _ _ => upc_channel_same _ _ _) _ _).bind fun _ =>
      Same.ite (((Same.free _).bind fun _ => (Same.free _).bind fun _ => (Same.foldlM (fun _ _ => upc_channel_same _ _ _) _ _).bind fun _ => (Same.free _).bind fun _ =>
        (Same.free _).bind fun _ => Same.pure _).pay) (Same.free none)

theorem upc_loop_same (F : RealFFT) : ∀ (fuel : ℕ) (s : UPC) (blk : Buf) (d : ℕ), Same (UPC.loopC F fuel s blk d) (UPC.loop F fuel s blk d)
  | 0, _, _, _ => (Same.free none).ite (Same.pure _)
  | fuel + 1, _, _, _ => Same.ite ((upc_prelude_same _).bind fun _ => (upc_body_same F _ _ _ _).bind fun _ => upc_loop_same F fuel _ _ _) (Same.pure _)

theorem upc_process_same (F : RealFFT) (s : UPC) (blk : Buf) : Same (s.processC F blk) (s.process F blk) := upc_loop_same F _ _ _ _

theorem nupc_subs_same (saved : Buf) : ∀ (l : List SubConv) (p : Buf) (r : Ring), Same (NUPC.stepSubsC saved l p r) (NUPC.stepSubs saved l p r)
  | [], _, _ => Same.pure _
  | _ :: rest, _, _ => (multi_process_same _ _).bind fun _ => (Same.free _).bind fun _ => (Same.free _).bind fun _ => (nupc_subs_same saved rest _ _).bind fun _ => Same.pure _

theorem nupc_collect_same (s : NUPC) (b : Buf) (k : ℕ) : Same (s.collectC b k) (s.collect b k) :=
  Same.ite ((Same.free _).bind fun _ => Same.ite ((nupc_subs_same _ _ _ _).bind fun _ => (Same.free _).bind fun _ => Same.pure _) (Same.pure _)) (Same.pure _)

theorem nupc_body_same (F : RealFFT) (s : NUPC) (blk : Buf) (d k : ℕ) : Same (s.bodyC F blk d k) (s.body F blk d k) :=
  (Same.free _).bind fun _ => (nupc_collect_same _ _ _).bind fun _ => (upc_process_same F _ _).bind fun _ => (Same.free _).bind fun _ => Same.pure _

theorem nupc_loop_same (F : RealFFT) : ∀ (fuel : ℕ) (s : NUPC) (blk : Buf) (d : ℕ), Same (NUPC.loopC F fuel s blk d) (NUPC.loop F fuel s blk d)
  | 0, _, _, _ => (Same.free none).ite (Same.pure _)
  | fuel + 1, _, _, _ => Same.ite ((nupc_body_same F _ _ _ _).bind fun _ => nupc_loop_same F fuel _ _ _) (Same.pure _)

theorem nupc_process_same (F : RealFFT) (s : NUPC) (blk : Buf) : Same (s.processC F blk) (s.process F blk) := nupc_loop_same F _ _ _ _

theorem convolver_body_same (F : RealFFT) (s : Convolver) (blk : Buf) (d k : ℕ) : Same (s.bodyC F blk d k) (s.body F blk d k) :=
  (Same.free _).bind fun _ => (Same.free _).bind fun _ => (Same.free _).bind fun _ => (nupc_process_same F _ _).bind fun _ => (Same.free _).bind fun _ => Same.pure _

theorem convolver_loop_same (F : RealFFT) : ∀ (fuel : ℕ) (s : Convolver) (blk : Buf) (d : ℕ), Same (Convolver.loopC F fuel s blk d) (Convolver.loop F fuel s blk d)
  | 0, _, _, _ => (Same.free none).ite (Same.pure _)
  | fuel + 1, _, _, _ => Same.ite ((convolver_body_same F _ _ _ _).bind fun _ => convolver_loop_same F fuel _ _ _) (Same.pure _)

theorem convolver_process_same (F : RealFFT) (s : Convolver) (blk : Buf) : Same (s.processC F blk) (s.process F blk) := convolver_loop_same F _ _ _ _

end Zones.Proofs
