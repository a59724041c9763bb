import Verif.Model.Arith

/-! # With exact arithmetic the functions of `Verif.Model.Arith` are those of the exact model -/

namespace Zones.Model

attribute [local instance] Arith.exact

theorem forwardFFTUnorderedR_exact : forwardFFTUnorderedR = forwardFFTUnordered := rfl
theorem inverseFFTUnorderedR_exact : inverseFFTUnorderedR = inverseFFTUnordered := rfl
theorem forwardScheduleR_exact : forwardScheduleR = forwardSchedule := rfl
theorem inverseScheduleR_exact : inverseScheduleR = inverseSchedule := rfl
theorem TDUPC.processR_exact : TDUPC.processR = TDUPC.process := rfl
theorem Multi.createR_exact : Multi.createR = Multi.create := rfl
theorem Multi.processR_exact : Multi.processR = Multi.process := rfl

theorem UPC.loopR_exact (F : RealFFT) (n : ℕ) : UPC.loopR F n = UPC.loop F n := by
  induction n with
  | zero => rfl
  | succ n ih => funext s blk d; unfold UPC.loopR UPC.loop; rw [ih]; rfl

theorem UPC.processR_exact : UPC.processR = UPC.process := by
  funext F s blk; exact congrFun (congrFun (congrFun (UPC.loopR_exact F blk.n) s) blk) 0

theorem NUPC.buildSubsR_exact (B nch : ℕ) (ir : Buf) (g : ℕ → ℕ → ℕ → ℕ → ℝ) (l : List Layout) :
    ∀ o i, NUPC.buildSubsR B nch ir g o i l = NUPC.buildSubs B nch ir g o i l := by
  induction l with
  | nil => intro o i; rfl
  | cons a l ih =>
    intro o i; unfold NUPC.buildSubsR NUPC.buildSubs
    simp only [ih, Multi.createR_exact]

theorem NUPC.createR_exact : NUPC.createR = NUPC.create := by
  funext F B nch ir g
  unfold NUPC.createR NUPC.create NUPC.ofScheme
  simp only [NUPC.buildSubsR_exact]
  generalize getPartitionScheme kGarciaResults B ir.n = sch
  rfl

theorem NUPC.stepSubsR_exact (saved : Buf) (l : List SubConv) :
    ∀ p r, NUPC.stepSubsR saved l p r = NUPC.stepSubs saved l p r := by
  induction l with
  | nil => intro p r; rfl
  | cons a l ih =>
    intro p r; unfold NUPC.stepSubsR NUPC.stepSubs
    simp only [ih, Multi.processR_exact]; rfl

theorem NUPC.bodyR_exact : NUPC.bodyR = NUPC.body := by
  funext F s blk done k
  unfold NUPC.bodyR NUPC.body NUPC.collectR NUPC.collect
  simp only [NUPC.stepSubsR_exact, UPC.processR_exact]; rfl

theorem NUPC.loopR_exact (F : RealFFT) (n : ℕ) : NUPC.loopR F n = NUPC.loop F n := by
  induction n with
  | zero => rfl
  | succ n ih => funext s blk d; unfold NUPC.loopR NUPC.loop; rw [ih, NUPC.bodyR_exact]

theorem NUPC.processR_exact : NUPC.processR = NUPC.process := by
  funext F s blk; exact congrFun (congrFun (congrFun (NUPC.loopR_exact F blk.n) s) blk) 0

theorem Convolver.createR_exact : Convolver.createR = Convolver.create := by
  funext F ir m spec g r
  unfold Convolver.createR Convolver.create
  rw [NUPC.createR_exact]

theorem Convolver.bodyR_exact : Convolver.bodyR = Convolver.body := by
  funext F s blk done k
  unfold Convolver.bodyR Convolver.body
  rw [NUPC.processR_exact]; rfl

theorem Convolver.loopR_exact (F : RealFFT) (n : ℕ) : Convolver.loopR F n = Convolver.loop F n := by
  induction n with
  | zero => rfl
  | succ n ih => funext s blk d; unfold Convolver.loopR Convolver.loop; rw [ih, Convolver.bodyR_exact]

theorem Convolver.processR_exact : Convolver.processR = Convolver.process := by
  funext F s blk
  exact congrFun (congrFun (congrFun (Convolver.loopR_exact F blk.n) { s with routing := s.routing.clear }) blk) 0

end Zones.Model
