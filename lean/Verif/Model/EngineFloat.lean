import Verif.Model.Engine
import Verif.Model.Arith

/-!
# The engine with convolvers and fades in floating point
-/

namespace Zones.Model

/-- The operations of the real `Convolver` (Convolver.h:23-31) with the arithmetic `Arith`, and fades with the arithmetic `g`. -/
noncomputable def convolverOpsR [Arith] (F : RealFFT) (g : GainArith) : ConvOps Convolver :=
  ⟨Convolver.processR F, Convolver.reset, Convolver.numSamples, fun c => c.spec.fadeStrategy, g⟩

end Zones.Model
