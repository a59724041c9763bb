import Verif.Spec.Cost

/-!
# The memory a convolver should need
-/

namespace Zones.Spec
open Zones.Model

/-- Samples before the last stage: where its part of the impulse response begins. -/
def lastStart (B : ℕ) : List Layout → ℕ
  | [] => 0
  | [_] => 0
  | l :: rest => l.psb * l.np * B + lastStart B rest

/-- `float`s of buffers for each channel of an impulse response of `L` samples, for blocks of `B` samples. `first` is the uniformly partitioned first stage, `rest` the
stages after it.

First stage: a block for routing, two blocks of saved input, for each partition a spectrum of `2 B` complex numbers in the filter and one in the delay line, and two more
spectra. Every other stage, with partitions of `P` samples: for each partition, again, a spectrum of `2 P` complex numbers in the filter and one in the delay line; three
spectra being worked on; and the overlap. If there are such stages: two blocks, and a ring long enough for the latency of the last one. -/
def floatsPerChannel (B L : ℕ) (first : Layout) (rest : List Layout) : ℕ :=
  let spectrum := fun P => 2 * (2 * P)
  B + 2 * B + 2 * partitionsNeeded B (min (first.np * B) L) * spectrum B + 2 * spectrum B +
    ((stagesOf B L (first.np * B) rest).map fun st => 2 * st.2 * spectrum (st.1 * B) + 3 * spectrum (st.1 * B) + st.1 * B).sum +
    (match rest.getLast? with
      | none => 0
      | some l => 2 * B + (lastStart B (first :: rest) + B - 2 * (l.psb * B)))

end Zones.Spec
