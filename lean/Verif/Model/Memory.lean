import Verif.Model.Convolver

/-!
# The memory of a convolver

Every buffer of samples or spectra that a `Convolver` and its parts own, as a list of sizes, counted in `float`s. The members
are those of the classes; nothing else in these classes grows with the impulse response or the block size. Not counted: the objects
themselves, the `std::vector`s that hold the buffers, and the tables inside `juce::dsp::FFT`.
-/

namespace Zones.Model

/-- `float`s of a `juce::AudioBuffer`.
(`setSize` in Convolver.cpp:38, UniformPartitionedConvolver.cpp:23, TimeDistributedNUPC.cpp:42-44). -/
def Buf.cells (b : Buf) : ℕ := b.ch * b.n

/-- `float`s of a `ComplexBuffer`: `channel_data_` (ComplexBuffer.h:31), two for each point. -/
def CBuf.cells (b : CBuf) : ℕ := 2 * b.size

/-- `delay_line_` (FrequencyDelayLine.h:22). -/
def FDL.buffers (f : FDL) : List ℕ := (List.range f.numBlocks).map fun i => (f.line i).cells

/-- `stages_` (DecompositionSchedule.h:24). -/
def Stages.buffers (s : Stages) : List ℕ := (List.range 3).map fun i => (s.stages i).cells

/-- `saved_inputs_`, `filter_partitions_`, the frequency delay line, `fdl_convolved_output_` and `ifft_buffer_`
(UniformPartitionedConvolver.h:26-30). -/
def UPC.buffers (s : UPC) : List ℕ :=
  s.ring.buf.cells :: ((List.range s.numFilters).map fun i => (s.filters i).cells) ++ s.fdl.buffers ++ [s.conv.cells, s.ifft.cells]

/-- What each channel of a stage has for itself: the frequency delay line, the stage buffers and `previous_tail_`
(TimeDistributedUPC.h:35-37). -/
def TDUPC.buffers (s : TDUPC) : List ℕ := s.fdl.buffers ++ s.stages.buffers ++ [s.tail.cells]

/-- A stage: the channels, and `filter_partitions_` (TimeDistributedUPCMulti.h:19), which the channels refer to; the model has a copy in each of them. -/
def Multi.buffers (m : Multi) : List ℕ :=
  (if m.num = 0 then [] else (List.range (m.td 0).numFilters).map fun i => ((m.td 0).filters i).cells) ++
    (List.range m.num).flatMap fun c => (m.td c).buffers

/-- The uniform convolver, the stages, `saved_input_buffer_`, `process_buffer_` and `sub_convolver_delay_buffer_` (TimeDistributedNUPC.h:21-32). -/
def NUPC.buffers (s : NUPC) : List ℕ :=
  s.upc.buffers ++ s.subs.flatMap (fun c => c.td.buffers) ++ [s.saved.cells, s.proc.cells, s.ring.buf.cells]

/-- All buffers of a `Convolver`: `routing_buffer_` (Convolver.h:34) and those of its `TimeDistributedNUPC`. -/
def Convolver.buffers (s : Convolver) : List ℕ := s.routing.cells :: s.nupc.buffers

end Zones.Model
