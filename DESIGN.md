# Formal model of zones_convolver: design

Source: /repo (C++, header/namespace `zones`), read as text, never built. Model and proofs:
`/verif/lean` (Lean 4.33, selected Mathlib modules).

## 1. Layout

| directory | content |
|---|---|
| `lean/Verif/Spec/*`  | small, model-independent specifications (linear convolution, DFT, bit reversal, circular convolution, bounded FIFO, ...). |
| `lean/Verif/Model/*` | the executable-style model of the code, one file per source file; every definition cites file and lines. |
| `lean/Verif/Proofs/*`| helper lemmas and invariants. |
| `lean/Verif/Props/*` | the property theorems `C01_...` .. (only statements + short proofs + non-vacuity examples). The files `*Examples.lean` and `*Witnesses.lean` apply the theorems to concrete convolvers, histories, executions and endless behaviours. |

## 2. Modelling decisions

* **Numbers.** Audio samples are `ℝ`, spectra `ℂ`: float rounding of the *signal path* is not modelled
  (exact arithmetic). Float rounding in the *index arithmetic* (`Partitioning.*`) is modelled exactly
  (binary32 round-to-nearest-even on rationals).
* **Buffers.** `AudioBuf`/`ComplexBuffer` are `(channels, size, data : ℕ → ℕ → _)`. A JUCE `AudioBlock`
  that is a view is modelled as copy-in/copy-out of the viewed range (the code never aliases two views
  it writes through).
* **Undefined behaviour is an outcome.** Functions that index, take sub blocks, divide, or call `back()`
  return `Option`; `none` = undefined behaviour, failed `jassert` on a range, or non-termination. Theorems
  prove `= some _` under stated preconditions, or `= none` for the documented failure cases.
* **Loops** are folds over the list of loop indices, `while` loops recursion on fuel (`none` when the fuel
  runs out; theorems show that it does not).
* **JUCE** is external: `nextPowerOfTwo`, `AudioBlock`, `LinearSmoothedValue`, `AbstractFifo`, `ThreadPool`
  are modelled from their documented behaviour (`Model/Juce*.lean`); `juce::dsp::FFT` real-only transforms
  are a parameter with two laws (forward gives the DFT for bins 0..N/2; inverse reverses it reading only
  these bins), and an instance is exhibited.
* **Integers** are `ℕ`/`ℤ`; `int` overflow is out of scope except where a property is about it (C19, C27, C66).
* **Threads.** `Model/EngineSys.lean` is a transition system of any number of engines that share one thread pool.
  Its atomic steps are finer than calls: locking `load_mutex_`, `removeAllJobs`, setting the flag, adding the
  job, picking a job, constructing, locking, checking and pushing, completing; an audio-side call is entering, starting
  `Service`, one step per visited command, finishing `Service`, the rest of the call; likewise the background thread;
  message-thread callbacks; destruction. All interleavings are quantified over. Pushing and servicing are atomic
  there; `Model/Queue.lean` models the queue at the granularity of single loads and stores and C30 proves that
  it refines exactly this atomic queue (`Spec/AtomicQueue.lean`). For C61-C64 an endless behaviour is a sequence of such steps and pauses;
  fairness is a hypothesis, weak and only for the threads a property needs.

## 3. Per property plan

| id | modelled part | proof |
|---|---|---|
| C01,C02,C04,C46,C47 | Convolver over NUPC | composition of C07 with routing; corollaries of C01 |
| C03 | Convolver/NUPC/TDUPC Reset | the invariant of C07 holds after Reset for the empty history, for any phase |
| C05,C06 | UniformPartitionedConvolver | invariant tying ring buffer, FDL and accumulator to the input history; overlap-save |
| C07 | TimeDistributedNUPC | invariant: UPC invariant + each TDUPC invariant + delay ring contents |
| C08 | TimeDistributedUPC(Multi) | invariant over (window, phase): stages A/B/C, FDL, tail |
| C09,C10,C12,C15 | FFT.cpp, FFTDecomposition.cpp | closed form after l levels; level inverse; DFT convolution theorem |
| C11 | FFTDecomposition.cpp | butterflies have disjoint supports, permutation invariance of folds |
| C13,C14 | DecompositionSchedule.cpp | relational invariant "levels done at point i" |
| C16-C20 | Partitioning, PartitionSchemes | table facts by kernel evaluation over the complete table, lifted to all lengths by arithmetic; binary32 rounding lemma |
| C21,C22 | TimeDistributedUPCMulti ctor | arithmetic of powers of two, induction |
| C23-C25,C48 | CircularBuffer, SplitBlock, FDL, StageBuffers, ComplexBuffer | modular arithmetic |
| C26 | all of the above | `= some _` theorems |
| C27 | Convolver ctor | BitVec 32 loop with fuel |
| C28,C49 | Convolver/engine process | `= none` iff |
| C29,C30,C51 | ConvolutionVisitorQueue/AbstractFifo | refinement to a list; interleaving invariant; refinement to an atomic queue; step ranking |
| C31,C36,C37,C40,C41,C43,C44,C52-C55 | EngineSys (threads, pool, mutex, queues) | inductive invariants over all executions; counterexample executions where the code violates the naive property |
| C32,C33-C35,C38,C39,C42,C45,C49 | Engine core (slots, smoothers, fades) | history semantics of sequences of calls; LinearSmoothedValue closed form; lifted to the concurrent system by C52 |
| C50 | Process loops | pass counting |
| C56 | everything | C52 + C32 + C01 composed |
| C57-C59 | garcia_optimal_partitioning.py (the generator of the tables) | Viterbi recursion; exchange argument that no cheaper dead end exists |
| C60 | PartitionSchemes.cpp against the generator's specification | linear-programming lower bound on the number of partitions for each set of sizes, and a kernel-evaluated check over the sets of sizes |
| C61-C64 | EngineSys, endless behaviours (`Spec/Fair.lean`) | weak fairness for groups of threads; ranking functions (work left to loads, distance to the head of a queue); C63 composes with C56 |
| C65 | Partitioning | the adjusted row exceeds the length by less than one partition; arithmetic of floor/ceil after float rounding |
| C66 | Ints (the same functions with every `int` operation checked) | bounds on every intermediate value from the checked tables; equality with the unbounded model; the ranges of the partitions concatenated are `0..L-1` (induction over partitions and sub convolvers) |
| C67 | Arith (the sample path again, every operation taken from an arbitrary `Arith`) | the schedule reaches, for every `Arith`, the same butterfly levels as the plain transform (`RFFT`, `RMulti`) |
| C68 | Arith (whole convolver) | relational invariant between two runs, channel by channel (`RRel*`) |
| C69 | Arith (FFT) | relative error per level in the Euclidean norm, unitarity of the exact levels (`RError`) |
| C70 | Arith (UPC, TDUPC, Multi) | invariant "the state is what the exact state rounds to" with windows of the input; errors of the multiply-accumulate in the sum norm (`RMulti`, `RUPCInv`) |
| C71 | Arith (Convolver) | the same through NUPC and the routing (`RNUPC`, `RConvolver`, `RBound`) |
| C72 | Arith (Convolver) | `Reset` re-establishes the invariant with an empty past |
| C73 | Arith (Convolver) | C71 with level 0 |
| C74 | Engine core with fades over an arbitrary `GainArith` | the fade lemmas of C33-C35 are generic in what a fade rule implements (`Implements`); the accumulated gain is bounded by induction (`FloatFades`) |
| C75 | Engine core with `Convolver.processR` | C74 composed with C71 along the history each convolver has heard (`EngineConvolverR`) |
| C76 | the same | the settling argument of C45 with the invariant "heard in floating point" for every convolver in a slot; `C76_concurrent`, `C76_end_to_end` as for C56, `C76_finally` as for C63 (weak fairness) |
| C77 | the queue over release/acquire atomics (`Model/QueueRA.lean`): histories of stores, views, race detection on slots | inductive invariant tying views to the numbers of accesses to each slot (`Proofs/QueueRA.lean`) |
| C78 | Engine core with `Convolver.process` | invariant "the two fade gains belong to the same moment, or to an in/out fade; every convolver held has heard only quiet input" over all calls (`EngineLevel`); `C78_concurrent` by `C52_sequential` |
| C79 | the same over `Arith` and `GainArith` | the same invariant with the error bounds of C71 and C74; `C79_concurrent` |
| C80 | Engine core with `Convolver.process` | invariant "every convolver that can still be heard has heard nothing loud for the last n samples" (`EngineAge`), then as C78; `C80_concurrent`, `C80_silence_concurrent`: executions in three parts, the later histories extending the earlier ones |
| C81 | the same over `Arith` and `GainArith` | the same with the windows of C71; `C81_concurrent`, `C81_silence_concurrent` as for C80 |
| C82 | `EngineSys`, with the accesses, threads and synchronisation of every step (`Spec/Races.lean`) | invariant over histories (`Proofs/Races.lean`, `Tidy`): for every place a convolver, job or member can be in, all accesses so far happen before a step of the thread that owns the place or before the release that hands it on |
| C83 | the same | the two accesses are put next to each other after any history that reaches the point; nothing the first one releases is acquired by the second |
| C84 | `TimeDistributedNUPC` built from an arbitrary scheme; find_optimum; normalise_result | the invariant of C07 with and without the extra block of clearance; an impulse at the start of a part that has none of it; all viable partitionings of 23 blocks compared |
| C85 | the engine (all audio-side calls, both fades, the slots), the concurrent system; Spec/Reference.lean is the total reference engine | refinement: a relation between engine states and reference stages kept by every call, for every batch of arrivals; the concurrent case through C52 |
| C86 | as C85 with the rounded convolvers (C71) and rounded fades (C74) | the refinement of C85 is generic in the arithmetic; the bound per stage from C71 and C74; fade lengths stay below 2^24 along the reference run |
| C87 | `Model/Cost.lean`: the whole sample path once more, with counters; `Spec/Cost.lean`: closed formulas | erasing the counters gives the model (proved for every function); costs compose (`Costs`); invariant on the shapes the cost depends on, kept by `Process` and `Reset` |
| C88 | C87, C57-C60 (generator, tables) | the scheme for a length in the tables, its stages' partition counts, and the generator's cost as a sum over stages |
| C89 | `Model/Memory.lean`: the sizes of all buffers a convolver owns; `Spec/Memory.lean`: what they should add up to | every function keeps the list of sizes (unconditionally); sum after construction by induction over the scheme; bound from the clearance of the stages |
| C90 | Engine core, generic in the convolvers; `Spec/EngineWork.lean` gives every convolver a notebook of the blocks it was given | the notebooks change nothing (proved for every call); multiset equation for every call from every state; invariant for histories |
| C91 | rounded model (`…R` functions) with any arithmetic exact on zeros and any library transform with the data flow of a real transform (`HalfSpectrum`) | two-run invariants through UPC, TDUPC, NUPC and Convolver: every buffer cell is a function of a window of the stream; induction over paired histories |
| C92 | rounded model, as C91; `Spec.cuts` is the list of piece lengths a sequence of blocks is cut into | one call on a block and one call per piece end in states related by the two-run invariant of C91 and leave the same samples; chained with C91 for the pieces of the two callers |
| C93 | rounded model, as C71; `Spec.AccurateIn` and `Spec.ApproxIn` replace the standard model (absolute error `η`, range `Ω`) | the chain of error bounds behind C71 (`RError` .. `RConvolver`) is carried out once for a family of arithmetics `Fp`; sizes are kept above a floor, so that absolute errors are absorbed into a slightly larger relative error, and every intermediate size is bounded by `headroom` (`RRange`); C71-C73 are the instance without floor and range; binary32 is an instance (`RFloat32`) |
| C94 | rounded model of the engine, as C75, with arbitrary arithmetic that is exact on zeros (`ExactOnZeros`), `HalfSpectrum` transforms, arbitrary fade arithmetic; `Spec.SameCalls` (two histories of the same calls) | a relation between two runs (`EngineTwin`: everything but convolvers and buffer contents is equal; paired convolvers have heard blocks of the same sizes, the last `n` samples being equal) is kept by every call; C91's invariant of two convolvers gives equal outputs once `n` covers the memory; `C94_concurrent`: two concurrent executions that agree for an engine (`Spec.AgreeFor`: same calls, samples and loads, delivered to the same calls, made for the same block sizes), by `C52_sequential` and `C31_format`; `C94_concurrent_recent`: executions in three parts that agree (`Spec.AgreeSince`) in the samples only from the second part on; `C94_concurrent_reset`: executions about to take the step in which a reset, prepare or clear does its work |
| C95 | rounded model of convolver and engine with `Arith.ieee` (`Spec.Ieee`): binary32 with infinities and NaNs, encoded as the real numbers from `2^128` on | C91 and C94 for arithmetics in which zero times a number need be zero only for the numbers that occur (`ZeroSafe`: twiddle factors, transforms of pieces of the response); every butterfly level multiplies the parts by at most 8, so that the transforms of a moderate response are finite; `C95_concurrent`: as `C94_concurrent_recent`, for two executions of which one gets bad values in its first part; `C95_concurrent_reset` likewise |
| C96 | as C95, convolver only; the library FFT is any function within `Spec.ApproxIn` up to `2^125` | `Spec.AccurateIn` asks nothing of an operation with an operand or result out of range, and `0 * z = 0` only for `z` within range, so that C93 applies to `Arith.ieee`: on numbers within range its operations are the rounded ones (`ieee_accurate`) |
| C97 | as C96, in the engine of C76; the gains' arithmetic is arbitrary | the generic part of C76's proof, for any relation between input and output of a fresh convolver that holds for every block sequence (`Feeds`), applied to C96; the past of the convolver that plays drops out because the bound looks back only `ir.n + 2^L + B` samples; `C97_concurrent`, `C97_finally` as for C76 |
| C98 | as C01 and C66, lengths up to `2^30` | rounding a length below `2^31` to 24 bits moves it by at most its `2^24`th part and never past a multiple of the partition size, so a count is exact or one too small; what is built for the long response is member for member what the constructor builds from the same scheme for its first `n` samples (`buildSubs_cut`), to which C01's proof applies; the lost echo by computing the scheme of one length |
| C99 | as C36 and C89; the bound on the workers is a hypothesis on the moment (jobs being run ≤ `W`) | C36 (every convolver is in exactly one place) with the capacity of the two queues; an invariant that jobs waiting for a worker have not been told to stop, of which there is one per engine; induction over executions that everything in jobs, queues and slots has the buffers it was constructed with (C89). Not covered: callbacks waiting on the message thread, which nothing bounds |
| C100 | `Model/Heap.lean`: `ComplexBuffer` as an object (counts, the storage of its vector, raw channel pointers), a memory with allocate and free in which an access outside an allocation, to freed memory or a second free is undefined, the implicit move, copy and destructor, `std::vector` growth with an arbitrary policy. Allocation never fails; addresses are not reused | simulation: an invariant relates each object to a value and the live allocations to the objects; the implicit copy constructor is shown to break it |
| C101 | `Model/CallerMemory.lean`: the system of C29-C64 with requests that are references to memory of the caller, who writes and frees it while no call that was given it is running (that is a guard: the caller's obligation); the constructor of `LoadIRJob` copies | simulation: no step looks at what a request is except the construction of the convolver, all jobs own their samples, so changing memory commutes with everything |
| C102 | nothing new: the engine of C85 (`Spec/EngineLinear.lean`: histories that differ in samples only) | a three-way relation between stages of the reference engine of C85 (what each voice has heard is the combination), preserved by every call; the sound of a stage is linear in it and needs no later sample. `C102_concurrent`: for executions of `Model/EngineSys.lean` that do the same for an engine (`Spec/EngineLinearThreads.lean`); C52 gives their histories, and the number of convolvers each call takes (`Spec/EngineTaken.lean`) fixes which responses it finds |
| C103 | nothing new: the engine of C85 (`Spec/Splitting.lean`: the same signals in other blocks, `Cuttable` stages) | on the reference engine of C85: two blocks sound as one if the stage is cuttable (case by case over the phases of a fade), so any number does; stages that have heard the same signals sound the same, however it was cut. `C103_concurrent`: for two executions of `Model/EngineSys.lean` that are told the same (`Spec/SplittingThreads.lean`), as for C102 |
| C104 | the engine of `Model/Engine.lean` run with the counting convolvers of `Model/Cost.lean` (`Spec/EngineCost.lean`) | C87 for each convolver in use, at whatever place in its schedule; tallies through `process` by cases over the fade; that counters are only written: the counting programs are the programs in every state (`Proofs/CostSame.lean`), and the engine never reads what convolvers carry with them |
| C105 | the engine of `Model/Engine.lean` run with the convolvers of `Model/Arith.lean` (any arithmetic), histories of signals in `Spec/EngineCuts.lean` | C92 for pairs of convolvers that have heard the same signal in the same pieces (`Tied`), through playing and crossfading (`Proofs/EngineCuts.lean`); where one host's fade is over before the other's, a gain of 1 leaves what the convolver puts out as it is, since it is 0 or a sum (`IsSum`). `C105_concurrent`: for two executions of `Model/EngineSys.lean` that are told the same, through the histories of C52 (`plays_created`) |
| C106 | the system of `Model/EngineSys.lean` with destructors that kill the background thread, between two commands or inside the visitor (`Model/Kill.lean`) | simulation (`Proofs/Kill.lean`): instead of being killed the thread finishes its `Service` and the destructor waits; the two systems differ in the records of destroyed convolvers of dead engines only, on which no step depends; so C36 transfers. A concrete execution in which a convolver is lost |
| C107 | the engine core and the convolver as in C85/C86, no new definitions; the histories have a changing number of channels (`Spec/ChannelCounts.lean`) | simulation (`Proofs/ChannelCounts.lean`): the engine that is given all `M` channels holds the same convolvers, whose `process` depends on the routed channels only; every call keeps the outputs equal on the channels of the narrower block; then C85, C86 and the concurrent system of C85_concurrent. `C107_too_few` computes the undefined access |
| C108 | `Model/Listeners.lean`: the concurrent system with lists of listeners; each call of a listener is a step of its own, in two rounds (within `LoadIR`, on the message thread); adding and removing at any time | invariants over all executions (`Props/Listeners.lean`): the difference between calls made and due and loads begun and completed is kept by every step; a listener out of date is due or the engine has been reset; projection to the executions of the other properties; an execution in which a reset is never announced |

## 4. Trusted base

* Lean 4.33's kernel, and the axioms `propext`, `Classical.choice`, `Quot.sound` (checked by `#print axioms` on every property
  theorem; `tools/axioms.sh` prints them). No other axioms, no `native_decide`, no `bv_decide`.
* The definitions in `lean/Verif/Model` (the code) and `lean/Verif/Spec` (the properties), which have to be read to
  know what the theorems say; the translation of C++ to these definitions was done by hand (the tables by
  `tools/gen_tables.py`).

### Modelled

Every function of `zones_convolver/`: `util/FFT`, `util/FFTDecomposition`, `util/DecompositionSchedule`, `util/ComplexBuffer`, `util/SplitBlock`,
`util/CircularBuffer`, `util/FrequencyDelayLine`, `util/Partitioning`, `PartitionSchemes`, `UniformPartitionedConvolver`, `time_distributed/*`,
`Convolver`, `ConvolutionEngine` (with `LoadIRJob` and both queues); `find_optimum` of `garcia_optimal_partitioning.py` and `normalise_result` of `convert_results.py`.

### Not modelled, or simplified

* `Model/Cost.lean` counts operations (C87): which operations are counted is part of the model and stated at its head.
* In all models but `Model/Heap.lean` (C100) a `ComplexBuffer` is a value; C100 is the reason why this is right for the code's pointers.
* `Model/Memory.lean` counts the buffers of samples and spectra (C89), not the objects, the vectors holding the buffers, or JUCE's FFT tables.
* The costs computed by the partition generator (Python floats) are real numbers, so ties are exact.
* Rounding of floating point *samples* and *spectra*: `Model/Arith.lean` models the sample path once more, with every addition,
  subtraction, multiplication and halving taken from an arbitrary structure `Arith`, and C67-C73, C75, C76, C79, C81 are about that model; with exact
  operations it is the model of the other properties (`Proofs/ArithExact.lean`), in which samples are reals. C69-C73, C75, C76, C79, C81 assume the
  standard model (`Spec.Accurate`: relative error `u` per operation, so no overflow, underflow, NaN, and no flushing of denormals)
  and that twiddle factors are within `τ` of the roots of unity (the code computes them as `std::pow` of a float, which costs more
  than `u` for large exponents; `τ` is a parameter). Complex multiplication is one operation (its two products and sum are
  covered by `u`, see `accurate_rounded`). Fused multiply-add contraction by the compiler would be another `Arith`. The library FFT is
  any implementation within `Spec.Approx` and, for C68, working in place (`Spec.InPlace`). C93 drops the restriction on range:
  operations may have an absolute error as well (subnormal results, flushing to zero), and results are arbitrary when they, or an operand, are above a limit. A result out of
  range is an arbitrary *real* number there; C95, C96 and C97 are about binary32 with infinities and NaNs, encoded as real numbers
  (`Spec.Ieee`; all NaNs that operations return are one value, and the library FFT is any `HalfSpectrum`, for C96 and C97 any `ApproxIn` function of such values). "Equal" means equal in value: `0.0` and
  `-0.0` are not told apart. After `Reset` the phase of the time distributed part is not reset, so a reset convolver
  need not agree with a new one bit for bit; C72 bounds its error. The fades of the engine (the smoothers' gains,
  multiplying and mixing) take their operations from a structure `GainArith`: C33-C35 are about exact ones, C74-C76, C79, C81 about
  rounded ones within `Spec.AccurateGains`. Rounding of float *lengths* is modelled (binary32, without exponent range).
* Overflow of `int`, except in the computation of the internal block size (C27) and in the construction of a convolver
  (C66, `Model/Ints.lean`: every `int` operation of the scheme and of the constructors, but not `int` loop counters over whole
  buffers, which would overflow only for buffers of `2^31` points). Memory exhaustion, exceptions.
* JUCE is external. `juce::dsp::FFT`: any implementation that satisfies `Spec.Lawful` (an instance exists, `Proofs/JuceFFT.lean`).
  `AudioBlock`, `AudioBuffer`, `LinearSmoothedValue`, `AbstractFifo`, `ThreadPool`, `Thread`, `MessageManager::callAsync`: modelled from documentation
  and source in `Model/Buffers.lean`, `Model/Engine.lean`, `Model/Queue.lean`, `Model/EngineSys.lean`.
* Memory model: sequential consistency, except in `Model/QueueRA.lean` (C77), which has the release/acquire fragment of C++11 (`juce::Atomic` is sequentially consistent, which allows
  fewer executions). That this is enough for the accesses to convolvers, jobs and fade state is C82: they are free of data races, so every execution of
  them is sequentially consistent. Accesses to `is_loading_` and `spec_` (plain members used by several threads) are atomic in the model; formally they
  are data races in C++, which is C83. What each step accesses, releases and acquires (`Spec/Races.lean`) is a reading of the code, part of the trusted base.
* The thread pool may run any number of jobs at once; a finished job disappears with the step that unlocks the mutex.
  `stopThread (100)` is modelled as waiting for the background thread (in the code it kills the thread after 100 ms); C106 has the kill, and that all else goes on as if the destructor had waited.
  Constructing a convolver always succeeds and is one step.
* `process`, `reset`, `prepare` and `Clear` of one engine are not called concurrently with each other, and an
  engine is not used by its owner after, or destroyed during, such a call.
* `juce::ListenerList` is external (C108): modelled after its documentation, as if it could be used by several threads (it cannot: adding or removing listeners while another thread calls them is a data race). Tests, build system, plotting and JSON
  input/output of the python scripts are not modelled.
