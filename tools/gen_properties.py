#!/usr/bin/env python3
"""Source of /verif/properties.jsonl (run: python3 tools/gen_properties.py)."""
import json, os
P = []
def p(id, title, statement, quantifier, why, anchors):
    P.append(dict(id=id, title=title, statement=statement, quantifier=quantifier,
                  why_tests_cant=why, anchors=anchors))

Z = "zones_convolver/"
p("C01", "Convolver computes exact, zero-latency linear convolution",
  "For a Convolver built from a non-empty impulse response and a valid routing, the concatenation of everything Process writes to output channel o equals, at every sample n since construction or the last Reset, the sum over convolution channels c routed to o of sum_k h_c[k]*x_in(c)[n-k]: nothing is late, missing, doubled or attenuated (exact arithmetic).",
  "every impulse response (length 1..2^24 samples, any channel count), every prepared maximum block size and internal block size, every routing, every input signal, every sequence of Process block sizes (including 0 and larger than the maximum), every sample position",
  "the suite feeds unit impulses at a handful of IR lengths and block sizes; the claim ranges over all signals, all IR lengths and all block-size sequences",
  [Z+"Convolver.cpp: Convolver::Process", Z+"time_distributed/TimeDistributedNUPC.cpp", Z+"UniformPartitionedConvolver.cpp"])
p("C02", "Block splitting is invisible to the caller",
  "Feeding the same signal to two equal Convolvers in two different sequences of Process blocks yields the same output signal.",
  "all signals and all pairs of block-size sequences with equal total length",
  "there are exponentially many block splittings; tests try four",
  [Z+"Convolver.cpp: Convolver::Process", Z+"time_distributed/TimeDistributedNUPC.cpp: Process", Z+"UniformPartitionedConvolver.cpp: Process"])
p("C03", "Reset forgets the past completely",
  "After Convolver::Reset the object produces, for every further input, the same output as a newly constructed one, whatever was processed before and at whatever position inside a block or partition Reset was called (although several internal positions are not rewound).",
  "all histories of Process and Reset calls before the Reset, all inputs after it",
  "the un-rewound phases make the result depend on where in a long period Reset lands; tests call Reset at a few positions only",
  [Z+"Convolver.cpp: Reset", Z+"time_distributed/TimeDistributedNUPC.cpp: Reset", Z+"time_distributed/TimeDistributedUPC.cpp: Reset", Z+"UniformPartitionedConvolver.cpp: Reset"])
p("C04", "Routing: only routed channels sound, the rest are silenced",
  "After Process, an output channel that no convolution channel is routed to is exactly zero, and an output channel never depends on an input channel that is not routed to it through some convolution channel. An impulse response without channels silences everything.",
  "all routings, all inputs, all block sizes",
  "isolation between channels is a relation between two runs over all inputs",
  [Z+"Convolver.cpp: Convolver::Process", Z+"Convolver.h: ConvolverSpec"])
p("C05", "UniformPartitionedConvolver is an exact zero-latency convolver on its own",
  "Used directly, UniformPartitionedConvolver outputs the exact linear convolution of its input with its impulse response segment for any (also non power-of-two) partition size and any sequence of block sizes.",
  "all partition sizes >= 1, all IR lengths 1..2^24, all channel counts, all inputs, all block-size sequences",
  "the overlap-save window contains stale samples whose irrelevance must hold for every split; tests sample a few splits with impulses",
  [Z+"UniformPartitionedConvolver.cpp: Process"])
p("C06", "UniformPartitionedConvolver::Reset restores fresh behaviour",
  "After Reset the uniform convolver behaves like a new one although the read/write heads keep their positions.",
  "all histories before Reset and all inputs after it",
  "depends on every possible head position at the time of Reset",
  [Z+"UniformPartitionedConvolver.cpp: Reset"])
p("C07", "TimeDistributedNUPC is an exact zero-latency convolver",
  "TimeDistributedNUPC outputs the exact linear convolution with its whole impulse response, each channel c using IR channel c mod (number of IR channels), for any sequence of block sizes.",
  "all block sizes (tabulated or not), all IR lengths 1..2^24, all inputs, all block-size sequences",
  "needs the head, every time-distributed sub convolver and the delay ring to align at every sample; tests use one block size that is not in the table and so never exercise the time-distributed part",
  [Z+"time_distributed/TimeDistributedNUPC.cpp"])
p("C08", "A time-distributed sub convolver is a pure delay of two partitions plus convolution",
  "Block by block, TimeDistributedUPC outputs the exact convolution of its input with its filter segment, delayed by exactly two partition sizes, for every legal decomposition depth and transform offset and starting from any phase.",
  "all power-of-two partition and block sizes, all decomposition depths and transform offsets that fit the stage, all filter lengths, all inputs, all start phases",
  "the work of one partition is spread over three stages and up to hundreds of calls; tests re-implement the schedule at one size",
  [Z+"time_distributed/TimeDistributedUPC.cpp: Process", Z+"util/DecompositionSchedule.cpp"])
p("C09", "ForwardFFTUnordered is the DFT in bit-reversed order",
  "For every power-of-two size, ForwardFFTUnordered leaves at position k the DFT coefficient whose index is the bit reversal of k.",
  "all power-of-two sizes and all complex inputs",
  "tests check six sizes with one ramp each at 40% tolerance",
  [Z+"util/FFT.cpp: ForwardFFTUnordered"])
p("C10", "Inverse and forward unordered transforms are mutually inverse",
  "InverseFFTUnordered undoes ForwardFFTUnordered and vice versa, exactly, at every power-of-two size, and neither touches data outside the given range.",
  "all power-of-two sizes, all complex inputs, all surrounding data",
  "universally quantified over sizes and data",
  [Z+"util/FFT.cpp"])
p("C11", "Steps of a segmented decomposition may be run in any order and any step count",
  "Running all steps of SegmentedForward/InverseDecompositionRadix2 once each, in any order and for any legal number of steps, has the same result as the single-step call.",
  "all sizes, segment counts, step counts, all permutations of the steps, all data",
  "number of permutations is factorial; the test runs the natural order only",
  [Z+"util/FFTDecomposition.cpp"])
p("C12", "Decomposing and then transforming the pieces equals the whole transform",
  "Applying d decomposition levels and then ForwardFFTUnordered to each of the 2^d pieces equals ForwardFFTUnordered on the whole buffer, for every d; likewise mirrored for the inverse. (So channels with different depths can share one transformed filter.)",
  "all power-of-two sizes, all depths, all data",
  "tests use depth 3 at three sizes",
  [Z+"util/FFTDecomposition.cpp", Z+"util/FFT.cpp"])
p("C13", "The forward schedule never needs a sample before it arrives",
  "When blocks are written into the first half of a cleared buffer one per phase, each followed by ForwardDecompositionSchedule, then after the last phase the buffer holds exactly the d-level decomposition of the complete zero-padded partition.",
  "all partition sizes, block sizes, depths with 2^d <= number of phases, all sample data",
  "just-in-time correctness over all depths and sizes",
  [Z+"util/DecompositionSchedule.cpp: ForwardDecompositionSchedule"])
p("C14", "The inverse schedule delivers each block by the phase that reads it",
  "Starting from the d-level decomposition of a buffer, after phase p of InverseDecompositionSchedule the samples of block p in both halves already have their final values and stay unchanged afterwards.",
  "all sizes, depths, phases, all data",
  "deadline property over all phases and depths",
  [Z+"util/DecompositionSchedule.cpp: InverseDecompositionSchedule"])
p("C15", "Pointwise products of unordered spectra are circular convolutions",
  "Transforming two buffers with ForwardFFTUnordered, multiplying point by point and applying InverseFFTUnordered gives their circular convolution; with both zero-padded to twice the partition size it is their linear convolution.",
  "all power-of-two sizes and all data",
  "algebraic law over all inputs",
  [Z+"util/FFT.cpp", Z+"util/ComplexBuffer.cpp"])
p("C16", "The chosen partition scheme covers the whole impulse response",
  "GetPartitionScheme never returns a layout shorter than the impulse response, so no filter tap is dropped.",
  "all block sizes, all IR lengths 1..2^24 (floating point rounding of the length arithmetic included)",
  "tests never call it directly; 16 million lengths times all block sizes",
  [Z+"util/Partitioning.cpp: GetPartitionScheme", Z+"PartitionSchemes.cpp"])
p("C17", "Every sub convolver has enough clearance",
  "In every returned scheme each sub convolver after the first starts at an offset of at least two of its own partitions plus one block, so its result is ready before any sample of it is due, for any splitting of blocks; partition sizes are powers of two and at least two blocks.",
  "all tabulated block sizes and all IR lengths",
  "one bad table row or an off-by-one in the scheme adjustment only shows for particular lengths",
  [Z+"util/Partitioning.cpp: GetPartitionScheme", Z+"PartitionSchemes.cpp", Z+"time_distributed/TimeDistributedNUPC.cpp: constructor"])
p("C18", "Constructing a convolver never indexes out of range",
  "For every non-empty impulse response the constructor cuts every filter segment from inside the impulse response, gives each sub convolver a non-empty segment and a positive delay and never takes the back of an empty layout. (For an empty impulse response it does: undefined behaviour.)",
  "all IR lengths including 0, all block sizes",
  "needs all lengths; the failing case is an assertion only in debug builds",
  [Z+"time_distributed/TimeDistributedNUPC.cpp: constructor", Z+"util/Partitioning.cpp: ReduceSchemeToFitIR"])
p("C19", "Partition counts survive single-precision arithmetic",
  "The number of partitions computed through float division and ceil equals the exact integer ceiling; beyond 2^24 samples this fails and a tap is lost.",
  "all positive partition sizes and segment sizes",
  "float rounding errors appear at isolated values only",
  [Z+"util/Partitioning.h: GetNumPartitionsRequiredForSegment", Z+"util/Partitioning.cpp"])
p("C20", "The nearest tabulated scheme is chosen",
  "The scheme picked from a non-empty table minimises the distance between its design length and the IR length, whatever the order of the table; it is then only lengthened at, or shortened from, its end.",
  "all tables, all IR lengths",
  "minimality over all tables and lengths",
  [Z+"util/Partitioning.cpp: FindNearestPartitionScheme"])
p("C21", "Every channel's transforms fit inside one stage and the load is level",
  "For any channel count, each channel's transform work fits within the phases of a stage, and within each power-of-two group of at most half the phases exactly one channel transforms in each phase.",
  "all channel counts, all power-of-two partition sizes >= 2 blocks",
  "schedule must fit for every channel count",
  [Z+"time_distributed/TimeDistributedUPCMulti.cpp"])
p("C22", "Channel grouping is the binary decomposition",
  "The groups cover every channel exactly once: group sizes are distinct powers of two, decreasing, summing to the channel count, so every channel gets a sub convolver with its own filter channel (c mod IR channels).",
  "all channel counts",
  "all naturals",
  [Z+"time_distributed/TimeDistributedUPCMulti.cpp: GetPowersOf2In"])
p("C23", "Circular buffer and split block behave like one contiguous delay line",
  "Data copied or added at delay d is what is read back at delay d (and at delay d-a after advancing by a), data at other positions is untouched, clearing a sub block clears exactly its samples; for every head position and wrap-around.",
  "all buffer sizes, head positions, delays, block lengths, contents",
  "wrap-around cases multiply with all head positions",
  [Z+"util/CircularBuffer.cpp", Z+"util/SplitBlock.cpp"])
p("C24", "Frequency delay line returns the block from i calls ago",
  "After any sequence of GetNextBlock, GetBlockWithOffset(i) refers to the block handed out i calls ago, for every i below the number of blocks.",
  "all lengths, all call sequences",
  "modular head arithmetic over all positions",
  [Z+"util/FrequencyDelayLine.cpp"])
p("C25", "Stage buffers rotate A to B to C to A",
  "PromoteStages makes the former A the new B, the former B the new C and the former C the new A, without copying or losing data, any number of times.",
  "all numbers of promotions, all contents",
  "invariant over unbounded histories",
  [Z+"util/DecompositionSchedule.cpp: StageBuffers"])
p("C26", "All pointer accesses of the signal path stay inside their buffers",
  "Every element index computed by the FFT, decomposition, complex multiply and sample loops is inside the buffer it addresses; no division by zero, no negative delay.",
  "all legal configurations and all reachable states",
  "a sanitizer only sees executed configurations",
  [Z+"util/FFT.cpp", Z+"util/FFTDecomposition.cpp", Z+"time_distributed/TimeDistributedUPC.cpp", Z+"time_distributed/TimeDistributedNUPC.cpp"])
p("C27", "Internal block size is a power of two between 32 and 2048",
  "Whatever block size the host or the spec requests, the internal block size is a tabulated power of two in [32,2048], never above the requested one unless that is below 32. (For host maximum block sizes above 2^30 that are not powers of two the computation never terminates.)",
  "all 32-bit requested sizes and optional internal sizes",
  "full 32-bit domain",
  [Z+"Convolver.cpp: powerOfTwoEqualOrBelow", Z+"Convolver.cpp: Convolver::Convolver"])
p("C28", "Routing vectors shorter than the IR are undefined behaviour, longer ones are harmless",
  "Process accesses exactly the first (number of IR channels) entries of both routing vectors; shorter vectors or out-of-range channels are undefined behaviour, extra entries are ignored.",
  "all routings and channel counts",
  "undefined behaviour is invisible to tests; the project's own test helper uses empty routings",
  [Z+"Convolver.cpp: Convolver::Process"])
p("C29", "The command queue is a bounded FIFO",
  "Commands pushed are serviced exactly once, in order; a push is refused exactly when 399 commands are waiting, and a refused push changes nothing.",
  "all sequences of push and service operations",
  "ring indices wrap after hundreds of operations; unbounded histories",
  [Z+"ConvolutionEngine.h: ConvolutionVisitorQueue"])
p("C30", "The command queue is safe with one producer and one consumer running concurrently",
  "For every interleaving of the individual steps of one pushing and one servicing thread, every accepted command is serviced exactly once in push order and no slot is read while it is being written; a service hands over at least everything accepted before it began, a push is refused only if 399 places were taken, and every step of the two threads is a step of (or invisible to) a queue whose pushes and services are atomic.",
  "all interleavings of steps of a producer and a consumer, unbounded",
  "interleavings cannot be enumerated by tests",
  [Z+"ConvolutionEngine.h: ConvolutionVisitorQueue"])
p("C31", "Impulse responses reach the audio thread in the order they were loaded",
  "Ready convolvers enter an engine's command queue in strictly increasing LoadIR order, at most one per LoadIR call, built from the impulse response of that call for the format the engine had last been prepared for when that call handed its job to the thread pool; once LoadIR has cancelled the previous jobs (in particular once it returns) no older load of that engine can be delivered any more.",
  "all interleavings of LoadIR, job execution on any number of pool threads, process, reset, prepare, Clear, the background thread, the message thread and destruction, for any number of engines on one pool",
  "thread schedules cannot be enumerated",
  [Z+"ConvolutionEngine.cpp: LoadIR, LoadIRJob::runJob"])
p("C32", "The most recently delivered impulse response is what finally plays",
  "If no more loads arrive, then after processing at most four times the longest fade plus the largest block, the active convolver is the most recently delivered one and no fade is running or waiting, provided no reset, prepare or Clear came while one response was fading in and another one was waiting.",
  "all histories of audio-side calls, all block sizes",
  "liveness over all states and histories",
  [Z+"ConvolutionEngine.cpp: process, operator()"])
p("C33", "A crossfade is a complementary linear mix",
  "During a crossfade over n samples output sample t is (1-g)*old + g*new with g = min(1, (t+1)/n), independent of block sizes and of responses arriving meanwhile; both convolvers are fed the same input, the new one from the first sample of the fade on. (A response that arrives after a reset which picked up another one replaces it within one block, without fade.)",
  "all fade lengths, all block-size sequences, all signals, all reachable engine states",
  "gain ramps across arbitrary block splits",
  [Z+"ConvolutionEngine.cpp: process, BeginFade"])
p("C34", "An in/out fade never mixes two impulse responses",
  "With the in/out strategy the old response alone processes the input and is faded linearly to silence; from the following block on the new one alone processes the input and is faded in; exactly one convolver is run per call.",
  "all fade lengths, all block-size sequences, all signals, all reachable engine states",
  "all block splits",
  [Z+"ConvolutionEngine.cpp: process"])
p("C35", "Fade length and strategy follow the impulse response length",
  "Impulse responses of at least ten seconds always use the in/out fade of 0.4 s each way; otherwise the requested strategy is used and a crossfade lasts 0.14 of the IR length clamped between 0.1 s and 4 s, in whole samples rounded up; the fade begins with the block the response is picked up in, or the block after the fade it had to wait for.",
  "all IR lengths and integral sample rates up to 2^22 Hz (single-precision arithmetic included), all reachable engine states",
  "all lengths",
  [Z+"ConvolutionEngine.cpp: BeginFade, prepare"])
p("C36", "No convolver is lost, leaked or freed twice",
  "At any time every convolver ever constructed for an engine is in exactly one place: with the job that built it, in a queue or slot of the engine, or destroyed; once the engine and its jobs are gone each has been destroyed exactly once.",
  "all interleavings of all threads, any number of engines",
  "ownership over unbounded histories",
  [Z+"ConvolutionEngine.cpp", Z+"ConvolutionEngine.h"])
p("C37", "The audio thread frees a convolver only in reset, prepare or Clear, or if the disposal queue is full",
  "process hands every replaced convolver to the background thread; a convolver is destroyed on the thread of the audio-side calls only by reset, prepare or Clear, or when 399 disposals are already waiting. (reset and prepare during a fade do destroy the replaced one.)",
  "all interleavings of all threads",
  "real-time safety over all histories",
  [Z+"ConvolutionEngine.cpp: operator(), process, reset, Clear"])
p("C38", "reset makes the newest impulse response active",
  "After reset or prepare the most recently delivered impulse response plays alone from a cleared state and its output is the exact convolution of the input since then, unless the call found one response fading in and another one waiting: then the next block disposes of the newest response and the older one plays from then on.",
  "all reachable engine states",
  "needs particular combinations of slots (fading and pending) at reset",
  [Z+"ConvolutionEngine.cpp: reset"])
p("C39", "Clear leaves the engine without impulse response",
  "After Clear the engine passes audio through unchanged until a new impulse response is delivered, unless Clear found one response fading in and another one waiting: then the fading one survives and plays again after one block.",
  "all reachable engine states, all following calls",
  "needs particular states and schedules",
  [Z+"ConvolutionEngine.cpp: Clear"])
p("C40", "IsLoading is true exactly while a load is outstanding",
  "IsLoading is true from the moment LoadIR announces the load until it has been delivered, refused or superseded, and only then, as long as the engine is not reset, prepared or cleared meanwhile (these make it false although the load goes on) and no other engine uses the pool (whose LoadIR cancels the load but leaves IsLoading true).",
  "all interleavings of LoadIR, jobs, audio-side calls, several engines on one pool",
  "thread schedules",
  [Z+"ConvolutionEngine.cpp: LoadIR, IsLoading, reset"])
p("C41", "LoadIR before the first prepare has no effect",
  "A LoadIR call that returns before the first prepare (as in the README example) has no effect: nothing is ever built or delivered for it, and if no other LoadIR follows the engine stays transparent for ever.",
  "all interleavings and histories",
  "negative result about all histories",
  [Z+"ConvolutionEngine.cpp: LoadIR", "README.md"])
p("C42", "Without an impulse response the engine is transparent",
  "Until the first convolver is delivered process leaves every block unchanged, whatever else is called; the first one (ever or after Clear) plays at once, without a fade.",
  "all interleavings, all block sequences",
  "all inputs",
  [Z+"ConvolutionEngine.cpp: process"])
p("C43", "Destroying an engine is safe exactly when no load or callback of it is left",
  "If the pool has no job of the engine and no completion callback of it is waiting on the message thread, nothing accesses the engine after its destruction; if a job (even a superseded one) or a callback is left, there is a continuation in which the destroyed engine is accessed.",
  "all interleavings of destruction, running jobs and the message thread",
  "thread schedules",
  [Z+"ConvolutionEngine.cpp: ~ConvolutionEngine, LoadIRJob::runJob, LoadIR"])
p("C44", "Engines sharing a thread pool disturb each other only by cancelling loads",
  "A LoadIR call on any engine cancels the pending loads of all engines on the pool: afterwards an engine gets only convolvers of loads that had not yet added their job, or that begin later; apart from that, no step on behalf of one engine changes anything of another one or its jobs.",
  "all interleavings of any number of engines on one pool",
  "thread schedules",
  [Z+"ConvolutionEngine.cpp: LoadIR"])
p("C45", "Steady-state engine output is the exact convolution",
  "When no fade is in progress, process applies exactly the active Convolver to the block; with C01 the output is the exact linear convolution.",
  "all steady states, all blocks",
  "all inputs and histories",
  [Z+"ConvolutionEngine.cpp: process"])
p("C46", "Convolution is linear and time invariant as seen by the user",
  "Convolver output is additive and homogeneous in the input, silence yields silence, and delaying the input by any number of samples delays the output by the same number.",
  "all inputs, all delays, all block splittings",
  "relations between runs over all inputs",
  [Z+"Convolver.cpp"])
p("C47", "The response ends with the impulse response",
  "If the input is silent from sample m on, the output is exactly silent from sample m + IR length - 1 on.",
  "all inputs, all IR lengths",
  "all inputs; the test accepts a residual of 5e-5",
  [Z+"Convolver.cpp"])
p("C48", "ComplexBuffer operations act pointwise on every channel",
  "ComplexMultiplyFrom, AddFrom, ComplexMultiplyAccumulateFrom, Clear and CopyFromAudioBlock change exactly the points they claim to; writing through a channel's pointer changes that channel only; and the float view interleaves real and imaginary parts without loss.",
  "all sizes, channel counts and contents",
  "all sizes and data",
  [Z+"util/ComplexBuffer.cpp"])
p("C49", "Crossfading needs blocks within the prepared size",
  "process is defined for every block of at most the prepared channel count and maximum block size; a larger block during a crossfade is undefined behaviour although it is fine outside of one.",
  "all block sizes, all engine states",
  "only fails while a crossfade is running",
  [Z+"ConvolutionEngine.cpp: process, prepare"])
p("C50", "Process does a bounded amount of work",
  "Every Process call terminates; a call of n samples on a Convolver with internal block size B makes at most ceil(n/B) passes of its chunk loop, each with at most two passes of the partition loop; a direct call on a partitioned convolver that has collected c < B samples of its current partition makes at most (c+n)/B passes, rounded up; a pass contains at most one uniform-convolver pass and one step of each time-distributed sub convolver.",
  "all block sizes and all reachable states",
  "termination and cost bound for all inputs",
  [Z+"Convolver.cpp: Process", Z+"UniformPartitionedConvolver.cpp: Process", Z+"time_distributed/TimeDistributedNUPC.cpp: Process"])
p("C51", "PushCommand and Service never wait for each other",
  "Whatever the other thread does or does not do, PushCommand returns after at most 8 of its own steps and Service after at most 805, and both can always take their next step.",
  "all interleavings of single loads and stores of one pushing and one servicing thread, unbounded",
  "wait-freedom quantifies over all schedules",
  [Z+"ConvolutionEngine.h: VisitorQueue"])
p("C52", "Concurrent executions look like sequential call histories",
  "Whatever the threads do, the state and all output of an engine between two audio-side calls are those of a sequential history: the same audio-side calls one after another, each finding some convolvers in the queue, which together with those still waiting are exactly the delivered ones in order; a call finds at least everything that waited when it began.",
  "all interleavings of all threads, any number of engines",
  "a refinement statement over all schedules",
  [Z+"ConvolutionEngine.cpp: process, reset, prepare, Clear, LoadIR, LoadIRJob::runJob"])
p("C53", "Audio-side calls never wait for loads",
  "In every reachable state an audio-side call in progress can finish by its own thread's steps alone, and under any interleaving it takes at most 402 of them: it never waits for a lock, a load or another thread.",
  "all reachable states, all interleavings",
  "real-time guarantee over all schedules",
  [Z+"ConvolutionEngine.cpp: process, reset, prepare, Clear"])
p("C54", "The load mutex is always released; a listener that calls LoadIR deadlocks",
  "Whoever holds the load mutex can release it by at most three steps of its own, whatever else is going on; but a call of LoadIR on the same engine from within a listener called by LoadIR never gets past the lock.",
  "all reachable states, all interleavings",
  "deadlock freedom over all schedules",
  [Z+"ConvolutionEngine.cpp: LoadIR, LoadIRJob::runJob, EmitLoadingEvent"])
p("C55", "A load that is not superseded is delivered",
  "A load whose job has not been superseded is never lost: its job stays until it is delivered or refused, it is refused only if 399 convolvers are waiting or being serviced, and whenever the engine is alive, has room and no LoadIR is under way the workers alone can deliver it.",
  "all interleavings of all threads, any number of engines",
  "liveness over all schedules",
  [Z+"ConvolutionEngine.cpp: LoadIR, LoadIRJob::runJob"])
p("C56", "From LoadIR to the samples",
  "In the concurrent system: when no more responses are delivered, then after the fades and one response length the output is sample by sample the convolution of the input with the impulse response passed to the last delivered LoadIR call, with its routing.",
  "all interleavings of all threads, any number of engines and loads, all usable impulse responses and routings, all block sizes and signals",
  "end-to-end guarantee over all schedules and inputs",
  [Z+"ConvolutionEngine.cpp", Z+"Convolver.cpp"])
G = "garcia_optimal_partitioning/garcia_optimal_partitioning.py"
p("C57", "The partition table generator always returns valid partitionings",
  "find_optimum (latency, ir_size) terminates without raising and, for at least two whole blocks, returns a non-empty list of tables; each lists the partitions of a partitioning whose sizes are powers of two times the latency and never decrease, whose first partition is one block, in which every later partition of b blocks begins at a block o with 2 b <= o + 1, and which just covers the blocks. For less than two blocks it returns no table.",
  "all positive latencies and all lengths",
  "the graph grows with the length; the script has no tests",
  [G+": find_optimum", G+": get_next_sequence", G+": is_transition_viable", G+": trace_backward"])
p("C58", "The generated partitionings are optimal",
  "No valid partitioning that covers the same blocks has a lower cost (4 per partition, 4 k log2 (2 latency b) per new size b) than one that find_optimum returns.",
  "all positive latencies, all lengths, all valid partitionings (exponentially many)",
  "an optimum over all partitionings",
  [G+": find_optimum", G+": get_transition_cost", G+": get_graph_leafs"])
p("C59", "Generated tables are well formed and leave two partitions less one block of clearance",
  "In every table that find_optimum returns, sizes increase, the first is the latency, every count is positive, the partitions cover all whole blocks, and the partitions of every later size begin no earlier than twice their size less one block.",
  "all positive latencies and lengths, all returned tables and all their rows",
  "a property of an optimisation result for every input",
  [G+": find_optimum", Z+"time_distributed/TimeDistributedNUPC.cpp: TimeDistributedNUPC"])
p("C60", "The compiled-in tables are optimal",
  "Every row of the tables compiled into the library is a valid partitioning of exactly its impulse response length, no valid partitioning covering this length is cheaper, and it costs what the generator finds for its block size and length.",
  "all rows of all tables against all valid partitionings of any shape",
  "the comparison ranges over all partitionings; the generator's recursion is not run in any test",
  [Z+"PartitionSchemes.cpp", G+": find_optimum"])
p("C61", "Loads come to an end, and the last one is delivered",
  "If the worker threads and the LoadIR calls under way are not starved, no more LoadIR calls come, and no engine is destroyed while it has jobs, then finally no load is under way any more. The convolver of the last LoadIR call on a prepared engine is finally delivered to this engine, constructed for this request, or destroyed because 399 others are waiting, provided no other engine cancels it.",
  "all endless behaviours of all threads with a fair scheduler, any number of engines and loads",
  "liveness: something must happen in every fair infinite schedule",
  [Z+"ConvolutionEngine.cpp: LoadIR", Z+"ConvolutionEngine.cpp: LoadIRJob::runJob"])
p("C62", "What is delivered is picked up",
  "As long as the host keeps making audio-side calls, every convolver delivered to the engine's command queue is finally found by one of them.",
  "all endless behaviours of all threads in which the calls keep coming",
  "liveness over infinite schedules",
  [Z+"ConvolutionEngine.cpp: process", Z+"ConvolutionEngine.h: VisitorQueue"])
p("C63", "The engine finally convolves with the last response",
  "After any number of LoadIR calls, if workers are not starved and the host keeps processing non-empty blocks, there is a moment from which the engine's output is the convolution of its input with the response of the last LoadIR call, once one response length of input has been processed since that moment.",
  "all fair endless behaviours, any number of loads at any time, all usable responses, routings, signals and block sizes",
  "end-to-end liveness over infinite schedules and all signals",
  [Z+"ConvolutionEngine.cpp", Z+"Convolver.cpp"])
p("C64", "Replaced convolvers are destroyed and listeners are told",
  "A convolver handed to the notification queue is finally destroyed on the background thread, and after the last completed load the listeners are finally called on the message thread when IsLoading is false, as long as the engine lives and these threads are not starved.",
  "all fair endless behaviours of all threads",
  "liveness over infinite schedules",
  [Z+"ConvolutionEngine.cpp: run", Z+"ConvolutionEngine.cpp: LoadIR"])
p("C65", "Schemes are not wasteful",
  "GetPartitionScheme covers less than the impulse response length plus one block plus one partition of its last sub convolver: only the deliberately added block and part of the last partition go beyond the response.",
  "all block sizes and impulse response lengths from 1 to 2^24, with the float rounding of the code",
  "a bound over all lengths and all table rows, with floor and ceil of rounded quotients",
  [Z+"util/Partitioning.cpp: GetPartitionScheme"])
p("C66", "No int overflow while a convolver is built",
  "Every signed int operation of choosing the scheme and computing sizes, offsets, FFT sizes, partition cuts and delays in the constructors stays in the 32 bit range, so the values are those of exact arithmetic. The ranges of samples so computed for the filter partitions are, in order, the samples of the impulse response: each exactly once, none skipped, nothing past the end, each range at most one partition long.",
  "all block sizes and impulse response lengths from 1 to 2^24",
  "overflow at any of the intermediate values would need the worst length to be tried",
  [Z+"util/Partitioning.cpp: GetPartitionScheme", Z+"util/Partitioning.h: GetSubConvolverSizeSamples", Z+"time_distributed/TimeDistributedNUPC.cpp: TimeDistributedNUPC", Z+"UniformPartitionedConvolver.cpp: UniformPartitionedConvolver", Z+"time_distributed/TimeDistributedUPCMulti.cpp: TimeDistributedUPCMulti"])
p("C67", "Distributing a transform over time does not change a bit",
  "Whatever the sample arithmetic rounds to, running the decomposition schedule phase by phase while the blocks arrive and then transforming the pieces leaves exactly the numbers that one transform of the complete zero padded partition computes; on the way back, exactly the numbers of one inverse transform.",
  "all arithmetics of samples, all partition and block sizes, all decomposition depths, all data",
  "bit equality for every data value and every rounding cannot be sampled",
  [Z+"time_distributed/FFT.cpp", Z+"time_distributed/DecompositionSchedule.cpp", Z+"time_distributed/TimeDistributedUPC.cpp: Process"])
p("C68", "Channels do not interact, not even through rounding",
  "If the IR channels routed to an output of one convolver hold the same samples and receive the same input as those routed to an output of another convolver of the same internal block size and IR length, the two outputs are equal sample for sample in floating point, whatever the other channels hold and receive, however many there are, and whatever the memory held at construction. In particular, what is sent to inputs that are not routed to an output does not change a bit of it.",
  "all arithmetics within the accuracy model, all in-place FFT implementations within theirs, all impulse responses, routings, histories of Process and Reset, block sequences, uninitialised memory contents",
  "a leak between channels at rounding level could occur for any data and any history",
  [Z+"Convolver.cpp", Z+"UniformPartitionedConvolver.cpp", Z+"time_distributed/TimeDistributedNUPC.cpp", Z+"time_distributed/TimeDistributedUPCMulti.cpp", Z+"time_distributed/TimeDistributedUPC.cpp"])
p("C69", "Accuracy of the transforms in floating point",
  "With rounding after every operation, the forward transform of 2^n points differs from the DFT by at most ((1+u)^3(1+t))^n - 1, about n(3u+t), relative to the norm of the exact result; the inverse and the round trip likewise.",
  "all sizes, all data, all arithmetics with relative error u and twiddle error t",
  "a worst case over all data",
  [Z+"time_distributed/FFT.cpp"])
p("C70", "Accuracy of the sub convolvers in floating point",
  "Every output sample of the uniform and of the time distributed convolver differs from the exact (delayed) convolution by at most an explicit factor times the input level around the sample times the norms of the IR partitions, at every time, new or after Reset.",
  "all impulse responses up to 2^24 samples, partition sizes, channel counts, block sequences, histories, arithmetics within the accuracy model",
  "a worst case over all data, and no accumulation of errors over unbounded time",
  [Z+"UniformPartitionedConvolver.cpp: Process", Z+"time_distributed/TimeDistributedUPC.cpp: Process", Z+"time_distributed/TimeDistributedUPCMulti.cpp: Process"])
p("C71", "Rounding errors of the convolver are bounded for all time",
  "However long the convolver has been running and however the signal was split into blocks, every floating point output sample is within an explicit bound of the exact convolution; the bound depends only on the level of the input around that sample, the impulse response and the partition scheme, not on the time or on what happened earlier.",
  "all usable configurations, block sequences, output channels, sample times, arithmetics within the accuracy model",
  "accumulation of errors over unbounded time cannot be excluded by running for a while",
  [Z+"Convolver.cpp: Process", Z+"time_distributed/TimeDistributedNUPC.cpp: Process", Z+"UniformPartitionedConvolver.cpp: Process"])
p("C72", "Reset erases rounding errors",
  "After any history of Process and Reset calls, the error of everything processed after a Reset obeys the bound of C71 with levels of the new input alone.",
  "all histories, all later block sequences, arithmetics within the accuracy model",
  "residues of the past could show up for any history",
  [Z+"Convolver.cpp: Reset", Z+"time_distributed/TimeDistributedNUPC.cpp: Reset", Z+"UniformPartitionedConvolver.cpp: Reset"])
p("C73", "Silence is exact in floating point",
  "When the inputs routed to an output have been exactly zero for the length of the impulse response plus a fixed number of samples, that output is exactly zero: no rounding noise keeps circulating, and none appears on a silent input.",
  "all histories, all usable configurations, arithmetics within the accuracy model",
  "noise circulating in the delay lines could appear for any earlier signal",
  [Z+"Convolver.cpp: Process", Z+"time_distributed/TimeDistributedNUPC.cpp: Process"])
p("C74", "Fades in floating point are linear up to rounding",
  "With the smoothers' gains and the mixing computed in floating point, the output during a fade is the linear mix (or the linear fade out and in) of the two responses up to an explicit error of about 2 n u (n u) relative to the louder response, for a fade over n samples; errors do not outlive the fade: its last sample contains nothing of the old response, and the new one at full level.",
  "all histories of loads, prepares, resets, clears and blocks, all sample rates up to 200 kHz, all fade lengths, all arithmetics with relative error u",
  "the gain is accumulated by repeated rounded additions; a worst case over all fade lengths and signals",
  [Z+"ConvolutionEngine.cpp: process", Z+"ConvolutionEngine.cpp: Service"])
p("C75", "The engine's output in floating point",
  "With everything rounded, the engine's output is the convolution with the playing response, and during fades the linear mix of the two convolutions, within an explicit bound made of the error bounds of C71 for the two responses and the error of the fade.",
  "all histories of the engine, all usable responses, signals, block sizes, fade strategies, arithmetics within the accuracy model",
  "a worst case over all signals and histories, end to end",
  [Z+"ConvolutionEngine.cpp: process", Z+"Convolver.cpp: Process"])
p("C76", "The newest response finally plays, up to a rounding error that does not depend on the past",
  "Whatever happened before, once the fades are over and the response length and two of its largest partitions have been processed, every output sample is within the bound of C71 of the convolution of the input with the last response that arrived; the bound depends on the recent input only. The same holds in the concurrent system, and if the threads are scheduled fairly and the host keeps processing, the response of the last LoadIR call finally plays.",
  "all histories in which no reset hits a waiting response, all later blocks, all executions of the concurrent system, all fair endless ones, arithmetics within the accuracy model",
  "rounding errors of unbounded histories, over all of their interleavings with fades",
  [Z+"ConvolutionEngine.cpp: process", Z+"ConvolutionEngine.cpp: Service", Z+"Convolver.cpp: Process"])
p("C77", "The queues need no more than release/acquire atomics",
  "Between a pushing and a servicing thread that share only two atomic indices with release/acquire ordering, no execution contains a data race on a slot, whatever stale values the loads return; commands are handed over in order, exactly once and completely written; a service that happens after a push hands its command over; a push that happens after services is refused only when the queue is full; no call ever waits.",
  "all executions of the release/acquire memory model, all numbers of pushes and services",
  "weak memory effects show up only on some hardware and only under rare timings",
  [Z+"ConvolutionEngine.h: VisitorQueue", Z+"ConvolutionEngine.h: PushCommand", Z+"ConvolutionEngine.h: Service"])
p("C78", "The output is never louder than the input times the gain of the strongest response",
  "Whatever calls have been made, with responses arriving at any time and resets, prepares and clears in the middle of fades, if no input sample exceeds X and no response raises the level by more than G (sum of absolute values of the samples routed to an output), no output sample exceeds max(1, G) X. This bound is attained. In particular, if all input has been silent the output is exactly silent: nothing left in the engine's memory is ever heard. The bound also holds for everything an engine puts out in the concurrent system, whatever the threads do.",
  "all histories of calls, all executions of the concurrent system, all usable responses and signals",
  "a worst case over all signals and all histories",
  [Z+"ConvolutionEngine.cpp: process", Z+"ConvolutionEngine.cpp: reset", Z+"ConvolutionEngine.cpp: prepare", Z+"ConvolutionEngine.cpp: Service"])
p("C79", "The level stays bounded in floating point, however long the engine runs",
  "With everything rounded, the output is at most the level of the input times the gain of the strongest response (its exact gain plus the error bound of C71) and a factor (1 + u)^(8 R + 6) for the fades, R being the sample rate. The bound does not grow with the length of the history: rounding errors do not build up. The same holds in the concurrent system, whatever the threads do.",
  "all histories of calls, all executions of the concurrent system, all usable responses and signals, all whole sample rates up to 2^22 Hz, arithmetics within the accuracy model",
  "rounding errors over unbounded histories",
  [Z+"ConvolutionEngine.cpp: process", Z+"Convolver.cpp: Process"])
p("C80", "The past is forgotten: the level depends on the recent input alone, and the tail ends",
  "Whatever calls have been made and however loud the input was, once as many samples as the responses delivered before are long (less one) have been processed at level X or less, the output is at most at level max(1, G) X. In particular, after that many samples of silence the output is exactly 0, even if fades are still running or responses keep arriving. The same holds in the concurrent system, whatever the threads do.",
  "all histories of calls, all executions of the concurrent system, all usable responses and signals",
  "every way in which old samples could survive in some buffer of a convolver that was playing, fading or waiting",
  [Z+"ConvolutionEngine.cpp: process", Z+"ConvolutionEngine.cpp: reset", Z+"Convolver.cpp: Process"])
p("C81", "Rounding errors of the past are forgotten, and the tail ends exactly, in floating point",
  "With everything rounded, once the length of the responses, twice the largest partition and a block have been processed at level X or less, the bound of C79 holds with that X. In particular, after that many samples of silence the output is exactly 0: no residue of rounding errors circulates. The same holds in the concurrent system, whatever the threads do.",
  "all histories of calls, all executions of the concurrent system, all usable responses and signals, all whole sample rates up to 2^22 Hz, arithmetics within the accuracy model",
  "rounding errors over unbounded histories",
  [Z+"ConvolutionEngine.cpp: process", Z+"Convolver.cpp: Process"])
p("C82", "Happens-before orders all accesses to convolvers, load jobs and fade state",
  "In every execution of any number of engines, callers of LoadIR, pool workers, audio threads, background threads and the message thread, any two accesses to the same convolver, the same load job (with its copy of the response) or the fade state of the same engine are ordered by happens-before (program order, load_mutex_, the pool's lock, the two queues, thread start and join, and what the user must do not to call process concurrently with reset or the destructor): no data race. The only exception is a destructor meeting a convolver that is still in the command queue (C83).",
  "all executions, all numbers of engines and loads, all schedules, every pair of accesses",
  "a data race shows only in some schedules, if at all, and a test cannot establish that two accesses are ordered in all",
  [Z+"ConvolutionEngine.cpp: LoadIRJob::runJob", Z+"ConvolutionEngine.cpp: LoadIR", Z+"ConvolutionEngine.cpp: process", Z+"ConvolutionEngine.cpp: run", Z+"ConvolutionEngine.h: CommandQueue"])
p("C83", "The data races that remain: prepare, reset and Clear against LoadIR, and the destructor against a delivery",
  "prepare writes spec_ and is_loading_, and reset and Clear write is_loading_, without the mutex under which LoadIR reads and writes them: whenever LoadIR is about to do so and the engine is between two calls, such a call made then is not ordered with it, a data race. The destructor takes no lock either: it is not ordered with the construction of a convolver that a worker has delivered to the command queue, even after the worker has finished.",
  "all executions that reach such a point",
  "the conflict is invisible to sequential tests and depends on the schedule",
  [Z+"ConvolutionEngine.cpp: prepare", Z+"ConvolutionEngine.cpp: reset", Z+"ConvolutionEngine.cpp: LoadIR", Z+"ConvolutionEngine.cpp: ~ConvolutionEngine"])
p("C84", "Which partition schemes work: two partitions and one block of clearance, no less",
  "Take any partition scheme of the kind the tables contain: a first part of one-block partitions, then parts with partitions of 2, 4, 8, ... blocks, together covering the impulse response, each part starting at least two of its partitions into it. In calls whose lengths are multiples of the block size, a convolver built from it computes the exact convolution. In calls of any lengths it is exact for all impulse responses and inputs if and only if every part starts at least two of its partitions and one more block into the impulse response; otherwise there is an impulse response for which it loses a sample after the first short call. The script that generates the tables does not ensure the extra block: for block size 16 and 368 samples its only result violates it (the compiled tables, C17, do not).",
  "all block sizes 2^b, all usable schemes, all impulse responses, inputs and sequences of call lengths",
  "an unbounded family of schemes, histories and signals; the error needs a scheme that the compiled tables don't contain and a call that ends inside a block",
  [Z+"time_distributed/TimeDistributedNUPC.cpp: TimeDistributedNUPC", Z+"time_distributed/TimeDistributedNUPC.cpp: Process", Z+"util/Partitioning.cpp: GetPartitionScheme", "garcia_optimal_partitioning/garcia_optimal_partitioning.py: find_optimum", "garcia_optimal_partitioning/convert_results.py: normalise_result"])
p("C85", "The engine does exactly what a reference engine without queues, smoothers, partitions and transforms does",
  "For every history of audio-side calls, with responses arriving at any time and resets, prepares and clears at any point, including awkward ones in the middle of fades, every output sample is the one a small reference engine delivers, in which at most one response plays, possibly being faded to another while one more waits, and a response contributes the convolution of its impulse response with what it has heard since it was new or reset; and the same responses are playing, being faded to and waiting. In the concurrent system this holds whatever the threads do: all an engine has output is determined by the audio-side calls, the LoadIR requests and by which calls found which loads.",
  "all histories of calls, all usable responses, signals, block sizes and whole sample rates up to 200 kHz, all schedules",
  "a complete description of the output for an unbounded set of histories and schedules",
  [Z+"ConvolutionEngine.cpp: process", Z+"ConvolutionEngine.cpp: reset", Z+"ConvolutionEngine.cpp: prepare", Z+"ConvolutionEngine.cpp: Clear", Z+"ConvolutionEngine.cpp: Service", Z+"Convolver.cpp: Process"])
p("C86", "In floating point, the engine does what the reference engine does, up to rounding",
  "With everything rounded, for every history of audio-side calls with responses arriving at any time and resets, prepares and clears at any point, every output sample is within an explicit bound of the one the reference engine of C85 delivers: the error bounds of C71 of the responses that sound at that moment, faded as they are, plus the error of the fade. The bound does not depend on anything before the responses were last reset. The same responses are playing, being faded to and waiting: no rounding ever changes what the engine does. This holds in the concurrent system, whatever the threads do.",
  "all histories of calls, all usable responses, signals, block sizes and whole sample rates up to 200 kHz, all schedules, arithmetics within the accuracy model",
  "rounding errors of unbounded histories, over all interleavings with fades and resets",
  [Z+"ConvolutionEngine.cpp: process", Z+"ConvolutionEngine.cpp: reset", Z+"ConvolutionEngine.cpp: prepare", Z+"ConvolutionEngine.cpp: Clear", Z+"Convolver.cpp: Process"])
p("C87", "How many operations a Process call executes",
  "After any calls of Process and Reset, a Process call of n samples executes an exactly determined number of butterflies, products of spectra and FFT calls: a function of block size, number of channels, partition scheme, n, the number of samples since the last Reset modulo the block size and the number of blocks completed modulo the partition sizes, and never of the samples. Over any sequence of calls of any sizes whose number of samples is a multiple of the partition sizes, each stage executes exactly the butterflies of whole transforms forth and back; distributing them over time costs nothing. In no block are there more butterflies than the sum of the stages' peaks, and this maximum is attained, by all stages in the same block, in every block whose number is a multiple of all partition sizes (as the first one is).",
  "all usable impulse responses, channel counts, block sizes and routings, all histories of calls, all call lengths",
  "an exact count over an unbounded set of histories; tests can only time a few of them",
  [Z+"Convolver.cpp: Process", Z+"time_distributed/TimeDistributedNUPC.cpp: Process", Z+"time_distributed/TimeDistributedUPC.cpp: Process", Z+"util/FFTDecomposition.cpp", Z+"UniformPartitionedConvolver.cpp: Process"])
p("C88", "The table generator minimises what Process executes",
  "For an impulse response of any length in the compiled tables, played in whole blocks, the operations Process executes (two for each product of spectral values, 3.4 for each butterfly) are, per sample and channel over a whole period, exactly the cost the table generator assigns to the row, plus 4 for the first partition, plus 4 for the extra block in front if there is more than one partition size. So no viable partitioning of that length would be charged less, but for 8 per sample and channel.",
  "all rows of the compiled tables with reachable block sizes, all channel counts, all viable partitionings compared with, all histories that end at a block boundary, all sequences of calls in whole blocks that make up a period",
  "relates an offline script to what the real-time code executes, for all competing partitionings",
  [Z+"Convolver.cpp: Process", Z+"util/Partitioning.cpp: GetPartitionScheme", Z+"PartitionSchemes.cpp", "garcia_optimal_partitioning/garcia_optimal_partitioning.py: find_optimum"])
p("C89", "Memory is allocated once, in an amount linear in the impulse response",
  "The buffers of a convolver hold together, for each channel of the impulse response, exactly the number of floats the partition scheme calls for (a spectrum in the filter and one in the delay line for each partition, three spectra and an overlap for each stage, and a few blocks), never more than 33 for each sample of the response and 19 for each sample of a block. No call of Process or Reset, with blocks of any size, ever changes the size of any of these buffers.",
  "all usable impulse responses, channel counts, block sizes and routings, all histories of calls, all call lengths",
  "an invariant over unbounded histories; no test can show that a real-time path never allocates",
  [Z+"Convolver.cpp: Convolver", Z+"Convolver.cpp: Process", Z+"time_distributed/TimeDistributedNUPC.cpp: TimeDistributedNUPC", Z+"time_distributed/TimeDistributedUPC.cpp: TimeDistributedUPC", Z+"UniformPartitionedConvolver.cpp: UniformPartitionedConvolver"])
p("C90", "The engine runs only the convolvers that can be heard",
  "One call of the engine's process runs each convolver that can be heard exactly once, on a block of the host's size, and no other: none without an impulse response, one in the steady state and in an in/out fade, two in a crossfade, never one that waits behind a fade. So a process call costs at most two calls of Convolver::Process. reset, prepare, Clear and the arrival of new responses run none. In any history no convolver is run more often than process was called.",
  "all engine states, all arriving responses, all calls and blocks, all histories of calls, all implementations of the convolver",
  "bounds the real-time load in every state and history, including fades begun at any time",
  [Z+"ConvolutionEngine.cpp: process", Z+"ConvolutionEngine.cpp: reset", Z+"ConvolutionEngine.cpp: prepare", Z+"ConvolutionEngine.cpp: Clear"])
p("C91", "The past is forgotten bit for bit, whatever the arithmetic rounds to",
  "An output sample depends, to the last bit, on nothing but the recent input. Two convolvers for the same response, constructed in memory with different contents, are given signals in blocks of the same shape (and, before a Reset, the same calls on blocks of any contents). Wherever the two signals agree, on the input channels routed to an output, in the ir.n + 2^L + B samples before a sample and in the rest of its block, the two outputs agree at that sample exactly, however different the signals were before. Nothing is assumed of the rounding but that zeros stay zero: it may flush, saturate or be arbitrarily coarse.",
  "all arithmetics exact on zeros, all real transforms, all usable impulse responses, block sizes and routings, all pairs of signals and histories of calls, all initial memory contents",
  "a relation between pairs of unbounded runs, for every rounding",
  [Z+"Convolver.cpp: Process", Z+"Convolver.cpp: Reset", Z+"time_distributed/TimeDistributedNUPC.cpp: Process", Z+"time_distributed/TimeDistributedUPC.cpp: Process", Z+"UniformPartitionedConvolver.cpp: Process"])
p("C92", "Block lengths do not change a bit, if they are multiples of the internal block size",
  "The bits of a convolver's output depend on the signal and on the pieces its blocks are cut into (internal block size B at a time, and a rest), not on which Process calls the pieces arrive in: two callers who feed the same signal in blocks whose lengths are multiples of B get bit-identical output, whatever the multiples are, and so do two callers whose blocks give the same pieces. This holds in any arithmetic (rounded, saturating, fixed point) that is exact on zeros, for two convolvers built from different memory, and after Reset if the calls before it gave the same pieces.",
  "all impulse responses and routings the constructor accepts, all arithmetics exact on zeros, all library transforms with the data flow of real transforms, all signals, all pairs of block sequences (any number and lengths) and of histories of Process and Reset",
  "a test compares a few block lengths on one machine's arithmetic; that the state carried between calls contains nothing that depends on the cutting is about all of them",
  [Z+"Convolver.cpp: Process", Z+"time_distributed/TimeDistributedNUPC.cpp: Process", Z+"UniformPartitionedConvolver.cpp: Process"])

p("C93", "The error bound survives underflow and overflow",
  "With arithmetic that has a limited range of exponents (small results lose relative precision or are flushed to zero, results above a limit may become anything), every output sample is still within a fixed bound of the exact convolution, computed from the input level around that sample alone, as long as that level is at most Xmax and an explicit bound on every number it can give rise to is within range, and the sample itself is then within range. Underflow only adds a noise floor: levels and partitions below a tiny constant count as that constant (2^-49, about -295 dB, in binary32 with or without subnormal numbers). Whatever was played before, even if it overflowed, the bound holds again ir.n + 2^L + B samples later, and at once after Reset.",
  "all impulse responses and routings the constructor accepts, all arithmetics with relative error v and absolute error eta per operation up to a limit and arbitrary results when an operand or the result is beyond it, all library transforms with a corresponding error bound, all signals, block sequences and histories of Process and Reset",
  "a test sees the values of one run; that no intermediate result of any run underflows or overflows harmfully needs a bound on all intermediate results for all signals of a level",
  [Z+"Convolver.cpp: Process", Z+"time_distributed/TimeDistributedNUPC.cpp: Process", Z+"UniformPartitionedConvolver.cpp: Process", Z+"time_distributed/TimeDistributedUPC.cpp: Process", Z+"time_distributed/FFT.cpp: ForwardFFTUnordered"])

p("C94", "The engine's output is reproducible bit for bit",
  "Two engines that get the same calls in the same order (responses delivered at the same times, blocks of the same sizes, resets, prepares and clears) give the same output sample for sample once the input has been the same for as long as every response delivered before remembers (its length, its largest transform and its block size, less one), whatever the input was before and whatever the memory contained from which their buffers were made. If the input was always the same, the whole output is the same. After a Reset, Prepare or Clear that finds no response waiting behind a fade, the output is the same at once, whatever the input before it. So it is in the concurrent system: if in two executions an engine gets the same calls, the same input, and the same loads found by the same calls and made for the same block sizes, its whole output is the same, however the threads' steps are interleaved and whatever else happens; if the input is the same only from some moment on, the output is the same once the engine has been given as much as the responses delivered before that moment remember, and at once after a Reset, Prepare or Clear that finds no response waiting.",
  "all histories of calls and all executions of the concurrent system, with fades, waiting responses, resets, prepares and clears anywhere, all impulse responses and routings the constructor accepts, all contents of uninitialised memory, all arithmetics that are exact on zeros, all real transforms, any arithmetic in the fades",
  "a test can compare two runs on one machine with the memory contents it happens to get; that no stale or uninitialised sample reaches the output holds only if it holds for all contents and all histories",
  [Z+"ConvolutionEngine.cpp: process", Z+"ConvolutionEngine.cpp: reset", Z+"ConvolutionEngine.cpp: prepare", Z+"ConvolutionEngine.cpp: BeginFade", Z+"Convolver.cpp: Process", Z+"Convolver.cpp: Reset", Z+"time_distributed/TimeDistributedUPC.cpp: Process"])

p("C95", "A NaN or an infinity in the input passes",
  "In binary32 arithmetic with infinities and NaNs, bad values in the input (NaN, infinities, or values so large that something overflows) do not stay in a convolver or an engine: once the input has been clean for as long as the response remembers (its length, its largest transform and its block size), the output is, sample for sample, what it would have been if the bad values had never been there, also if fades, resets, prepares and clears happened meanwhile. After a Reset of a convolver, and after a Reset, Prepare or Clear of an engine that finds no response waiting, they are gone at once. So it is in the concurrent system: if two executions do the same for an engine, but in one of them it gets bad values up to some moment, its output is the same in both once it has been given as much clean input as the responses delivered before that moment remember, and at once after a Reset, Prepare or Clear that finds no response waiting. The response must be of moderate size: samples of at most 2^K and transforms of at most 2^L points with 3 L + K at most 126.",
  "all impulse responses of moderate size and routings the constructor accepts, with and without subnormal numbers, all ways in which a complex product repairs NaNs, all twiddle factors with parts of at most 9/8, all real transforms, all signals and block sequences, all histories of calls and all executions of the concurrent system, any arithmetic in the fades",
  "a test can feed a NaN at one position; that no state, in any schedule, keeps it (one product of a NaN by zero, or one sum into a buffer that is never cleared, is enough) is about all positions, histories and responses",
  [Z+"Convolver.cpp: Process", Z+"Convolver.cpp: Reset", Z+"ConvolutionEngine.cpp: process", Z+"ConvolutionEngine.cpp: reset", Z+"time_distributed/TimeDistributedUPC.cpp: Process", Z+"time_distributed/TimeDistributedUPC.cpp: Reset", Z+"UniformPartitionedConvolver.cpp: Process", Z+"UniformPartitionedConvolver.cpp: Reset"])

p("C96", "After a NaN or an infinity has passed, the output is right again",
  "In binary32 arithmetic with infinities and NaNs, whatever a convolver was fed before (NaNs, infinities, signals so loud that something overflowed), an output sample is finite and within a fixed bound of the exact convolution as soon as the input has been clean and of at most a given level for as long as the response remembers (its length, its largest transform and its block size), and, after a Reset, at once. The bound is computed from the input level around the sample alone.",
  "all impulse responses and routings the constructor accepts whose weights leave headroom up to 2^124, with and without subnormal numbers, all ways in which a complex product repairs NaNs, all twiddle factors within 2^-23 of the roots of unity, all library transforms that are accurate on numbers up to 2^125 and arbitrary (infinities and NaNs anywhere) otherwise, all signals, block sequences and histories of Process and Reset",
  "a test can feed a NaN at one position and look at one run afterwards; that the output recovers, and to which accuracy, after every history is about all of them",
  [Z+"Convolver.cpp: Process", Z+"Convolver.cpp: Reset", Z+"time_distributed/TimeDistributedUPC.cpp: Process", Z+"time_distributed/TimeDistributedUPC.cpp: Reset", Z+"UniformPartitionedConvolver.cpp: Process", Z+"UniformPartitionedConvolver.cpp: Reset", Z+"time_distributed/FFT.cpp: ForwardFFTUnordered"])

p("C97", "The engine recovers from a NaN or an infinity",
  "In binary32 arithmetic with infinities and NaNs, whatever the engine was given before (NaNs, infinities, signals so loud that something overflowed, also while responses were being faded, several responses, Reset, Prepare, Clear), once the fades to the response that arrived last are over and the input has been clean and of at most a given level for as long as that response remembers, every output sample is finite and within a fixed bound of the exact convolution of the input with that impulse response. No bad value stays in the fade buffer, the gain ramps or an abandoned convolver. The same holds in the concurrent system, and if the threads are scheduled fairly and the host keeps processing, the output for the last LoadIR call finally is right.",
  "all executions of the concurrent system, all fair endless ones, all histories of audio calls and arriving responses in which no reset hits a response waiting behind a fade, all responses within the headroom of C96, all gain arithmetic (also one that makes NaNs), all library transforms accurate on numbers up to 2^125 and arbitrary otherwise, all signals, block sizes and sample rates",
  "a test can inject a NaN at one moment of one fade; that nothing of it survives after every history and schedule of responses is about all of them",
  [Z+"ConvolutionEngine.cpp: process", Z+"ConvolutionEngine.cpp: reset", Z+"ConvolutionEngine.cpp: LoadIR", Z+"Convolver.cpp: Process", Z+"Convolver.cpp: Reset"])

p("C98", "Impulse responses longer than 2^24 samples",
  "A Convolver also accepts impulse responses that are too long for their length to be a single precision number (up to 2^30 samples). Its output is then the exact zero-latency convolution with the first n samples of the impulse response, where at most one sample in 2^24 is left out at the end (up to 2^24 samples: none, C01); none of the int arithmetic of the construction overflows. That a sample is left out does happen: with a host block size of 512 a response of 16843265 samples that consists of a single echo in its last sample is never heard.",
  "all impulse responses of 1 to 2^30 samples and any number of channels, all valid routings and block size requests, all block sequences, all histories of Process and Reset before them",
  "partition counts go wrong only for lengths whose rounding to 24 bits crosses a partition boundary; a test would have to find them among 2^30 lengths, and each convolver needs gigabytes",
  [Z+"util/Partitioning.h: GetNumPartitionsRequiredForSegment", Z+"util/Partitioning.cpp: GetPartitionScheme", Z+"util/Partitioning.cpp: ExtendSchemeToFitIR", Z+"time_distributed/TimeDistributedNUPC.cpp: TimeDistributedNUPC", Z+"time_distributed/TimeDistributedUPCMulti.cpp: TimeDistributedUPCMulti", Z+"Convolver.cpp: Process"])

p("C99", "The memory of a running system is bounded",
  "However long a host runs and however often LoadIR is called on however many engines that share a thread pool: at any moment the convolvers of an engine that have been constructed and not destroyed are at most 801 (399 in each of its two queues, three playing, fading in or waiting) plus one for each of its jobs that a worker is running; no engine has more than one job waiting for a worker; with n engines and W workers there are at most 801 n + W convolvers and n + W jobs (each with a copy of an impulse response); and if the responses have at most C channels and L samples, the buffers of all these convolvers have together at most (801 n + W) C (33 L + 38912) floats.",
  "all executions of any number of engines on one thread pool: all numbers and interleavings of LoadIR, process, reset, prepare, Clear, worker, background and message thread steps and destructions; all usable impulse responses",
  "a leak, or a queue that grows as long as nobody services it, shows only after arbitrarily long executions under particular schedules",
  [Z+"ConvolutionEngine.cpp: LoadIR", Z+"ConvolutionEngine.cpp: LoadIRJob::runJob", Z+"ConvolutionEngine.cpp: process", Z+"ConvolutionEngine.cpp: run", Z+"ConvolutionEngine.h: CommandQueue", Z+"Convolver.cpp: Convolver"])

p("C100", "Spectrum buffers own their memory",
  "A ComplexBuffer keeps raw pointers into a vector it owns, has no copy or move constructor of its own, and lives in std::vectors that grow. Whatever is done with such buffers as the code does it (made, filled and appended to vectors that move their elements when they grow, written through channel pointers, cleared, multiplied, added, destroyed), in any order: no access goes outside an allocation or into a freed one, nothing is freed twice, what is read from a buffer (through its pointers or its vector) is what was last written to that buffer and to no other, each buffer has one allocation of its own, and when the vectors are gone nothing is left. A copied buffer would alias the original and dangle after it; none of the operations copies.",
  "all sequences of operations on any number of vectors of buffers of any shapes (also several vectors, repeated and self-referring operands), all growth policies of std::vector, all contents",
  "an aliasing or dangling pointer shows only for particular growth steps and may go unnoticed even then, because freed memory often still holds the old values",
  [Z+"util/ComplexBuffer.h: ComplexBuffer", Z+"util/ComplexBuffer.cpp: ComplexBuffer", Z+"util/ComplexBuffer.cpp: ComplexMultiplyAccumulateFrom", Z+"util/FrequencyDelayLine.cpp: FrequencyDelayLine", Z+"UniformPartitionedConvolver.cpp: UniformPartitionedConvolver", Z+"time_distributed/TimeDistributedUPCMulti.cpp: TimeDistributedUPCMulti"])

p("C101", "The caller's impulse response may be overwritten or freed when LoadIR has returned",
  "LoadIR is given a block that refers to memory of the caller, while the convolver is built later on another thread. Whatever the caller does with that memory after LoadIR has returned (overwrites it, reuses it for the next response, frees it): every engine delivers, plays and reports exactly what it would if LoadIR had been given the samples themselves as they were when it was called, and nothing ever reads that memory again.",
  "all executions of any number of engines on one thread pool, with any interleaving of calls, worker, background and message thread steps, and any writes to and releases of the caller's memory at any moment at which no LoadIR call that was given it is running",
  "a reference kept by the job would show only if a worker happens to run after the memory has changed, and freed memory often still holds the old samples",
  [Z+"ConvolutionEngine.cpp: LoadIRJob::LoadIRJob", Z+"ConvolutionEngine.cpp: LoadIR", Z+"ConvolutionEngine.cpp: LoadIRJob::runJob", Z+"ConvolutionEngine.h: LoadIRJob"])

p("C102", "The engine is linear and causal, also while it fades",
  "Take three histories of the same calls (process, reset, prepare, Clear) finding the same arriving impulse responses, played with three input signals. If up to sample t the third input is any combination of the first two, then the third output at sample t is the same combination of the first two outputs, whether or not fades are running, being interrupted or cut short then. So an engine never adds anything of its own (silence in is silence out, whatever arrives), and no output sample depends on later input, not even on later samples of the same block. The same holds of executions with any number of threads: how the threads' steps are interleaved, and what other engines do, is inaudible, beyond which call finds which impulse responses.",
  "all histories of calls and all concurrent executions, with all impulse responses (valid routing), fade strategies and arrival times, all block sizes, all signals, all coefficients and all samples",
  "linearity and causality speak of all pairs of signals and all histories; a test compares a few",
  [Z+"ConvolutionEngine.cpp: process", Z+"ConvolutionEngine.cpp: reset", Z+"ConvolutionEngine.cpp: BeginFade", Z+"Convolver.cpp: Process"])

p("C103", "When block lengths are inaudible, also while the engine fades",
  "A host may cut a signal into blocks of any lengths (at least one sample, at most the prepared maximum). If impulse responses arrive one at a time, each with a crossfade that is over before the next one arrives, then two hosts that cut the same signals differently hear the same output, sample by sample, before, during and after the crossfades. More generally this is so (with reset, prepare and Clear in between) wherever what is cut differently is not the end of a fade for which another response waits, not the end of a fade-out, and not the first block after a reset amid a fade. At the end of a fade-out block lengths are audible: the rest of the block in which it ends is silent, and the fade-in begins with the next block. This is also true of two executions with any number of threads, whatever these do.",
  "all histories of calls and arrivals, and all pairs of concurrent executions with such histories, all impulse responses with valid routing, all signals, all pairs of ways to cut them into blocks",
  "block lengths and the moments at which fades begin and end combine without limit; a test picks a few",
  [Z+"ConvolutionEngine.cpp: process", Z+"ConvolutionEngine.cpp: BeginFade", Z+"ConvolutionEngine.cpp: ResetFade", Z+"Convolver.cpp: Process"])

p("C104", "How much work a call of the engine's process is",
  "After any history of calls and arrivals, a call of process runs each impulse response that can be heard in that block exactly once (none, one or two; two only in a crossfade; the one that waits never), and each run executes exactly the butterflies, products of spectra, transforms and spectral points that its partition scheme prescribes at its place in its schedule for the length of the block. Nothing else in the call executes any. So the butterflies of a call are at most the number of internal blocks it can complete times the sum of the stages' peaks, summed over the responses that can be heard, however many responses are arriving.",
  "all histories of process, reset, prepare and Clear, all arrivals at every one of them, all impulse responses with valid routing, all block sizes",
  "the worst case over all histories, arrivals and fades cannot be found by timing some of them",
  [Z+"ConvolutionEngine.cpp: process", Z+"Convolver.cpp: Process", Z+"TimeDistributedUPC.cpp: Process", Z+"TimeDistributedNUPC.cpp: Process"])

p("C105", "Block lengths that give the same internal pieces do not change a bit of the engine's output, also while it fades",
  "Two hosts prepare an engine for the same format and play the same signals, each in blocks of his own lengths. The same impulse responses arrive one at a time, each with the first block of a signal during which it is crossfaded to; in between both hosts may reset or Clear the engine. If for each response the two hosts' blocks are cut into the same pieces of its internal block size - for instance if all blocks are multiples of it - then the engines' outputs are the same, to the last bit: wherever the rounding happens in the convolution, whatever the fades round to as long as gains of 0 and 1 are exact, whatever the memory they were made from contained. The loads may come through the concurrent system, in two executions that differ in everything else.",
  "all impulse responses with valid routing, all arithmetics, all signals, all pairs of ways of cutting them into blocks, all sequences of signals, arrivals, resets and Clears, all contents of fresh memory, all pairs of executions on all threads",
  "bit equality over all ways of cutting all signals into blocks, for every rounding; a test compares a few block lengths on one machine",
  [Z+"ConvolutionEngine.cpp: process", Z+"ConvolutionEngine.cpp: EndFade", Z+"Convolver.cpp: Process", Z+"TimeDistributedNUPC.cpp: Process"])

p("C106", "The destructor does not wait for ever for the background thread, and what a killed thread leaves behind",
  "An engine that is not in use can be destroyed at once, whatever its background thread is doing: the destructor kills the thread if it does not stop in time. Even then no convolver is destroyed twice; once the engine and its loads are gone, all convolvers made for it have been destroyed but for at most one: the one the thread was destroying when it was killed, which is never destroyed. If the thread was given the time to stop there is none. In everything else - the blocks, the delivered responses, the calls of listeners, the other engines, uses after destruction - a system with kills does what one whose destructors wait can do.",
  "all executions of any number of engines on all threads, all points at which a background thread may be killed",
  "the kill may come at any instruction of another thread, and depends on 100 ms of real time",
  [Z+"ConvolutionEngine.cpp: ~ConvolutionEngine", Z+"ConvolutionEngine.cpp: run", Z+"ConvolutionEngine.h: ConvolutionVisitorQueue::Service"])

p("C107", "A host may change the number of channels",
  "prepare may be called again with another number of channels while responses are playing, fading or waiting, as long as the channels the responses are routed to still exist. Every output block then keeps its size and contains, bit for bit, the first channels of what the engine would output had it been used for the largest number of channels all the time: nothing played before is lost, mixed up between channels or left over in a channel that was added. If the channels do not suffice, the playing response is kept and the next process of a block that is not empty reads or writes outside the block.",
  "all histories of prepare, process, reset and clear with any numbers of channels within the bounds, all responses and times of arrival, all arithmetics; all executions of the concurrent system for the exact version",
  "the tests prepare with a single number of channels; the claim is about all sequences of them, and about uninitialised and stale channels of scratch buffers that are resized",
  [Z+"ConvolutionEngine.cpp: prepare", Z+"ConvolutionEngine.cpp: process", Z+"Convolver.cpp: Process", Z+"Convolver.cpp: Reset"])
p("C108", "What listeners are told",
  "A listener of an engine that has been added before the first load is called once on the thread of each LoadIR call that begins a load (with the loads before it superseded or not) and once on the message thread for each load that is delivered or refused; superseded loads get no second call. A removed listener is not called again, not even in a round of calls that has begun. A listener that shows what IsLoading was when it was last called shows what it is now, unless it is about to be called or the engine has been reset, prepared or cleared since, which tells nobody: after a reset and a load of another engine on the same pool nothing may ever tell it that nothing is loading. Listeners do not change what the system does, and prevent nothing.",
  "all executions of any number of engines on all threads, any number of listeners added and removed at any time (also while listeners are being called), all interleavings of calls of listeners with everything else",
  "the tests have no listeners; the claim is about all interleavings of the two threads that call listeners with loads, audio-side calls and changes of the list",
  [Z+"ConvolutionEngine.h: ConvolutionEngineListener", Z+"ConvolutionEngine.cpp: EmitLoadingEvent", Z+"ConvolutionEngine.cpp: LoadIR", Z+"ConvolutionEngine.cpp: IsLoading"])

out = os.path.join(os.path.dirname(os.path.abspath(__file__)), "..", "properties.jsonl")
with open(out, "w") as f:
    for q in P: f.write(json.dumps(q) + "\n")
print(len(P))
