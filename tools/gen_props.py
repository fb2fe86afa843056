#!/usr/bin/env python3
"""Writes ../properties.jsonl. One tuple per property."""
import json, os
P = []
def p(title, statement, quantifier, why, anchors):
    P.append(dict(id="C%02d" % (len(P)+1), title=title, statement=statement,
                  quantifier=quantifier, why_tests_cant=why, anchors=anchors))

p("Net wiring stays valid under every edit sequence",
  "After any sequence of successful Net edit calls (push, chain, connect, disconnect, connect_input, connect_output, disconnect_output, pipe_all, pipe_input, pipe_output, pass_through, set_source, set_output_source, replace, remove, remove_link and the graph operators), every node input and every net output is fed by Zero, by an existing global input, or by an existing output port of an existing node; every node has exactly as many input wires as its unit has inputs; and the handle-to-node mapping and the nodes agree with each other (Net::check never fails).",
  "all finite edit histories starting from Net::new, all units of all arities",
  "The space of edit histories is infinite; removal renumbers nodes, so a stale reference only appears for particular interleavings of pushes and removals.",
  ["src/net.rs: Net::push, remove_2, connect, connect_input, connect_output, set_source, set_output_source, replace, pipe_all, check", "src/vertex.rs: Vertex::new"])
p("Net evaluation order is topological and cycles are reported exactly",
  "The evaluation order computed for a Net lists every node exactly once; if the wiring has no directed cycle then every node appears after all nodes that feed it and no error is raised; error() reports Cycle if and only if the wiring contains a directed cycle.",
  "all finite graphs with any number of nodes, ports and wires",
  "Tests can only try particular graphs; both completeness (every cycle found) and soundness (no false alarms) range over all graphs.",
  ["src/net.rs: determine_order, determine_order_in, propagate, error"])
p("Removing a node leaves every other connection intact",
  "After net.remove(id), for every other node and every net output, source()/output_source() (reported by node id) is what it was before, except that wires that came from the removed node now read Zero; all other nodes keep their id, unit and arity; the removed id is no longer contained and size decreases by one.",
  "all valid nets, all nodes, all connections",
  "Node storage is compacted by moving the last node into the hole, so correctness depends on the position of the removed node relative to every wire in the graph.",
  ["src/net.rs: remove, remove_2, source, output_source, contains, size"])
p("remove_link bypasses the removed node",
  "After net.remove_link(id), every wire that was fed by output port k of the node is fed by whatever fed input port k of that node before; all other wires are unchanged; no wire refers to the removed node.",
  "all valid nets, all nodes with equal input and output counts",
  "Chains of bypasses interact with index compaction and with wires from the node to itself or around a loop; only an all-graphs argument covers them.",
  ["src/net.rs: remove_link, remove_2"])
p("replace swaps the unit and preserves all wiring",
  "net.replace(id, unit) with matching arity returns the old unit, installs the new one under the same id, and leaves every connection and every other node unchanged; with mismatching arity it panics and changes nothing.",
  "all valid nets, nodes and replacement units",
  "Ranges over all graphs and units.",
  ["src/net.rs: replace"])
p("Node handles stay valid and unambiguous",
  "A NodeId returned by push refers to the same unit (same inputs/outputs/state) through any later sequence of pushes, removals of other nodes, rewirings and graph combinations; two live nodes of a net never share an id.",
  "all edit histories",
  "Handles are resolved through an index map that is patched on every removal; a wrong patch shows up only for some histories.",
  ["src/net.rs: NodeId::new, push, remove_2, node_index, disambiguate_ids", "src/shared.rs: IdGenerator"])
p("Net output is the dataflow solution of the graph",
  "For an acyclic net, one tick computes for every node exactly one unit tick whose inputs are the current-sample values of its sources, and the net outputs are the current-sample values of the output sources; the result does not depend on which valid evaluation order is used.",
  "all acyclic graphs, all units (as arbitrary state machines), all inputs and states",
  "Order independence is a statement about all topological orders of all graphs.",
  ["src/net.rs: tick_2", "src/vertex.rs: Vertex::tick"])
p("Net block processing equals per-sample ticking",
  "If each unit's process equals repeated tick, then processing a net in blocks of any sizes up to 64 produces the same samples and leaves units in the same states as ticking the same samples one by one, including when node inputs are read directly from another node's output buffer instead of being copied.",
  "all acyclic graphs, all block partitions, all inputs, all previous buffer contents",
  "Bugs depend on stale buffer contents, on the wiring pattern that enables the no-copy shortcut, and on block sizes.",
  ["src/net.rs: process_2", "src/vertex.rs: update_source_vertex, Vertex::process"])
p("Net graph operators have their documented meaning",
  "For nets a and b: a >> b feeds outputs of a to inputs of b; a | b stacks; a ^ b branches the same inputs; a & b sends inputs to both and sums outputs; a + b, a - b, a * b combine channelwise after stacking inputs; !a passes extra inputs through; -a negates. The observable signal of the combined net is the corresponding function of the signals of the operands, and resulting arities are the documented ones.",
  "all pairs of acyclic nets, all inputs",
  "Combination renumbers all nodes of the second operand and rewires global ports; correctness must hold for every wiring inside the operands.",
  ["src/net.rs: pipe, stack, branch, bus, binary, sum, product, thru, Neg/Not impls"])
p("Bulk wiring helpers follow the modulo rule",
  "pipe_all(a,b), pipe_input, pipe_output, chain and pass_through connect input i of the target to port i modulo the number of source ports (Zero where the source has no ports) and change no other wire.",
  "all valid nets, all pairs of nodes, all arities including zero",
  "All arity combinations and pre-existing wires.",
  ["src/net.rs: pipe_all, pipe_input, pipe_output, chain, pass_through"])
p("Committing delivers the edited graph to the audio backend",
  "After commit, once the backend has handled its messages, the backend graph has the same nodes, wires and outputs as the frontend; units of nodes that were not changed since the previous commit keep the backend's running state; changed or new nodes use the frontend's unit. With several commits queued, the last one wins.",
  "all sequences of frontend edits and commits interleaved in any way with backend processing",
  "Thread interleavings and histories cannot be enumerated.",
  ["src/net.rs: commit, migrate, backend, apply_edits", "src/realnet.rs: NetBackend::handle_messages"])
p("Live crossfade edits are never lost",
  "A unit passed to net.crossfade(id, ...) or fade_in followed by commit eventually becomes the unit running in the backend for that node, no matter when the backend runs relative to further commits, unless it is superseded by a later edit of the same node.",
  "all interleavings of frontend commits and backend processing",
  "Loss occurs only for some interleavings of two commits and a backend run.",
  ["src/net.rs: crossfade, fade_in, commit, migrate, apply_edits, apply_foreign_edits", "src/realnet.rs: handle_messages"])
p("Node crossfade is glitch-free and ends on the newest unit",
  "While a node crossfades, its output is a combination w1*old + w2*new with w1,w2 in [0,1]; with Smooth fade w1 + w2 = 1; when the fade completes only the new unit is heard; units enqueued during a fade replace each other so that the last one enqueued is faded in next and none is skipped back to.",
  "all enqueue/tick/process histories, all fade lengths",
  "Depends on timing of enqueues relative to fades.",
  ["src/vertex.rs: tick, process, next_phase, enqueue"])
p("Block and tick processing agree for every static combinator",
  "For every graph built from Pipe, Stack, Branch, Bus, Thru, Binop, Unop, Map, Split, Join, MultiSplit, MultiJoin, Reverse, Pass, Sink, Constant, MultiBus, MultiStack, Reduce, MultiBranch, Chain over components whose process equals repeated tick, process on blocks of any size up to 64 equals repeated tick, regardless of previous buffer contents and of data beyond the block.",
  "all combinator trees, all components, all block partitions, all buffer contents",
  "Infinite family of types; stale scratch-buffer data only matters in particular sequences of block sizes.",
  ["src/audionode.rs: AudioNode::process, process_remainder, Pipe, Stack, Branch, Bus, Thru, Binop, Unop, Map, MultiBus, MultiStack, Reduce, MultiBranch, Chain"])
p("Combinator graph algebra",
  "Observable stream behaviour satisfies: >> and | and ^ are associative, & is associative and commutative when sample addition is, pass() is a unit for >>, a ^ b equals split-then-stack, a & b equals branch-then-sum, !a keeps extra inputs, and split followed by join is the identity on a channel under real arithmetic.",
  "all components and all input streams",
  "Equalities of stream functions over infinite input spaces.",
  ["src/audionode.rs: Pipe, Stack, Branch, Bus, Thru, Split, Join, MultiSplit, MultiJoin, Reverse", "src/combinator.rs operators"])
p("BigBlockAdapter processes any length like ticking",
  "process_big on n samples (any n) gives the same samples as n ticks of the wrapped unit.",
  "all n, all units whose process equals repeated tick, all inputs",
  "Unbounded lengths, all chunk remainders.",
  ["src/audiounit.rs: BigBlockAdapter::process_big"])
p("BlockRateAdapter returns the generator's stream",
  "However get and filter style calls are mixed, the k-th sample returned since the last reset is the k-th sample of the wrapped generator processed in full blocks.",
  "all call sequences",
  "Depends on position inside the internal block for each call.",
  ["src/audiounit.rs: BlockRateAdapter"])
p("Buffer channels do not alias and subsets select the right channels",
  "Sample writes to (channel, index) of a buffer are read back from the same coordinates and from no other; scalar and SIMD views address the same samples; subset(first, n) channel c is channel first + c; resize keeps the channel count law.",
  "all channel counts, channels, indices below 64",
  "Index arithmetic must be injective for all channel counts.",
  ["src/buffer.rs", "src/lib.rs: simd_items, full_simd_items"])
p("reset returns a component to its initial state",
  "After any history of ticks, reset followed by any input gives the same output as a freshly constructed component with the same parameters and sample rate.",
  "all histories, all subsequent inputs, each modelled component and all combinators of such components",
  "Residual state can hide in any field and show up arbitrarily late.",
  ["src/audionode.rs: AudioNode::reset and implementations", "src/delay.rs", "src/feedback.rs", "src/filter.rs", "src/dynamics.rs", "src/reverb.rs", "src/shape.rs", "src/oscillator.rs", "src/noise.rs"])
p("Settings reach exactly the addressed component",
  "A setting with address path d1..dk applied to a combinator tree changes the parameters of the component at that path and of no other component; a path that does not exist changes nothing.",
  "all trees, all paths up to the supported depth, all settings",
  "Infinite family of trees and paths.",
  ["src/setting.rs: Setting::direction, peel, left, right, index, node", "src/audionode.rs: set implementations", "src/net.rs: set"])
p("Pseudorandom phases and hashes are deterministic and collision free per step",
  "The bit-mixing hashes used for seeding are bijections of the machine word (no two seeds collide in one step), AttoHash::hash is injective in its argument for a fixed state and in the state for a fixed argument, and ping with the same hash gives every component the same hash as on any previous ping.",
  "all 2^32 / 2^64 words and all component trees",
  "Exhausting the 64-bit space is infeasible.",
  ["src/math.rs: hash1, hash2, AttoHash", "src/noise.rs: hash32x", "src/audionode.rs: ping implementations"])
p("Sequencer plays every event exactly in its time window",
  "When ticking, an event with start s and end e pushed before its start contributes to exactly the samples whose time window it overlaps, with its unit ticked once for each such sample and in order; before and after it contributes nothing; overlapping events are summed; with replay enabled a reset plays all events again identically and without replay nothing is played again.",
  "all finite multisets of events, all times, all fade settings",
  "Event heaps and activation thresholds depend on relative order of all events.",
  ["src/sequencer.rs: push, push_event, ready_to_active, tick, reset"])
p("Sequencer block processing equals ticking",
  "Processing a sequencer in blocks produces the same output as ticking it, for events starting or ending anywhere within a block and for any fade lengths.",
  "all events, block partitions and fades",
  "Depends on alignment of event boundaries with blocks.",
  ["src/sequencer.rs: process, fade_in, fade_out, tick"])
p("Sequencer frontend messages are applied in order",
  "The backend of a real-time sequencer behaves like a sequencer on which the frontend's pushes, edits and resets were called directly in the same order.",
  "all message sequences and all batchings of message handling",
  "Loss depends on which messages land in the same batch.",
  ["src/realseq.rs: handle_messages", "src/sequencer.rs: backend"])
p("Slot always ends up playing the most recently set unit",
  "After Slot::set calls stop and all fades finish, the slot plays the last unit set; intermediate units may be skipped but the order is never inverted; during fades output is a convex (Smooth) combination of two units.",
  "all sequences of set, tick, process and reset",
  "Timing dependent.",
  ["src/slot.rs: Slot::set, SlotBackend::handle_messages, next_phase, tick, process"])
p("Ring delivers samples in order without duplication",
  "The sequence of frames output by a ring buffer node is the sequence of frames sent, in order, each at most once, with silence inserted exactly when the queue is empty; frames are rejected only when the queue is full.",
  "all interleavings of sender and audio thread",
  "Interleavings.",
  ["src/ring.rs"])
p("Snoop shows the true signal history",
  "After update, snoop.at(i) is the i-th most recent sample that passed through the backend up to the last delivered buffer, for every i below capacity; samples pass through unchanged.",
  "all signals, all update schedules, all capacities",
  "Ring index wraparound and partially filled buffers for all schedules.",
  ["src/snoop.rs"])
p("Shared variables deliver the last written value",
  "A var() node outputs exactly the last value stored (bit for bit) by any holder of the shared variable, in both tick and block processing; a timer shows the time of the last processed sample.",
  "all sequences of writes and processing, all bit patterns",
  "Values and histories unbounded.",
  ["src/shared.rs: Shared, Var, Timer"])
p("Generated identifiers are unique",
  "Identifiers handed out by the lock-free generator are pairwise distinct.",
  "all thread interleavings of all numbers of calls",
  "Interleavings and 2^32 counter wraparounds cannot be tested.",
  ["src/shared.rs: IdGenerator::get_id"])
p("Easing functions are monotone maps of the unit interval",
  "smooth3, smooth5, smooth7, smooth9 map [0,1] onto [0,1], are monotone, fix 0 and 1, and satisfy f(x)+f(1-x)=1 with vanishing end slopes; uparc and downarc are monotone, fix endpoints and are mirror images; sine_ease is approximately equal power.",
  "all real x in [0,1]",
  "Continuum of inputs.",
  ["src/math.rs: smooth3, smooth5, smooth7, smooth9, uparc, downarc, sine_ease"])
p("Interpolation laws",
  "lerp hits its endpoints and stays between them; delerp inverts lerp for distinct endpoints; the mapped ranges lerp11/delerp11, xerp/dexerp and clamp have the documented ranges and inverses.",
  "all real endpoints and parameters",
  "Continuum.",
  ["src/math.rs: lerp, lerp11, delerp, delerp11, xerp, dexerp, clamp, clamp01, clamp11"])
p("Cubic splines interpolate; the monotone variant does not overshoot",
  "spline passes through y1 at 0 and y2 at 1 and reproduces straight lines; spline_mono stays between y1 and y2 for x in [0,1].",
  "all real control values and x in [0,1]",
  "Continuum.",
  ["src/math.rs: spline, spline_mono"])
p("Coherent noise functions stay in range",
  "spline_noise, ease_noise and fractal noise sums stay within their documented ranges for all positions and seeds.",
  "all real positions, all seeds",
  "Continuum times 2^64 seeds.",
  ["src/math.rs: spline_noise, ease_noise, fractal_noise"])
p("Softening functions are bounded and sign preserving",
  "softsign is odd, strictly increasing with range (-1,1); softexp is positive and increasing; softmix lies between its arguments' extremes; clip, clip_to, tanh and softsign shapers keep output within their limits.",
  "all real inputs and hardness values",
  "Continuum.",
  ["src/math.rs: softsign, softexp, softmix", "src/shape.rs: Clip, ClipTo, Tanh, Softsign"])
p("delay() is an exact delay line",
  "The output of a delay of d samples at time n is the input at time n - d (zero before), where d is the delay time in samples rounded, for ever; tick() is exactly a one-sample delay.",
  "all delay lengths, all input streams, all times",
  "Unbounded streams and wraparounds.",
  ["src/delay.rs: Delay, Tick"])
p("Variable delay lines read only the permitted window",
  "tap: for any time-varying delay input, the output at time n is the cubic interpolation of past input samples around n minus the clamped delay; it never reads outside the buffer, never reads a sample older than the buffer, and block processing equals ticking.",
  "all delay signals, all inputs, all sample rates and maxima",
  "Wraparound and block boundary cases for all lengths.",
  ["src/delay.rs: Tap"])
p("Linear-interpolated delay block processing equals ticking",
  "tap_linear: block processing gives the same output as ticking for every minimum and maximum delay.",
  "all delay ranges, delay signals and inputs",
  "Failure depends on a specific relation of buffer length and delay.",
  ["src/delay.rs: TapLinear"])
p("Feedback implements its recurrence",
  "feedback units satisfy y[n] = x(in[n] + y[n-d]) with d the rounded delay of at least one sample, in ticks and in blocks of any size.",
  "all inner units, delays, inputs, block partitions",
  "The block algorithm switches path depending on size versus delay.",
  ["src/feedback.rs: Feedback, Feedback2, FeedbackUnit"])
p("Hadamard mixing is energy preserving and self-inverse",
  "The feedback mixing matrix preserves the sum of squares of the frame and applying it twice is the identity.",
  "all power-of-two channel counts and all frames",
  "All sizes and values.",
  ["src/feedback.rs: FrameHadamard::frame"])
p("Allpass structures are lossless",
  "The nested allpass around a lossless delay and the first-order allpass filter satisfy an exact energy balance: output energy never exceeds input energy up to the stored energy, for every coefficient magnitude below one.",
  "all inputs, all lengths, all coefficients",
  "Infinite horizons.",
  ["src/delay.rs: AllNest", "src/filter.rs: Allpole"])
p("One-pole smoothers never overshoot and converge",
  "lowpole, follow and afollow outputs stay within the range spanned by their initial state and inputs; with constant input they converge monotonically to it.",
  "all inputs, all coefficients in range, all horizons",
  "Infinite horizons.",
  ["src/filter.rs: Lowpole", "src/follow.rs: Follow, AFollow", "src/combinator.rs: filter_pole"])
p("DC removal",
  "dcblock and highpole outputs converge to zero for constant input and are bounded for bounded input.",
  "all constants, coefficients and horizons",
  "Limit statement.",
  ["src/filter.rs: DCBlock, Highpole"])
p("FIR filter computes the convolution",
  "fir output at n is the sum of weights times the corresponding past inputs, for all weights; its DC gain is the weight sum.",
  "all weight vectors and input streams",
  "All lengths and streams.",
  ["src/fir.rs"])
p("Reported frequency response is the true response",
  "For the linear filters (fir, lowpole, highpole, dcblock, allpole, tick, delay, biquad, svf modes, pinkpass) the complex number returned by response() at a frequency is the factor by which a complex exponential of that frequency is multiplied by the running filter.",
  "all frequencies, coefficients, and all times",
  "Continuum of frequencies and parameters; numerical tests only sample.",
  ["src/signal.rs", "src/filter.rs route", "src/fir.rs route", "src/biquad.rs response", "src/svf.rs response"])
p("Reported latency is right under composition",
  "latency() of a series connection is the sum, of a parallel connection the minimum, of the component latencies, and a generator feeding a processor has the processor's latency so that rendering can discard it.",
  "all combinator trees",
  "All trees.",
  ["src/signal.rs: Routing::route, combine_linear, combine_nonlinear", "src/audionode.rs: latency", "src/wave.rs: render_latency"])
p("Look-ahead limiter bounds and aligns",
  "The limiter output at n is the input at n - L divided by a gain that is at least one for a fresh limiter; the maximum tracker equals the true maximum of the last L+1 magnitudes at all times.",
  "all input streams, look-ahead lengths and times",
  "Infinite streams; tree updates for all lengths.",
  ["src/dynamics.rs: ReduceBuffer, Limiter"])
p("Declick fades in and then is transparent",
  "declick multiplies by a monotone fade for its duration and passes the signal unchanged afterwards; blocks equal ticks.",
  "all durations, rates, inputs, block partitions",
  "Boundary within a block.",
  ["src/dynamics.rs: Declick"])
p("Meters report what they document",
  "A peak meter never reads below the current magnitude and decays geometrically; an rms meter is between zero and the running maximum; monitor passes signal through unchanged and stores the meter of all samples in ticks and in blocks.",
  "all signals, timescales, block partitions",
  "All histories.",
  ["src/dynamics.rs: MeterState, MeterNode, Monitor"])
p("Maximum length sequences have full period",
  "An n-bit MLS generator visits every nonzero state exactly once per 2^n - 1 steps from any nonzero state and never reaches zero.",
  "all orders 1..31 and all nonzero states",
  "Up to 2^31 states for each polynomial and all starting states.",
  ["src/noise.rs: MLS_POLY, MlsState"])
p("White noise is block-consistent and in range",
  "noise output in ticks and blocks coincide for every block partition, every sample is in [-1,1], and two generators with the same seed agree forever.",
  "all seeds, positions and partitions",
  "2^64 seeds and unbounded time.",
  ["src/noise.rs: Noise, hash32x"])
p("Panning is equal power and mixing is linear",
  "pan weights satisfy l^2 + r^2 = 1, are nonnegative for pan in [-1,1] (clamped outside) and are mirror images; a mixer is a linear map.",
  "all pan values, all inputs",
  "Continuum.",
  ["src/pan.rs: pan_weights, Panner, Mixer"])
p("Oscillator phase and output stay in range forever",
  "ramp and the polynomial oscillators keep phase in [0,1) for every frequency signal, and saw, square and pulse outputs stay in [-1,1] for frequencies up to half the sample rate.",
  "all frequency signals, all times",
  "Unbounded time, continuum of frequencies.",
  ["src/oscillator.rs: Ramp, polyblep, PolySaw, PolySquare, PolyPulse"])
p("Discrete summation oscillator equals its partial sum",
  "dsf(f, d, r, n) equals the sum of r^i sin(f + i d) over its partials.",
  "all phases, spacings, roughness below one, all n",
  "Continuum.",
  ["src/oscillator.rs: dsf"])
p("Envelopes interpolate their sampled function",
  "An envelope's output at a sample is the linear interpolation of the user function at the surrounding sample points; sample points advance by interval times a jitter in [0.75,1.25]; blocks equal ticks whenever the interval is longer than a sample.",
  "all functions, intervals, block partitions",
  "All functions and alignments.",
  ["src/envelope.rs: Envelope, EnvelopeIn"])
p("adsr_live behaves as a gated envelope",
  "The adsr_live envelope is zero until the gate first opens, lies in [0,1] for sustain in [0,1], and returns to zero after release.",
  "all gate signals and times",
  "All gate histories.",
  ["src/adsr.rs"])
p("Wave player plays the selected region exactly",
  "The player outputs samples start..end of the chosen channel in order, then silence, or loops from the loop point to the end for ever; it never reads outside the wave.",
  "all waves, regions, loop points and times",
  "Unbounded time.",
  ["src/wave.rs: WavePlayer"])
p("Wave editing keeps channels consistent",
  "After any sequence of wave edits all channels have the same length; inserting and removing channels, appending, mixing and retaining have their documented sample-level effect for every offset including offsets outside the wave.",
  "all edit sequences, offsets, lengths",
  "All offsets and lengths.",
  ["src/wave.rs: push_channel, insert_channel, mix_channel, remove_channel, append, push, resize, retain"])
p("Rendering equals the unit's stream",
  "Wave::render and filter of duration t contain exactly the first round(t*sr) samples of the unit's output stream; latency-compensated versions drop exactly the unit's latency.",
  "all units, durations",
  "All durations and units.",
  ["src/wave.rs: render, render_latency, filter, filter_latency"])
p("Normalization and fades",
  "normalize makes the peak amplitude exactly one unless silent; fade_in and fade_out never increase magnitude and leave the outside untouched.",
  "all waves and durations",
  "All waves.",
  ["src/wave.rs: amplitude, amplify, normalize, fade_in, fade_out"])
p("WAV files decode to what was saved",
  "The bytes written by write_wav32 parse (per the RIFF/WAVE format) to the same channel count, sample rate, length and samples; 16-bit files decode to the clamped samples within half a quantization step, never overflowing.",
  "all waves below the 4 GB format limit",
  "All waves.",
  ["src/write.rs"])
p("Resynthesis with identity processing reconstructs the input",
  "With identity frequency-domain processing, and the FFT inverse law, resynth outputs the input delayed by one window exactly after start-up.",
  "all window lengths, all input streams, all times",
  "All streams and times.",
  ["src/resynth.rs"])
p("Wavetable selection is in bounds and bandlimited",
  "For every frequency the selected tables are in bounds; the selected table's top harmonic does not exceed the limit; the search with any hint gives the same table as without.",
  "all frequencies, hints and table sets",
  "Continuum and all table sets.",
  ["src/wavetable.rs: table_index, read, make_wave, at"])
p("Resampler keeps its window",
  "At any nonnegative speed signal the resampler reads only produced samples still in its ring, and at speed one with integer phase it reproduces its input stream with fixed delay.",
  "all speed signals and times up to the ring limit",
  "All speed histories.",
  ["src/resample.rs"])
p("Oversampling runs the inner node at exactly twice the rate",
  "Each tick runs the inner node on exactly two samples; reset makes the output independent of the past.",
  "all histories",
  "All histories.",
  ["src/oversample.rs"])
p("Filter coefficient design is stable with the documented gain",
  "butter_lowpass and lowpass biquads have poles strictly inside the unit circle (stability triangle) and unit DC gain for every cutoff in (0, sr/2) and q > 0; highpass has zero DC gain; the trapezoidal SVF state energy does not increase with zero input; moog output magnitude is at most one.",
  "all cutoffs, q and sample rates; all inputs",
  "Continuum of parameters.",
  ["src/biquad.rs: BiquadCoefs", "src/svf.rs: SvfCoefs", "src/moog.rs"])
p("Sample-and-hold holds",
  "hold outputs are always a value of the input at a sampling instant not later than now and change only at sampling instants; the interval jitter is within the documented bounds.",
  "all signals, rates, variability in [0,1]",
  "All histories.",
  ["src/noise.rs: Hold"])
p("Atomic tables index in bounds",
  "Reading an atomic table at any phase uses in-range indices and interpolates neighbours circularly.",
  "all phases, power-of-two sizes",
  "Continuum.",
  ["src/shared.rs: AtomicTable, AtomicSynth"])
out = os.path.join(os.path.dirname(os.path.abspath(__file__)), "..", "properties.jsonl")
with open(out, "w") as f:
    for x in P: f.write(json.dumps(x) + "\n")
print(len(P))
