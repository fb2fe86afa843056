{"id": "C01", "title": "Net wiring stays valid under every edit sequence", "statement": "After any sequence of successful Net edit calls (push, chain, connect, disconnect, connect_input, connect_output, disconnect_output, pipe_all, pipe_input, pipe_output, pass_through, set_source, set_output_source, replace, remove, remove_link and the graph operators), every node input and every net output is fed by Zero, by an existing global input, or by an existing output port of an existing node; every node has exactly as many input wires as its unit has inputs; and the handle-to-node mapping and the nodes agree with each other (Net::check never fails).", "quantifier": "all finite edit histories starting from Net::new, all units of all arities", "why_tests_cant": "The space of edit histories is infinite; removal renumbers nodes, so a stale reference only appears for particular interleavings of pushes and removals.", "anchors": ["src/net.rs: Net::push, remove_2, connect, connect_input, connect_output, set_source, set_output_source, replace, pipe_all, check", "src/vertex.rs: Vertex::new"]}
{"id": "C02", "title": "Net evaluation order is topological and cycles are reported exactly", "statement": "The evaluation order computed for a Net lists every node exactly once; if the wiring has no directed cycle then every node appears after all nodes that feed it and no error is raised; error() reports Cycle if and only if the wiring contains a directed cycle.", "quantifier": "all finite graphs with any number of nodes, ports and wires", "why_tests_cant": "Tests can only try particular graphs; both completeness (every cycle found) and soundness (no false alarms) range over all graphs.", "anchors": ["src/net.rs: determine_order, determine_order_in, propagate, error"]}
{"id": "C03", "title": "Removing a node leaves every other connection intact", "statement": "After net.remove(id), for every other node and every net output, source()/output_source() (reported by node id) is what it was before, except that wires that came from the removed node now read Zero; all other nodes keep their id, unit and arity; the removed id is no longer contained and size decreases by one.", "quantifier": "all valid nets, all nodes, all connections", "why_tests_cant": "Node storage is compacted by moving the last node into the hole, so correctness depends on the position of the removed node relative to every wire in the graph.", "anchors": ["src/net.rs: remove, remove_2, source, output_source, contains, size"]}
{"id": "C04", "title": "remove_link bypasses the removed node", "statement": "After net.remove_link(id), every wire that was fed by output port k of the node is fed by whatever fed input port k of that node before; all other wires are unchanged; no wire refers to the removed node.", "quantifier": "all valid nets, all nodes with equal input and output counts", "why_tests_cant": "Chains of bypasses interact with index compaction and with wires from the node to itself or around a loop; only an all-graphs argument covers them.", "anchors": ["src/net.rs: remove_link, remove_2"]}
{"id": "C05", "title": "replace swaps the unit and preserves all wiring", "statement": "net.replace(id, unit) with matching arity returns the old unit, installs the new one under the same id, and leaves every connection and every other node unchanged; with mismatching arity it panics and changes nothing.", "quantifier": "all valid nets, nodes and replacement units", "why_tests_cant": "Ranges over all graphs and units.", "anchors": ["src/net.rs: replace"]}
{"id": "C06", "title": "Node handles stay valid and unambiguous", "statement": "A NodeId returned by push refers to the same unit (same inputs/outputs/state) through any later sequence of pushes, removals of other nodes, rewirings and graph combinations; two live nodes of a net never share an id.", "quantifier": "all edit histories", "why_tests_cant": "Handles are resolved through an index map that is patched on every removal; a wrong patch shows up only for some histories.", "anchors": ["src/net.rs: NodeId::new, push, remove_2, node_index, disambiguate_ids", "src/shared.rs: IdGenerator"]}
{"id": "C07", "title": "Net output is the dataflow solution of the graph", "statement": "For an acyclic net, one tick computes for every node exactly one unit tick whose inputs are the current-sample values of its sources, and the net outputs are the current-sample values of the output sources; the result does not depend on which valid evaluation order is used.", "quantifier": "all acyclic graphs, all units (as arbitrary state machines), all inputs and states", "why_tests_cant": "Order independence is a statement about all topological orders of all graphs.", "anchors": ["src/net.rs: tick_2", "src/vertex.rs: Vertex::tick"]}
{"id": "C08", "title": "Net block processing equals per-sample ticking", "statement": "If each unit's process equals repeated tick, then processing a net in blocks of any sizes up to 64 produces the same samples and leaves units in the same states as ticking the same samples one by one, including when node inputs are read directly from another node's output buffer instead of being copied.", "quantifier": "all acyclic graphs, all block partitions, all inputs, all previous buffer contents", "why_tests_cant": "Bugs depend on stale buffer contents, on the wiring pattern that enables the no-copy shortcut, and on block sizes.", "anchors": ["src/net.rs: process_2", "src/vertex.rs: update_source_vertex, Vertex::process"]}
{"id": "C09", "title": "Net graph operators have their documented meaning", "statement": "For nets a and b: a >> b feeds outputs of a to inputs of b; a | b stacks; a ^ b branches the same inputs; a & b sends inputs to both and sums outputs; a + b, a - b, a * b combine channelwise after stacking inputs; !a passes extra inputs through; -a negates. The observable signal of the combined net is the corresponding function of the signals of the operands, and resulting arities are the documented ones.", "quantifier": "all pairs of acyclic nets, all inputs", "why_tests_cant": "Combination renumbers all nodes of the second operand and rewires global ports; correctness must hold for every wiring inside the operands.", "anchors": ["src/net.rs: pipe, stack, branch, bus, binary, sum, product, thru, Neg/Not impls"]}
{"id": "C10", "title": "Bulk wiring helpers follow the modulo rule", "statement": "pipe_all(a,b), pipe_input, pipe_output, chain and pass_through connect input i of the target to port i modulo the number of source ports (Zero where the source has no ports) and change no other wire.", "quantifier": "all valid nets, all pairs of nodes, all arities including zero", "why_tests_cant": "All arity combinations and pre-existing wires.", "anchors": ["src/net.rs: pipe_all, pipe_input, pipe_output, chain, pass_through"]}
{"id": "C11", "title": "Committing delivers the edited graph to the audio backend", "statement": "After commit, once the backend has handled its messages, the backend graph has the same nodes, wires and outputs as the frontend; units of nodes that were not changed since the previous commit keep the backend's running state; changed or new nodes use the frontend's unit. With several commits queued, the last one wins. The delivered graph is ready to run: the backend does not have to find an evaluation order.", "quantifier": "all sequences of frontend edits and commits interleaved in any way with backend processing", "why_tests_cant": "Thread interleavings and histories cannot be enumerated.", "anchors": ["src/net.rs: commit, migrate, backend, apply_edits", "src/realnet.rs: NetBackend::handle_messages"]}
{"id": "C12", "title": "Live crossfade edits are never lost", "statement": "A unit passed to net.crossfade(id, ...) or fade_in followed by commit eventually becomes the unit running in the backend for that node, no matter when the backend runs relative to further commits, unless it is superseded by a later edit of the same node.", "quantifier": "all interleavings of frontend commits and backend processing", "why_tests_cant": "Loss occurs only for some interleavings of two commits and a backend run.", "anchors": ["src/net.rs: crossfade, fade_in, commit, migrate, apply_edits, apply_foreign_edits", "src/realnet.rs: handle_messages"]}
{"id": "C13", "title": "Node crossfade is glitch-free and ends on the newest unit", "statement": "While a node crossfades, its output is a combination w1*old + w2*new with w1,w2 in [0,1]; with Smooth fade w1 + w2 = 1; when the fade completes only the new unit is heard; units enqueued during a fade replace each other so that the last one enqueued is faded in next and none is skipped back to.", "quantifier": "all enqueue/tick/process histories, all fade lengths", "why_tests_cant": "Depends on timing of enqueues relative to fades.", "anchors": ["src/vertex.rs: tick, process, next_phase, enqueue"]}
{"id": "C14", "title": "Block and tick processing agree for every static combinator", "statement": "For every graph built from Pipe, Stack, Branch, Bus, Thru, Binop, Unop, Map, Split, Join, MultiSplit, MultiJoin, Reverse, Pass, Sink, Constant, MultiBus, MultiStack, Reduce, MultiBranch, Chain over components whose process equals repeated tick, process on blocks of any size up to 64 equals repeated tick, regardless of previous buffer contents and of data beyond the block.", "quantifier": "all combinator trees, all components, all block partitions, all buffer contents", "why_tests_cant": "Infinite family of types; stale scratch-buffer data only matters in particular sequences of block sizes.", "anchors": ["src/audionode.rs: AudioNode::process, process_remainder, Pipe, Stack, Branch, Bus, Thru, Binop, Unop, Map, MultiBus, MultiStack, Reduce, MultiBranch, Chain"]}
{"id": "C15", "title": "Combinator graph algebra", "statement": "Observable stream behaviour satisfies: >> and | and ^ are associative, & is associative and commutative when sample addition is, pass() is a unit for >>, a ^ b equals split-then-stack, a & b equals branch-then-sum, !a keeps extra inputs, and split followed by join is the identity on a channel under real arithmetic.", "quantifier": "all components and all input streams", "why_tests_cant": "Equalities of stream functions over infinite input spaces.", "anchors": ["src/audionode.rs: Pipe, Stack, Branch, Bus, Thru, Split, Join, MultiSplit, MultiJoin, Reverse", "src/combinator.rs operators"]}
{"id": "C16", "title": "BigBlockAdapter processes any length like ticking", "statement": "process_big on n samples (any n) gives the same samples as n ticks of the wrapped unit.", "quantifier": "all n, all units whose process equals repeated tick, all inputs", "why_tests_cant": "Unbounded lengths, all chunk remainders.", "anchors": ["src/audiounit.rs: BigBlockAdapter::process_big"]}
{"id": "C17", "title": "BlockRateAdapter returns the generator's stream", "statement": "However get and filter style calls are mixed, the k-th sample returned since the last reset is the k-th sample of the wrapped generator processed in full blocks.", "quantifier": "all call sequences", "why_tests_cant": "Depends on position inside the internal block for each call.", "anchors": ["src/audiounit.rs: BlockRateAdapter"]}
{"id": "C18", "title": "Buffer channels do not alias and subsets select the right channels", "statement": "Sample writes to (channel, index) of a buffer are read back from the same coordinates and from no other; scalar and SIMD views address the same samples; subset(first, n) channel c is channel first + c; resize keeps the channel count law.", "quantifier": "all channel counts, channels, indices below 64", "why_tests_cant": "Index arithmetic must be injective for all channel counts.", "anchors": ["src/buffer.rs", "src/lib.rs: simd_items, full_simd_items"]}
{"id": "C19", "title": "reset returns a component to its initial state", "statement": "After any history of ticks, reset followed by any input gives the same output as a freshly constructed component with the same parameters and sample rate.", "quantifier": "all histories, all subsequent inputs, each modelled component and all combinators of such components", "why_tests_cant": "Residual state can hide in any field and show up arbitrarily late.", "anchors": ["src/audionode.rs: AudioNode::reset and implementations", "src/delay.rs", "src/feedback.rs", "src/filter.rs", "src/dynamics.rs", "src/reverb.rs", "src/shape.rs", "src/oscillator.rs", "src/noise.rs"]}
{"id": "C20", "title": "Settings reach exactly the addressed component", "statement": "A setting with address path d1..dk applied to a combinator tree changes the parameters of the component at that path and of no other component; a path that does not exist changes nothing.", "quantifier": "all trees, all paths up to the supported depth, all settings", "why_tests_cant": "Infinite family of trees and paths.", "anchors": ["src/setting.rs: Setting::direction, peel, left, right, index, node", "src/audionode.rs: set implementations", "src/net.rs: set"]}
{"id": "C21", "title": "Pseudorandom phases and hashes are deterministic and collision free per step", "statement": "The bit-mixing hashes used for seeding are bijections of the machine word (no two seeds collide in one step), AttoHash::hash is injective in its argument for a fixed state and in the state for a fixed argument, and ping with the same hash gives every component the same hash as on any previous ping.", "quantifier": "all 2^32 / 2^64 words and all component trees", "why_tests_cant": "Exhausting the 64-bit space is infeasible.", "anchors": ["src/math.rs: hash1, hash2, AttoHash", "src/noise.rs: hash32x", "src/audionode.rs: ping implementations"]}
{"id": "C22", "title": "Sequencer plays every event exactly in its time window", "statement": "When ticking, an event with start s and end e pushed before its start contributes to exactly the samples whose middle lies after the start and before the end, with its unit ticked once for each such sample and in order; before and after it contributes nothing; overlapping events are summed; with replay enabled a reset plays all events again identically and without replay nothing is played again.", "quantifier": "all finite multisets of events, all times, all fade settings", "why_tests_cant": "Event heaps and activation thresholds depend on relative order of all events.", "anchors": ["src/sequencer.rs: push, push_event, ready_to_active, tick, reset"]}
{"id": "C23", "title": "Sequencer block processing equals ticking", "statement": "Processing a sequencer in blocks produces the same output as ticking it, for events starting or ending anywhere within a block and for any fade lengths.", "quantifier": "all events, block partitions and fades", "why_tests_cant": "Depends on alignment of event boundaries with blocks.", "anchors": ["src/sequencer.rs: process, fade_in, fade_out, tick"]}
{"id": "C24", "title": "Sequencer frontend messages are applied in order", "statement": "The backend of a real-time sequencer behaves like a sequencer on which the frontend's pushes, edits and resets were called directly in the same order.", "quantifier": "all message sequences and all batchings of message handling", "why_tests_cant": "Loss depends on which messages land in the same batch.", "anchors": ["src/realseq.rs: handle_messages", "src/sequencer.rs: backend"]}
{"id": "C25", "title": "Slot always ends up playing the most recently set unit", "statement": "After Slot::set calls stop and all fades finish, the slot plays the last unit set; intermediate units may be skipped but the order is never inverted; during fades output is a convex (Smooth) combination of two units.", "quantifier": "all sequences of set, tick, process and reset", "why_tests_cant": "Timing dependent.", "anchors": ["src/slot.rs: Slot::set, SlotBackend::handle_messages, next_phase, tick, process"]}
{"id": "C26", "title": "Ring delivers samples in order without duplication", "statement": "The sequence of frames output by a ring buffer node is the sequence of frames sent, in order, each at most once, with silence inserted exactly when the queue is empty; frames are rejected only when the queue is full.", "quantifier": "all interleavings of sender and audio thread", "why_tests_cant": "Interleavings.", "anchors": ["src/ring.rs"]}
{"id": "C27", "title": "Snoop shows the true signal history", "statement": "After update, snoop.at(i) is the i-th most recent sample that passed through the backend up to the last delivered buffer, for every i below capacity; samples pass through unchanged.", "quantifier": "all signals, all update schedules, all capacities", "why_tests_cant": "Ring index wraparound and partially filled buffers for all schedules.", "anchors": ["src/snoop.rs"]}
{"id": "C28", "title": "Shared variables deliver the last written value", "statement": "A var() node outputs exactly the last value stored (bit for bit) by any holder of the shared variable, in both tick and block processing; a timer shows the time of the last processed sample.", "quantifier": "all sequences of writes and processing, all bit patterns", "why_tests_cant": "Values and histories unbounded.", "anchors": ["src/shared.rs: Shared, Var, Timer"]}
{"id": "C29", "title": "Generated identifiers are unique", "statement": "Identifiers handed out by the lock-free generator are pairwise distinct.", "quantifier": "all thread interleavings of all numbers of calls", "why_tests_cant": "Interleavings and 2^32 counter wraparounds cannot be tested.", "anchors": ["src/shared.rs: IdGenerator::get_id"]}
{"id": "C30", "title": "Easing functions are monotone maps of the unit interval", "statement": "smooth3, smooth5, smooth7, smooth9 map [0,1] onto [0,1], are monotone, fix 0 and 1, and satisfy f(x)+f(1-x)=1 with vanishing end slopes; uparc and downarc are monotone, fix endpoints and are mirror images; sine_ease is approximately equal power.", "quantifier": "all real x in [0,1]", "why_tests_cant": "Continuum of inputs.", "anchors": ["src/math.rs: smooth3, smooth5, smooth7, smooth9, uparc, downarc, sine_ease"]}
{"id": "C31", "title": "Interpolation laws", "statement": "lerp hits its endpoints and stays between them; delerp inverts lerp for distinct endpoints; the mapped ranges lerp11/delerp11, xerp/dexerp and clamp have the documented ranges and inverses.", "quantifier": "all real endpoints and parameters", "why_tests_cant": "Continuum.", "anchors": ["src/math.rs: lerp, lerp11, delerp, delerp11, xerp, dexerp, clamp, clamp01, clamp11"]}
{"id": "C32", "title": "Cubic splines interpolate; the monotone variant does not overshoot", "statement": "spline passes through y1 at 0 and y2 at 1 and reproduces straight lines; spline_mono stays between y1 and y2 for x in [0,1].", "quantifier": "all real control values and x in [0,1]", "why_tests_cant": "Continuum.", "anchors": ["src/math.rs: spline, spline_mono"]}
{"id": "C33", "title": "Coherent noise functions stay in range", "statement": "spline_noise, ease_noise and fractal noise sums stay within their documented ranges for all positions and seeds. Value noise takes a random value of each integer there and moves between neighbours by the easing function given for rising or falling segments, continuously; spline noise passes through 4/5 of its random values at points one apart; fractal noise is the mean of octaves at doubled frequencies with geometric weights.", "quantifier": "all real positions, all seeds", "why_tests_cant": "Continuum times 2^64 seeds.", "anchors": ["src/math.rs: spline_noise, ease_noise, fractal_noise"]}
{"id": "C34", "title": "Softening functions are bounded and sign preserving", "statement": "softsign is odd, strictly increasing with range (-1,1); softexp is positive and increasing; softmix lies between its arguments' extremes; clip, clip_to, tanh and softsign shapers keep output within their limits.", "quantifier": "all real inputs and hardness values", "why_tests_cant": "Continuum.", "anchors": ["src/math.rs: softsign, softexp, softmix", "src/shape.rs: Clip, ClipTo, Tanh, Softsign"]}
{"id": "C35", "title": "delay() is an exact delay line", "statement": "The output of a delay of d samples at time n is the input at time n - d (zero before), where d is the delay time in samples rounded, for ever; tick() is exactly a one-sample delay.", "quantifier": "all delay lengths, all input streams, all times", "why_tests_cant": "Unbounded streams and wraparounds.", "anchors": ["src/delay.rs: Delay, Tick"]}
{"id": "C36", "title": "Variable delay lines read only the permitted window", "statement": "tap: for any time-varying delay input, the output at time n is the cubic interpolation of past input samples around n minus the clamped delay; it never reads outside the buffer, never reads a sample older than the buffer, and block processing equals ticking.", "quantifier": "all delay signals, all inputs, all sample rates and maxima", "why_tests_cant": "Wraparound and block boundary cases for all lengths.", "anchors": ["src/delay.rs: Tap"]}
{"id": "C37", "title": "Linear-interpolated delay block processing equals ticking", "statement": "tap_linear: block processing gives the same output as ticking for every minimum and maximum delay.", "quantifier": "all delay ranges, delay signals and inputs", "why_tests_cant": "Failure depends on a specific relation of buffer length and delay.", "anchors": ["src/delay.rs: TapLinear"]}
{"id": "C38", "title": "Feedback implements its recurrence", "statement": "feedback units satisfy y[n] = x(in[n] + y[n-d]) with d the rounded delay of at least one sample, in ticks and in blocks of any size.", "quantifier": "all inner units, delays, inputs, block partitions", "why_tests_cant": "The block algorithm switches path depending on size versus delay.", "anchors": ["src/feedback.rs: Feedback, Feedback2, FeedbackUnit"]}
{"id": "C39", "title": "Hadamard mixing: the matrix, energy preservation, self-inverse", "statement": "The feedback mixing matrix is the normalized Hadamard matrix: every input reaches every output with equal magnitude and the sign given by the parity of the common one bits of the channel numbers. It preserves the sum of squares of the frame and applying it twice is the identity.", "quantifier": "all power-of-two channel counts and all frames", "why_tests_cant": "All sizes and values.", "anchors": ["src/feedback.rs: FrameHadamard::frame"]}
{"id": "C40", "title": "Allpass structures are lossless", "statement": "The nested allpass around a lossless delay and the first-order allpass filter satisfy an exact energy balance: output energy never exceeds input energy up to the stored energy, for every coefficient magnitude below one.", "quantifier": "all inputs, all lengths, all coefficients", "why_tests_cant": "Infinite horizons.", "anchors": ["src/delay.rs: AllNest", "src/filter.rs: Allpole"]}
{"id": "C41", "title": "One-pole smoothers never overshoot, converge, and have the response times asked for", "statement": "lowpole, follow and afollow outputs stay within the range spanned by their initial state and inputs; with constant input they converge to it, monotonically when they start at rest. After its response time follow is halfway to a new constant input, within one percent of the way. afollow follows rising input with its attack time and falling input with its release time.", "quantifier": "all inputs, all coefficients in range, all horizons; response times of 1 to 500000 samples", "why_tests_cant": "Infinite horizons.", "anchors": ["src/filter.rs: Lowpole", "src/follow.rs: Follow, AFollow", "src/combinator.rs: filter_pole"]}
{"id": "C42", "title": "DC removal", "statement": "dcblock and highpole outputs converge to zero for constant input and are bounded for bounded input.", "quantifier": "all constants, coefficients and horizons", "why_tests_cant": "Limit statement.", "anchors": ["src/filter.rs: DCBlock, Highpole"]}
{"id": "C43", "title": "FIR filter computes the convolution", "statement": "fir output at n is the sum of weights times the corresponding past inputs, for all weights; its DC gain is the weight sum.", "quantifier": "all weight vectors and input streams", "why_tests_cant": "All lengths and streams.", "anchors": ["src/fir.rs"]}
{"id": "C44", "title": "Reported frequency response is the true response", "statement": "For the linear filters (fir, lowpole, highpole, dcblock, allpole, tick, delay, biquad, svf modes, pinkpass) the complex number returned by response() at a frequency is the factor by which a complex exponential of that frequency is multiplied by the running filter.", "quantifier": "all frequencies, coefficients, and all times", "why_tests_cant": "Continuum of frequencies and parameters; numerical tests only sample.", "anchors": ["src/signal.rs", "src/filter.rs route", "src/fir.rs route", "src/biquad.rs response", "src/svf.rs response"]}
{"id": "C45", "title": "Reported latency is right under composition", "statement": "latency() of a series connection is the sum, of a parallel connection the minimum, of the component latencies, and a generator feeding a processor has the processor's latency so that rendering can discard it.", "quantifier": "all combinator trees", "why_tests_cant": "All trees.", "anchors": ["src/signal.rs: Routing::route, combine_linear, combine_nonlinear", "src/audionode.rs: latency", "src/wave.rs: render_latency"]}
{"id": "C46", "title": "Look-ahead limiter bounds and aligns", "statement": "The limiter output at n is the input at n - L divided by a gain that is at least one for a fresh limiter; the maximum tracker equals the true maximum of the last L magnitudes at all times.", "quantifier": "all input streams, look-ahead lengths and times", "why_tests_cant": "Infinite streams; tree updates for all lengths.", "anchors": ["src/dynamics.rs: ReduceBuffer, Limiter"]}
{"id": "C47", "title": "Declick fades in and then is transparent", "statement": "declick multiplies by a monotone fade for its duration and passes the signal unchanged afterwards; blocks equal ticks.", "quantifier": "all durations, rates, inputs, block partitions", "why_tests_cant": "Boundary within a block.", "anchors": ["src/dynamics.rs: Declick"]}
{"id": "C48", "title": "Meters report what they document", "statement": "A peak meter never reads below the current magnitude and decays geometrically; an rms meter is between zero and the running maximum; monitor passes signal through unchanged and stores the meter of all samples in ticks and in blocks.", "quantifier": "all signals, timescales, block partitions", "why_tests_cant": "All histories.", "anchors": ["src/dynamics.rs: MeterState, MeterNode, Monitor"]}
{"id": "C49", "title": "Maximum length sequences have full period", "statement": "An n-bit MLS generator visits every nonzero state exactly once per 2^n - 1 steps from any nonzero state and never reaches zero.", "quantifier": "all orders 1..31 and all nonzero states", "why_tests_cant": "Up to 2^31 states for each polynomial and all starting states.", "anchors": ["src/noise.rs: MLS_POLY, MlsState"]}
{"id": "C50", "title": "White noise is block-consistent and in range", "statement": "noise output in ticks and blocks coincide for every block partition, every sample is in [-1,1], and two generators with the same seed agree forever.", "quantifier": "all seeds, positions and partitions", "why_tests_cant": "2^64 seeds and unbounded time.", "anchors": ["src/noise.rs: Noise, hash32x"]}
{"id": "C51", "title": "Panning is equal power and mixing is linear", "statement": "pan weights satisfy l^2 + r^2 = 1, are nonnegative for pan in [-1,1] (clamped outside) and are mirror images; a mixer is a linear map.", "quantifier": "all pan values, all inputs", "why_tests_cant": "Continuum.", "anchors": ["src/pan.rs: pan_weights, Panner, Mixer"]}
{"id": "C52", "title": "Oscillator phase and output stay in range forever", "statement": "ramp and the polynomial oscillators keep phase in [0,1) for every frequency signal, and saw, square and pulse outputs stay in [-1,1] for frequencies up to half the sample rate.", "quantifier": "all frequency signals, all times", "why_tests_cant": "Unbounded time, continuum of frequencies.", "anchors": ["src/oscillator.rs: Ramp, polyblep, PolySaw, PolySquare, PolyPulse"]}
{"id": "C53", "title": "Discrete summation oscillator equals its partial sum", "statement": "dsf(f, d, r, n) equals the sum of r^i sin(f + i d) over its partials.", "quantifier": "all phases, spacings, roughness below one, all n", "why_tests_cant": "Continuum.", "anchors": ["src/oscillator.rs: dsf"]}
{"id": "C54", "title": "Envelopes interpolate their sampled function", "statement": "An envelope's output at a sample is the linear interpolation of the user function at the surrounding sample points; sample points advance by interval times a jitter in [0.75,1.25]; blocks equal ticks whenever the interval is longer than a sample.", "quantifier": "all functions, intervals, block partitions", "why_tests_cant": "All functions and alignments.", "anchors": ["src/envelope.rs: Envelope, EnvelopeIn"]}
{"id": "C55", "title": "adsr_live behaves as a gated envelope", "statement": "The adsr_live envelope is zero until the gate first opens, lies in [0,1] for sustain in [0,1], and returns to zero after release.", "quantifier": "all gate signals and times", "why_tests_cant": "All gate histories.", "anchors": ["src/adsr.rs"]}
{"id": "C56", "title": "Wave player plays the selected region exactly", "statement": "The player outputs samples start..end of the chosen channel in order, then silence, or loops from the loop point to the end for ever; it never reads outside the wave.", "quantifier": "all waves, regions, loop points and times", "why_tests_cant": "Unbounded time.", "anchors": ["src/wave.rs: WavePlayer"]}
{"id": "C57", "title": "Wave editing keeps channels consistent", "statement": "After any sequence of wave edits all channels have the same length; inserting and removing channels, appending, mixing and retaining have their documented sample-level effect for every offset including offsets outside the wave.", "quantifier": "all edit sequences, offsets, lengths", "why_tests_cant": "All offsets and lengths.", "anchors": ["src/wave.rs: push_channel, insert_channel, mix_channel, remove_channel, append, push, resize, retain"]}
{"id": "C58", "title": "Rendering equals the unit's stream", "statement": "Wave::render and filter of duration t contain exactly the first round(t*sr) samples of the unit's output stream; latency-compensated versions drop exactly the unit's latency.", "quantifier": "all units, durations", "why_tests_cant": "All durations and units.", "anchors": ["src/wave.rs: render, render_latency, filter, filter_latency"]}
{"id": "C59", "title": "Normalization and fades", "statement": "normalize makes the peak amplitude exactly one unless silent; fade_in and fade_out never increase magnitude and leave the outside untouched.", "quantifier": "all waves and durations", "why_tests_cant": "All waves.", "anchors": ["src/wave.rs: amplitude, amplify, normalize, fade_in, fade_out"]}
{"id": "C60", "title": "WAV files decode to what was saved", "statement": "The bytes written by write_wav32 parse (per the RIFF/WAVE format) to the same channel count, sample rate, length and samples; 16-bit files decode to the clamped samples within half a quantization step, never overflowing.", "quantifier": "all waves below the 4 GB format limit", "why_tests_cant": "All waves.", "anchors": ["src/write.rs"]}
{"id": "C61", "title": "Resynthesis with identity processing reconstructs the input", "statement": "With identity frequency-domain processing, and the FFT inverse law, resynth outputs the input delayed by one window exactly after start-up.", "quantifier": "all window lengths, all input streams, all times", "why_tests_cant": "All streams and times.", "anchors": ["src/resynth.rs"]}
{"id": "C62", "title": "Wavetable selection is in bounds and bandlimited", "statement": "For every frequency the selected tables are in bounds; the selected table's top harmonic does not exceed the limit; the search with any hint gives the same table as without.", "quantifier": "all frequencies, hints and table sets", "why_tests_cant": "Continuum and all table sets.", "anchors": ["src/wavetable.rs: table_index, read, make_wave, at"]}
{"id": "C63", "title": "Resampler keeps its window", "statement": "At any nonnegative speed signal the resampler reads only produced samples still in its ring, and at speed one with integer phase it reproduces its input stream with fixed delay.", "quantifier": "all speed signals and times up to the ring limit", "why_tests_cant": "All speed histories.", "anchors": ["src/resample.rs"]}
{"id": "C64", "title": "Oversampling runs the inner node at exactly twice the rate", "statement": "Each tick runs the inner node on exactly two samples; reset makes the output independent of the past.", "quantifier": "all histories", "why_tests_cant": "All histories.", "anchors": ["src/oversample.rs"]}
{"id": "C65", "title": "Filter coefficient design is stable with the documented gain", "statement": "For every cutoff in (0, sr/2), q > 0 and gain > 0 the butter_lowpass, resonator, lowpass, highpass and bell biquads and all SVF modes have poles strictly inside the unit circle and forget their state; butter_lowpass and lowpass have unit DC gain, the butter_lowpass cutoff is the -3 dB point, highpass blocks DC, bell has the requested gain at its center; the trapezoidal SVF state energy does not increase with zero input; moog output magnitude is below one.", "quantifier": "all cutoffs, q and sample rates; all inputs", "why_tests_cant": "Continuum of parameters.", "anchors": ["src/biquad.rs: BiquadCoefs", "src/svf.rs: SvfCoefs", "src/moog.rs"]}
{"id": "C66", "title": "Sample-and-hold holds", "statement": "hold outputs are always a value of the input at a sampling instant not later than now and change only at sampling instants; the interval jitter is within the documented bounds.", "quantifier": "all signals, rates, variability in [0,1]", "why_tests_cant": "All histories.", "anchors": ["src/noise.rs: Hold"]}
{"id": "C67", "title": "Atomic tables index in bounds", "statement": "Reading an atomic table at any phase uses in-range indices and interpolates neighbours circularly.", "quantifier": "all phases, power-of-two sizes", "why_tests_cant": "Continuum.", "anchors": ["src/shared.rs: AtomicTable, AtomicSynth"]}
{"id": "C68", "title": "Frequency response of a composed unit is true of its sound", "statement": "When response(output, frequency) of any expression built with the graph operators returns Some(H), feeding the same sinusoid of that frequency to all inputs makes that output settle to the sinusoid scaled and phase shifted by H, plus a constant; and every constant Value found by the analysis is the limit of the signal it describes.", "quantifier": "all expression trees of the graph operators over leaves whose own response is correct, all frequencies, amplitudes and phases, all states", "why_tests_cant": "The claim is about an unbounded family of expression trees and about limits of infinite signals; a test samples a few expressions for a finite time with a tolerance.", "anchors": ["src/signal.rs: Signal, SignalFrame, Routing::route", "src/audionode.rs: route of all combinators", "src/audiounit.rs: AudioUnit::response"]}
{"id": "C69", "title": "Live settings reach the node they are addressed to", "statement": "A setting sent through a frontend with set, addressed to a node, is applied to the unit of that node in the backend, to no other unit, and in the order of the calls, no matter how it is interleaved with commits.", "quantifier": "all queues of commits and settings, all states of the backend", "why_tests_cant": "The order in which the audio thread finds commits and settings in its queue depends on timing.", "anchors": ["src/net.rs: set, commit, migrate", "src/realnet.rs: handle_messages"]}
{"id": "C70", "title": "Setting listeners deliver", "statement": "A setting sent with the sender returned by listen is applied to the node before its next tick, block or reset, in the order sent; apart from settings the listener does not change the sound of the node.", "quantifier": "all nodes, all queues of settings, all schedules of calls", "why_tests_cant": "Requires quantification over nodes and over interleavings of the sender with the audio thread.", "anchors": ["src/setting.rs: listen, SettingSender, SettingListener"]}
{"id": "C71", "title": "Editing an event takes effect from the next sample", "statement": "Sequencer::edit and edit_relative change the end time and fade-out of one event from the next sample on, whether it is waiting or already playing; an event that is playing continues without a jump, and all other events are unaffected.", "quantifier": "all sets of events, all edits at all times", "why_tests_cant": "Waiting and active events are kept in different collections and edits travel by different ways; which one applies depends on all other events.", "anchors": ["src/sequencer.rs: edit, edit_relative, ready_to_active"]}
{"id": "C72", "title": "Waveshapers", "statement": "A waveshaper node renders the same output sample by sample and in blocks. The adaptive distortion divides its input by the square root of a running estimate of signal power: an exponentially weighted mean of past input power that moves halfway to a new level in the given timescale, is never below -60 dB, and is restored by reset to that of a new node.", "quantifier": "all shapes and nestings of adaptive shapes, all inputs, all block schedules, all timescales and sample rates", "why_tests_cant": "Level estimation has unbounded memory; block and sample code paths are separate functions; shapes are user supplied.", "anchors": ["src/shape.rs: Shape, Shaper, Adaptive"]}
{"id": "C73", "title": "Dynamical system update schedule", "statement": "The update function of a dynamical system is called before the very first sample with time zero, and then whenever at least the update interval has passed since the previous update, at the next sample (or block) boundary; it is told the current time and the time since the previous update, and those intervals add up to the time; between updates the enclosed node runs undisturbed.", "quantifier": "all enclosed nodes, all update functions, all intervals and sample rates, all schedules of ticks and blocks", "why_tests_cant": "Update functions and nodes are arbitrary, schedules are unbounded.", "anchors": ["src/system.rs: System"]}
{"id": "C74", "title": "Wavetable oscillators", "statement": "The wavetable, phase driven and pulse oscillators play their table at a phase that is the sum of the frequency inputs so far divided by the sample rate, modulo one, from the initial phase; the phase stays in 0...1; block processing agrees with ticking when frequency is constant within each group of eight samples; reset returns to the initial phase.", "quantifier": "all tables and reading functions, all frequency inputs, all sample rates and block schedules", "why_tests_cant": "Phase is an unbounded accumulation over arbitrary input; tick and block paths are different code.", "anchors": ["src/wavetable.rs: WaveSynth, PhaseSynth, PulseWave"]}
{"id": "C75", "title": "Plucked string", "statement": "A plucked string repeats: with total loop delay equal to the period of the requested frequency at the time of initialization, every sample is the loss-scaled damped copy of what came one period earlier, the excitation has zero mean, the loop is passive so without input the string's energy never grows, and reset plucks the same string again.", "quantifier": "all frequencies below the limit, gains at most one, sample rates, inputs and hashes", "why_tests_cant": "Energy decay is a statement about unbounded time and arbitrary excitation.", "anchors": ["src/oscillator.rs: Pluck"]}
{"id": "C76", "title": "Allpass loop reverb", "statement": "The allpass loop reverb is stable: with loop gain and loop filter that do not amplify, the energy of the output of both channels is bounded by a constant times the energy of the input, for input of any length; silence in gives output whose stored energy never grows; reset returns the reverb to the state of a new one. Its two outputs satisfy the difference equations of a ring of eight delays and sixteen diffusing sections, each of which attenuates by 60 dB times 35 ms over the reverberation time.", "quantifier": "all reverb times, diffusions, non-expansive loop filters and stereo inputs of any length", "why_tests_cant": "Stability is about unbounded time for all inputs; loop filters are user supplied.", "anchors": ["src/reverb.rs: Reverb"]}
{"id": "C77", "title": "Nonlinear biquads", "statement": "A nonlinear biquad computes the difference equation of the biquad with each fed back (or stored) value passed through the shape; with the identity shape it is the linear biquad with the same coefficients. With a shape that saturates, output is bounded for bounded input whatever the coefficients. Parameter inputs take effect on the sample they arrive, settings from the next sample. Reset restores a new filter, and setting the sample rate sets it for the filter and its shape.", "quantifier": "all modes, coefficients, shapes and inputs", "why_tests_cant": "Equivalence of two recursions in different state form over all inputs of unbounded length; boundedness over unbounded time.", "anchors": ["src/biquad.rs: FbBiquad, FixedFbBiquad, DirtyBiquad, FixedDirtyBiquad"]}
{"id": "C78", "title": "Biquad bank", "statement": "A biquad bank is a stack of independent biquad filters: each output channel depends only on its input channel and on the coefficients set for that channel.", "quantifier": "all numbers of lanes, coefficients, settings and inputs", "why_tests_cant": "All coefficient settings in any order with all inputs.", "anchors": ["src/biquad_bank.rs: BiquadBank"]}
{"id": "C79", "title": "Resonant two-pole filter", "statement": "The resonant two-pole lowpass and bandpass (rez) filters stay bounded for bounded input for any resonance and cutoff, in lowpass mode pass a constant signal unchanged, and their response with resonance zero is that of two cascaded one-pole smoothers.", "quantifier": "all cutoffs below the limit, resonances and inputs", "why_tests_cant": "Nonlinear feedback over unbounded time.", "anchors": ["src/rez.rs: Rez"]}
{"id": "C80", "title": "Granular synthesizer scheduling", "statement": "Each voice of the granular synthesizer plays an unbroken chain of grains: the next grain of a voice starts exactly where the fade-out of the previous one starts, every grain is scheduled before its start time is rendered, no grain is scheduled twice or dropped, and rendering in blocks spawns the same grains as ticking.", "quantifier": "all generator functions, numbers of voices, seeds and block schedules", "why_tests_cant": "Generator is an arbitrary function and time is unbounded.", "anchors": ["src/granular.rs: Granular"]}
{"id": "C81", "title": "Morphing filter", "statement": "The morphing filter gives the lowpass response at morph -1, the peak response at morph 0, the highpass response at morph 1 and the linear blend between; block processing agrees with ticking; reset equals new; its reported frequency response is that of the signal it produces.", "quantifier": "all inputs, cutoffs, resonances, morph signals and block schedules", "why_tests_cant": "All inputs and parameter trajectories over unbounded time.", "anchors": ["src/svf.rs: Morph"]}
{"id": "C82", "title": "State variable filters with parameter inputs and settings", "statement": "A state variable filter with cutoff, Q and gain inputs behaves at each sample as the documented filter of its mode for the parameters last read (every sample, or every n-th with the subsampling setting); with constant parameter inputs it equals the fixed filter; no modulation of the parameters within range makes the stored energy grow, and the energy added is bounded by the input energy; settings of the fixed filter take effect as if it had been made with the new parameters; reset equals new; blocks equal ticks.", "quantifier": "all modes, sample rates, parameter trajectories, subsampling periods, audio inputs and numbers of samples", "why_tests_cant": "Stability under arbitrary modulation and equality of filters range over all parameter trajectories and unbounded time.", "anchors": ["src/svf.rs: Svf, FixedSvf, SvfMode, SvfCoefs", "src/setting.rs: Parameter::Subsample, Center, CenterQ, CenterQGain"]}
{"id": "C83", "title": "Feedback delay network reverbs", "statement": "reverb_stereo and reverb4_stereo are the feedback delay networks of their description (delay lines with a damping filter, mixed with the Hadamard matrix, panned on an S curve). They are stable: the energy of the output is at most a fixed multiple of the energy of the input, bounded input makes bounded output, input of finite energy dies out, and once the input has ended the remaining energy falls by at least the gain per pass for every longest delay, to -60 dB after a known time. Nothing is heard before the shortest delay. Reset returns to the state of a new reverb and blocks equal ticks.", "quantifier": "all room sizes, reverberation times, damping amounts in 0...1, sample rates, delay times (reverb4_stereo_delays), stereo inputs of any length", "why_tests_cant": "Stability and decay are about unbounded time for all inputs and all parameters.", "anchors": ["src/prelude.rs: reverb_stereo, reverb4_stereo, reverb4_stereo_delays, fdn, sumf, fir3", "src/feedback.rs: Feedback, FrameHadamard"]}
{"id": "C84", "title": "Flanger and chorus read their input at the modulated delays and stay bounded", "statement": "`flanger(amount, min, max, f)` outputs its input plus a wet signal; the wet signal is the loop signal read by cubic interpolation at the delay f gives at that sample (confined to min...max and at least 1.00001 samples), and the loop signal is the input plus tanh(amount * previous wet sample). Its output is bounded by M + 5/4 (M + 1) for inputs bounded by M whatever the amount and modulation, and it falls silent after its input if |amount| < 4/5. `chorus` outputs exactly one fifth of the sum of its input and four copies read at four modulated delays, is bounded by 6/5 of the input peak and is exactly silent once the longest delay plus two samples of silence have passed. Both process blocks as they tick and return to their initial behaviour on reset.", "quantifier": "all feedback amounts, delay ranges with a buffer below 2^31 samples, sample rates, modulating oscillators (any node without inputs), input signals and sample positions; schedules of ticks, blocks and resets", "why_tests_cant": "Bounds and decay hold for every modulation and every input, including feedback amounts above one; a test hears a few modulations for a few seconds.", "anchors": ["src/prelude.rs: flanger, chorus", "src/delay.rs: Tap", "src/feedback.rs: Feedback2", "src/shape.rs: Tanh"]}
{"id": "C85", "title": "Phaser is a feedback loop of ten allpasses and is stable for feedback below one", "statement": "`phaser(amount, f)` outputs its input plus amount times the tenth allpass output; the first allpass receives the input plus amount times the previous tenth output, and the i-th allpass has a delay of the oscillator value plus 0.1 i samples at every sample. While the modulation rests, |amount| < 1 bounds the energy of the output up to any time by 1/(1-|amount|)^2 times that of the input and the output tends to zero after the input ends. It processes blocks as it ticks and returns to its initial behaviour on reset.", "quantifier": "all feedback amounts, oscillators, inputs and sample positions for the equation; all amounts in (-1, 1), resting values and inputs for stability; all schedules for blocks and reset", "why_tests_cant": "Stability of a recursive loop is a statement about all inputs and unbounded time; a test only sees that a finite response did not grow.", "anchors": ["src/prelude.rs: phaser", "src/filter.rs: Allpole", "src/feedback.rs: Feedback", "src/audionode.rs: Thru, Chain"]}
{"id": "C86", "title": "Rössler and Lorenz oscillators follow their systems of equations and stay bounded", "statement": "`rossler()` and `lorenz()` output a fixed multiple of the first coordinate of the Rössler (0.15, 0.2, 10) and Lorenz (10, 28, 8/3) systems, followed by Euler steps of 2.91 f/sr and f/sr for any frequency signal f. Only the ratio of frequency to sample rate matters, frequency zero holds the output, a reset or a hash starts the path over from a point determined by the hash, blocks equal ticks, and the output stays bounded for all frequencies below half the sample rate.", "quantifier": "all states, hashes, frequency signals (modulated in any way), sample rates, lengths of time and schedules of ticks, blocks and resets", "why_tests_cant": "A chaotic path amplifies every difference, so no finite set of runs says what other hashes or frequency signals do; boundedness is about unbounded time.", "anchors": ["src/oscillator.rs: Rossler, Lorenz", "src/prelude.rs: rossler, lorenz"]}
{"id": "C87", "title": "Modulated stereo reverb is a network of 32 noise-modulated lines, loses energy on every pass and dies out", "statement": "`reverb2_stereo(room, time, diffusion, speed, filter)` diffuses each channel with two allpasses, feeds even lines from the left and odd lines from the right, passes each line through the loop filter, a gain of 10^(-1.5 d/time) with d the shortest delay, a delay whose length follows spline noise within one millisecond of its mean and moves at most 0.0012 samples per sample and unit of speed, and an allpass; it mixes the lines with the normalized Hadamard matrix for the next sample, and outputs 1/8 of the lines panned along an S curve. For loop filters that do not amplify, modulation speeds up to 250 and speed times time up to 100 seconds, the energy of the output up to any time is bounded by a constant times that of the input and the output tends to silence for inputs of finite energy, although the delays are modulated. Nothing is heard before the shortest delay less 1.25 ms. It processes blocks as it ticks and returns to its initial behaviour on reset.", "quantifier": "all rooms, reverberation times, diffusions, modulation speeds in range, sample rates from 134 Hz, loop filters (any for the equations, blocks and onset; passive ones for energy), hashes, noise functions and inputs; unbounded time; all schedules", "why_tests_cant": "A modulated delay can add energy, so stability of the loop is a statement about all inputs, all noise paths and unbounded time; a test only sees that a finite response did not grow.", "anchors": ["src/prelude.rs: reverb2_stereo, fdn, stacki, allnest, delay, tap_linear, lfo", "src/delay.rs: TapLinear", "src/envelope.rs: Envelope", "src/math.rs: spline_noise", "src/feedback.rs: Feedback, FrameHadamard"]}
{"id": "C88", "title": "Every unit runs at the sample rate of its container", "statement": "After any sequence of edits, settings of the sample rate, ticks, blocks and resets of a Net, every unit in it and every unit waiting to be faded in has been told the sample rate the Net reports, and that rate is the last one set. The same holds for the units of a committed Net in its backend, of Nets combined with operators, for every event of a Sequencer whenever it was pushed, and for the units of a Slot. Setting the sample rate of a Sequencer between passes keeps its events: each is played in the samples its window takes up at the new rate, as by a Sequencer made at that rate. The Net claim fails when the rate is set during a crossfade, when Nets of different rates are combined and when the rate is set in a backend before a commit; the Sequencer claim fails for its backend; the Slot claim fails for units that were never told the rate.", "quantifier": "all Nets, edits, units, operators, Sequencers, events, Slots, sample rates, call sequences and interleavings of frontend and backend", "why_tests_cant": "A unit at the wrong rate plays at the wrong pitch only after particular orders of edits, rate settings and commits; tests set the rate once, before anything else.", "anchors": ["src/net.rs: set_sample_rate, push, replace, crossfade, wrap_id, pipe, binary, neg, commit, backend", "src/realnet.rs: set_sample_rate, handle_messages", "src/sequencer.rs: set_sample_rate, push, push_event", "src/realseq.rs: set_sample_rate, handle_messages", "src/slot.rs: set, set_sample_rate"]}
{"id": "C89", "title": "Time functions, pitch, tempo, gain and loudness conversions", "statement": "sin_hz, cos_hz, sqr_hz and tri_hz have period 1/hz, stay in -1...1 and have the documented phases and shapes (square: first half 1, second half -1; triangle: 0 rising, 1 after a quarter, -1 after three quarters, never steeper than 4 hz per second). Twelve semitones double a frequency and intervals add; note 69 is 440 Hz, note 21 is 27.5 Hz and every positive frequency has exactly one note number. db_amp and amp_db are inverse, turn sums into products, 0 dB is unity and 20 dB a factor of ten. Dissonance is symmetric, ranges over 0...1, is 0 only for equal tones, and above any tone rises to a single peak and then falls; dissonance_max finds this peak. A-weighting and M-weighting are 1 at 1 kHz, positive, bounded; A-weighting has a single peak near 2.5 kHz. rnd1 takes every multiple of 2^-53 in 0...1 equally often over all 64-bit arguments.", "quantifier": "all real times, frequencies, note numbers, gains and tones; all 2^64 arguments of rnd1", "why_tests_cant": "Ranges, inverses, single peaks and equidistribution are statements about the continuum or about 2^64 arguments.", "anchors": ["src/math.rs: sin_hz, cos_hz, sqr_hz, tri_hz, semitone_ratio, midi_hz, bpm_hz, db_amp, amp_db, dissonance, dissonance_max, a_weight, m_weight, rnd1"]}
{"id": "C90", "title": "Parameters from the constructor, a setting or an input mean the same", "statement": "Filters, followers, panners, constants and oscillators that take a parameter from their constructor use it until a documented setting replaces it; from the next sample on they behave exactly as if the new value, at the sample rate then in force, had always been computed from that setting; settings of other kinds have no effect. The forms with a parameter input use the value at the input at every sample and no stored one. With a constant at the input and no settings they agree with the form made with that constant. The _hz and _q shorthands are the unit with constant inputs.", "quantifier": "all parameters, all input signals, all interleavings of settings and sample rate changes between samples", "why_tests_cant": "The settings and rate changes that may fall between samples form arbitrary sequences, and stale coefficients show only for some of them.", "anchors": ["src/filter.rs: Lowpole, DCBlock, Highpole, Allpole", "src/biquad.rs: Biquad, ButterLowpass, Resonator", "src/moog.rs: Moog", "src/rez.rs: Rez", "src/pan.rs: Panner", "src/follow.rs: Follow, AFollow", "src/delay.rs: AllNest", "src/oscillator.rs: Dsf", "src/audionode.rs: Constant", "src/prelude.rs: moog_q, lowrez_q, morph_hz, sine_hz"]}
{"id": "C91", "title": "Graph expressions: constants in operators, generated groups, sample access", "statement": "A constant in an operator (x + c, c - x, x * c, ...) acts on every output of the node like the constant node would; add(c), sub(c) and mul(c) act on each channel with its own constant; -x negates. Groups made from an indexed generator (busi, stacki, branchi, sumi, pipei) hold the node f(i) at place i and have the meaning of the operator applied N times: sum of all, side by side, in sequence, with the channels of node i at positions i * width and up. Fractional generators are given points from 0 to 1 with equal spacing, and 1/2 for a single node. get_mono, get_stereo, filter_mono and filter_stereo called repeatedly give the successive samples of the unit (average or copy where channel counts differ), for AudioNode and AudioUnit alike, and panic exactly for the wrong channel counts.", "quantifier": "all nodes and their states, all group sizes, all constants, all input signals, any number of calls", "why_tests_cant": "Group sizes, node types and channel counts are type parameters; tests instantiate a few of them, and a swap of channels or of the order of operands shows only for some.", "anchors": ["src/combinator.rs: An operators", "src/prelude.rs: add, sub, mul, busi, busf, stacki, stackf, branchi, branchf, sumi, sumf, pipei, pipef", "src/audionode.rs: AudioNode::get_mono, get_stereo, filter_mono, filter_stereo, Unop, MultiBus, MultiStack, MultiBranch, Reduce, Chain", "src/audiounit.rs: AudioUnit::get_mono, get_stereo"]}
{"id": "C92", "title": "Seeds and initial phases override pseudorandom ones", "statement": "x.phase(p), on an oscillator or its fixed-frequency form, and x.seed(n), on a noise generator, fix the signal from then on: it starts from phase p (so sine_hz(f).phase(p) is sin(2 pi (p + f k / sr))) or from the state given by the seed, and no longer depends on earlier use nor on the hashes given by the surrounding graph, at any reset or ping. Changed later with a setting, the override has no effect until the next reset and takes effect there. Without an override, the hash decides the signal.", "quantifier": "all oscillators and noise generators, all earlier states, all later sequences of settings, pings, rate changes, resets and samples, all hashes, phases and seeds", "why_tests_cant": "Tests compare a few renders with one hash each; independence of every hash and of every history is a statement about pairs of runs.", "anchors": ["src/combinator.rs: An::phase, An::seed", "src/oscillator.rs: Sine, Ramp, PolySaw, PolySquare, PolyPulse, Dsf", "src/wavetable.rs: WaveSynth, PulseWave", "src/noise.rs: Noise, Mls", "src/audionode.rs: Pipe::set", "README.md: Deterministic pseudorandom phase"]}
{"id": "C93", "title": "Clocks in floating point", "statement": "With every operation rounded to nearest as in IEEE arithmetic: the variable of a timer holds, after n samples, n divided by the sample rate up to an explicit error, whether samples are rendered one by one or in blocks. Clocks in double precision (timer, sequencer, envelopes of the default prelude) move on at every sample for 68 years at any sample rate up to 2 MHz. Clocks in single precision (dynamical systems, envelopes of the single precision prelude, crossfades of nodes) move on only while the time of a sample is more than half a unit in the last place of the time: an envelope or a system rendered sample by sample at 44.1 kHz must keep its time, and a crossfade must end, however long.", "quantifier": "all sample rates, all numbers of samples and sequences of block sizes, all envelope functions and intervals, all crossfade times", "why_tests_cant": "The errors show after minutes to years of samples; tests run for seconds, and a bound on accumulated rounding is a statement for every length.", "anchors": ["src/shared.rs: Timer::tick, Timer::process", "src/envelope.rs: Envelope::tick, next_segment", "src/system.rs: System::tick", "src/vertex.rs: Vertex::tick", "src/sequencer.rs: Sequencer::tick"]}
{"id": "C94", "title": "Phases, samples and interpolation in floating point", "statement": "With every operation rounded to nearest as in IEEE arithmetic: the phase of an oscillator stays between 0 and 1, and below 1 at frequencies that are not negative; an oscillator with a positive frequency keeps cycling, with the period asked for; samples of noise are between -1 and 1 and samples of maximum length sequences are -1 or 1; the 16-bit sample written to a file is monotone in the sample, never overflows, and takes -1, 0, 1 to -32767, 0, 32767; linear interpolation gives exactly its end points and its inverse exactly 0 and 1, and values between stay between the end points.", "quantifier": "all precisions, all phases and frequencies, all states of the noise generators, all samples, all representable end points", "why_tests_cant": "Ranges at the edge depend on one rounding in 2^32 cases or more, and low frequencies take hours of samples to show.", "anchors": ["src/oscillator.rs: Sine, Ramp, Dsf, PolySaw", "src/wavetable.rs: WaveSynth", "src/noise.rs: Noise, Mls", "src/write.rs: write_wav16", "src/math.rs: lerp, delerp"]}
{"id": "C95", "title": "Loading audio files", "statement": "Loading a file gives exactly the audio of the chosen track: the track with the given number or, without a number, the first one with a known codec. The wave has the number of channels and the sample rate of the track, and each channel consists of the decoded samples in the order of the packets, whatever packets of other tracks lie between. A file that is not recognised, has no such track, has an unsupported codec or a packet that cannot be decoded, or breaks off, gives an error, and loading never panics.", "quantifier": "all format readers and decoders, all lists of tracks, all sequences of packets with any decoder results, all track selections", "why_tests_cant": "Tests load a few well-formed files; interleaved tracks, failing packets and broken files are as many as there are files.", "anchors": ["src/read.rs: Wave::load, Wave::load_track, Wave::load_slice, Wave::load_slice_track, Wave::decode"]}
{"id": "C96", "title": "Averages in floating point", "statement": "join and multijoin, with every operation rounded to nearest: rendered sample by sample or in blocks, they give the average of their channels up to a few roundings, whatever the number of channels; the two ways agree bit for bit, and splitting a signal and joining it again returns it unchanged.", "quantifier": "all precisions, all numbers of channels, all floating point inputs, all block sizes", "why_tests_cant": "Tests compare with a tolerance; agreement bit for bit and error bounds range over all numbers and channel counts.", "anchors": ["src/audionode.rs: Join::tick, Join::process, MultiJoin::tick, MultiJoin::process, Split"]}
{"id": "C97", "title": "Equivalent expressions", "statement": "The expression pairs listed in the README as identical are: no input and no sequence of single-sample calls, blocks and resets shows a difference, even if the blocks are cut differently; equal expressions can replace each other inside any graph.", "quantifier": "all components in the places of oscillators, filters and generators, all their states, all inputs, all schedules", "why_tests_cant": "Identity ranges over all components, inputs and schedules, and replacement over all surrounding graphs; the initial phases follow from hashes of the whole structure.", "anchors": ["README.md: Equivalent Expressions", "src/audionode.rs: Pipe, Stack, Branch, Bus, Binop, Unop, Thru, Sink, Constant", "src/oscillator.rs: Sine::set_hash", "src/math.rs: AttoHash, rnd1"]}
{"id": "C98", "title": "Parametric equalizer", "statement": "The README's equalizer does what its controls say: every call changes the named parameters of the named band from the next sample on without losing the state of the filters; at 0 dB it passes everything unchanged; the reported frequency response is the actual one and is the product of those of the bands, each between 1 and its gain and exactly its gain at its center.", "quantifier": "all numbers of bands, parameters, frequencies and input signals, all sequences of method calls, settings, sample rate changes, resets and samples", "why_tests_cant": "The response must hold at every frequency and for every setting, and the controls in every order while sound is running; the order in which the gain is set decides whether it is heard.", "anchors": ["README.md: Parametric Equalizer Recipe", "src/prelude.rs: pipei, bell_hz", "src/svf.rs: FixedSvf, BellMode", "src/audionode.rs: Chain"]}
{"id": "C99", "title": "Cutoff frequencies above half the sample rate", "statement": "Filters stay stable when their frequency is above half of the sample rate, for instance after set_sample_rate lowered it: the output does not grow without bound when the input is a single click.", "quantifier": "all sample rates, frequencies between half of the sample rate and the sample rate, Q values, gains, states and inputs", "why_tests_cant": "Instability is a statement about the response at all times and for all parameters; tests run at the default sample rate with frequencies in range.", "anchors": ["src/svf.rs: SvfCoefs, FixedSvf", "src/biquad.rs: BiquadCoefs::butter_lowpass, lowpass, highpass, resonator", "src/filter.rs: Lowpole", "src/moog.rs: Moog", "src/sound.rs: snaredrum"]}
{"id": "C100", "title": "Ready-made sounds", "statement": "The sounds of the sound library do what they are described to do. The bass drum starts at zero without a click, is a sine sweeping from the click pitch to the base pitch under an exponential decay, and its attack lasts from 2 ms to 0.02 ms as sharpness grows. The Risset glissando goes up or down as asked for ever while repeating itself every 2.5 seconds, partials start over only where they are silent, and all of its frequencies are in the audible range. The filter sweeps of the snare drum and the cymbal stay in the range of the filters. The frequencies of the pebbles remain positive, and the sound can be restarted with reset.", "quantifier": "all pitches, sharpness values, seeds, hashes, initial phases, sample rates, times and numbers of updates", "why_tests_cant": "These are statements about all times and parameters of sounds that are described by real functions; the tests only render them briefly or not at all.", "anchors": ["src/sound.rs: risset_glissando, pebbles, bassdrum, snaredrum, cymbal", "src/system.rs: System", "src/envelope.rs: Envelope"]}
{"id": "C101", "title": "Generated sounds", "statement": "Whatever the Dna answers, a generated control envelope has values in 0...1 at all times, generated effects are modulated within their range, and a generated granular synthesizer of one or two channels makes a grain of that many channels for every point of its texture without failing; its fades do not overlap, all parameters of its parts are in range, and it plays the pitches of the given scale, all of them, in tune to a hundredth of a semitone unless vibrato is chosen.", "quantifier": "all answers of the Dna, scales, times, voices, texture values, sample rates", "why_tests_cant": "The space of answers is a product of reals and choices; an index out of range or a frequency out of tune shows only at particular texture values and scale lengths.", "anchors": ["src/gen.rs: gen_lfo, gen_effect, gen_granular", "src/granular.rs: Granular::instantiate"]}
{"id": "C102", "title": "What oversampling adds to the sound", "statement": "An oversampled unit does to a signal what its inner unit does, as seen from the outer sample rate: oversampling a plain wire is a fixed filter with unit gain at low frequencies; an inner delay of 2 d of its samples is a delay of d samples; and the latency and the frequency response that the oversampled unit reports are the ones the signal meets.", "quantifier": "all inputs, sample indices, channel counts, half band filters and inner delays; the gain for the taps of the library", "why_tests_cant": "All inputs and delays; the reported latency and response are compared with the sound at every sample.", "anchors": ["src/oversample.rs: Oversampler::tick, Oversampler::route, HALFBAND_MIN, tick_even, tick_odd"]}
{"id": "C103", "title": "The response and latency reported by a Net are those of its sound", "statement": "If the signal analysis of every unit in an acyclic Net is sound, so is that of the Net. When response(output, f) of the Net is Some(H) and the same sinusoid is fed to all inputs, the output settles to the sinusoid multiplied by H, plus a constant. latency() of the Net is that of the quickest signal path to any of its outputs, from an input or a generator inside, and None when there is no path.", "quantifier": "all nets that can be built by non-panicking calls with valid ports and have no cycle, all units with sound analysis, all frequencies, amplitudes and phases; for the response, nets with no crossfade under way", "why_tests_cant": "The response is a limit over infinite time for each of infinitely many wirings and frequencies; a test compares a few graphs at a few frequencies.", "anchors": ["src/net.rs: Net::route", "src/audiounit.rs: AudioUnit::response, AudioUnit::latency", "src/signal.rs: Signal, SignalFrame"]}
{"id": "C104", "title": "The response a unit reports is true of what it does from then on", "statement": "A unit may be asked for its response at any time. When response at frequency f is asked of a filter, smoother, panner, mixer, constant, fader, meter or limiter, the answer is true of the sound it makes from then on: a sinusoid of that frequency at the input settles to the answer times the sinusoid. The frequency is that at the sample rate in force, and the answer takes into account all settings made so far and, for filters with parameter inputs, the parameters at the inputs as long as they stay what they are.", "quantifier": "all units named, all sequences of settings, sample rate changes and samples before the question, all frequencies, amplitudes and phases", "why_tests_cant": "The answer is about a limit over infinite time, for each of infinitely many histories of settings and sample rate changes; a test compares fresh filters at the default sample rate.", "anchors": ["src/audionode.rs: AudioNode::route", "src/filter.rs: Lowpole::route, DCBlock::route, Allpole::route, Highpole::route", "src/biquad.rs: Biquad::route, ButterLowpass::route, Resonator::route", "src/svf.rs: Svf::route, FixedSvf::route", "src/follow.rs: Follow::route, AFollow::route", "src/pan.rs: Panner::route, Mixer::route", "src/dynamics.rs: Limiter::route, Declick::route, Monitor::route, MeterNode::route"]}
{"id": "C105", "title": "Setting the sample rate reaches every part and is harmless when it changes nothing", "statement": "Setting the sample rate of an expression sets it for everything inside: after any history of samples, blocks, resets, settings and sample rate changes, each unit inside runs at the rate last given to the whole, at twice that rate inside an oversampler and so on for nested oversamplers, and its coefficients are those of its parameters at that rate. Giving an expression the sample rate it already has, at any time, leaves it exactly as it is, so the sound goes on undisturbed.", "quantifier": "all expressions built with the binary and unary operators, pipe, stack, branch, bus, thru, their multi-unit forms, feedback, feedback with delay, resampling and oversampling from units that meet the claim; all histories of ticks, blocks, resets, settings and sample rates", "why_tests_cant": "The claim is about all nestings and all histories; a test sets the rate once on a fresh unit.", "anchors": ["src/audionode.rs: AudioNode::set_sample_rate and its implementations for Binop, Unop, Pipe, Stack, Branch, Bus, Thru, MultiBus, MultiStack, Reduce, MultiBranch, Chain", "src/feedback.rs: Feedback, Feedback2, FeedbackUnit", "src/resample.rs: Resampler", "src/oversample.rs: Oversampler", "src/filter.rs, src/biquad.rs, src/svf.rs, src/follow.rs, src/rez.rs, src/oscillator.rs: set_sample_rate", "src/dynamics.rs: Limiter::set_sample_rate"]}
{"id": "C106", "title": "The ready-made waveforms are what they are called", "statement": "The saw, square and triangle tables that the wavetable oscillators play hold, up to one positive factor common to all tables of a set, the Fourier series of the saw, square and triangle shapes, cut off below half the sample rate with the top two kilohertz faded; the soft saw has all partials falling off like a triangle's; the organ has all partials with octaves emphasized; the Hammond emphasizes the first three partials. No arithmetic on partial numbers overflows while they are made.", "quantifier": "all tables of each set, all their samples, all partials", "why_tests_cant": "A test compares some samples with a tolerance; the claim is an equation for each partial of each table with an integral that defines the shape.", "anchors": ["src/wavetable.rs: saw_table, square_table, triangle_table, organ_table, soft_saw_table, hammond_table, Wavetable::new, make_wave"]}
{"id": "C107", "title": "A wavetable made from a wave plays that wave", "statement": "A table set made from a single cycle wave plays that wave, band-limited: each partial of the wave below half its length is there with its amplitude and its phase, up to one positive factor common to all.", "quantifier": "all waves whose length is a power of two up to 32768, all ranges of base frequencies, all densities of tables", "why_tests_cant": "Ranges over all waves; a listener does not hear the phases of partials, so only a proof or a comparison with a known shape shows them.", "anchors": ["src/wavetable.rs: Wavetable::from_wave, Wavetable::new, make_wave"]}
{"id": "C108", "title": "What a resynthesis window tells its processing function is true", "statement": "A resynthesis function is called for each complete window once, in order. Each time the window tells it the true time of each of its samples and of its centre, counted from the first input sample; windows follow each other by the time between windows and there are as many in a second as it says; a sample is heard the latency after it came in. The frequency told for a bin is that of the steady tone that has its peak in that bin, with half the size in the two neighbours and nothing elsewhere.", "quantifier": "all window lengths that are powers of two from 4, all sample rates, inputs, processing functions with any state, all numbers of samples, all bins from the third to the third last and all phases of the tone", "why_tests_cant": "Ranges over all processing functions and stream positions; a test sees the numbers of some windows only.", "anchors": ["src/resynth.rs: FftWindow::time, time_at, latency, windows_per_second, delta_time, bins, frequency, Resynth::tick"]}
{"id": "C109", "title": "A resonator has the band and the gain it is documented to have", "statement": "A resonator passes a band around its center frequency whose width at half power is the center frequency divided by its Q, nearly and never more; made by a function documented to take a bandwidth in Hz, the band has that width. Its gain stays constant as the Q is varied.", "quantifier": "all center frequencies below half the sample rate, all positive Q, all sample rates; gains for all steady tones and for white noise", "why_tests_cant": "Ranges over all parameters and over the gain at all frequencies; a test samples the response at some frequencies for some parameters.", "anchors": ["src/biquad.rs: BiquadCoefs::resonator, Resonator", "src/prelude.rs: resonator_hz", "src/hacker.rs: resonator, resonator_hz", "src/hacker32.rs: resonator, resonator_hz"]}
{"id": "C110", "title": "Filters pass and stop what their type says", "statement": "Lowpass filters pass constant signals unchanged and stop tones far above the cutoff; highpass filters stop constant signals and pass tones far above the cutoff; DC blockers are stable and stop constant signals; bandpass filters pass the center best; notch filters stop the center alone; allpass filters keep the power of every tone; bells and shelves have their gain where they say and none elsewhere. The gain at the cutoff or center is the one its parameters say (Q for the state variable filters, half of the power for the Butterworth filter and the filters of first order, 2 Q for peak, the gain for bell, its root for shelves). Lowpass and highpass responses without resonance and shelves change in one direction only; the Butterworth lowpass is maximally flat; allpole has its delay at DC.", "quantifier": "all cutoff and center frequencies below half the sample rate, all positive Q and gains, all sample rates, all steady tones up to half the sample rate", "why_tests_cant": "Gains at all frequencies for all parameters, and monotonicity, which no finite number of measurements shows.", "anchors": ["src/svf.rs: SvfCoefs", "src/biquad.rs: BiquadCoefs::butter_lowpass", "src/filter.rs: Lowpole, Highpole, DCBlock, Allpole", "src/follow.rs: Follow", "src/prelude.rs: lowpass_hz, highpass_hz, bandpass_hz, notch_hz, peak_hz, allpass_hz, bell_hz, lowshelf_hz, highshelf_hz, butterpass_hz, lowpole_hz, highpole_hz, dcblock_hz, allpole_delay, follow"]}
{"id": "C111", "title": "The limiter keeps its ceiling", "statement": "No sample that comes out of the look-ahead limiter is outside -1 ... 1, whatever goes in. When a sound sets in after silence, the gain goes from one to 1.1 times its amplitude in the shape and time of the attack, beginning when the sound enters the lookahead; when it ends, the gain goes back to one in the shape and time of the release, beginning when the sound has come out.", "quantifier": "all input streams of any number of channels, all sample rates, attack and release times, all output samples", "why_tests_cant": "Ranges over all signals: the worst signal for the follower is not known in advance, and the bound has to hold for every attack time.", "anchors": ["src/dynamics.rs: Limiter", "src/follow.rs: AFollow, halfway_coeff", "src/prelude.rs: limiter, limiter_stereo"]}
{"id": "C112", "title": "Reverberation time", "statement": "When the input of reverb_stereo ends, the energy in its delay lines falls by 60 dB in the given reverberation time, within ten percent.", "quantifier": "all sample rates, room sizes and reverberation times, without damping; all inputs that end", "why_tests_cant": "The time depends on how energy moves between 32 lines of different lengths for all inputs; a test measures one input.", "anchors": ["src/prelude.rs: reverb_stereo", "src/feedback.rs: Feedback, FrameHadamard"]}
{"id": "C113", "title": "allocate prepares a unit for real time", "statement": "After allocate has been called on a unit, playing it, resetting it and pinging it never ask the allocator for memory, as long as the sample rate is not changed; a new sequencer keeps up to 16384 events without asking for memory.", "quantifier": "all units built from nodes, combinators and nets; all states allocate is called in; all later sequences of ticks, blocks, resets and pings; all ways vectors may grow within the documented guarantee", "why_tests_cant": "Whether some later call allocates depends on the whole history before allocate and on how vectors grow; tests do not count allocations.", "anchors": ["src/audionode.rs: AudioNode::allocate", "src/audiounit.rs: AudioUnit::allocate", "src/dynamics.rs: Limiter::allocate", "src/oscillator.rs: Pluck::allocate", "src/feedback.rs: Feedback2::allocate", "src/setting.rs: SettingListener", "src/net.rs: Net::allocate", "src/sequencer.rs: Sequencer::allocate, edit"]}
{"id": "C114", "title": "Units are not freed on the audio thread", "statement": "The real-time backend of a slot, of a sequencer and of a net never frees a unit itself: every unit it stops using (replaced, superseded, ended, or cut off by a reset) is sent back and is freed by the thread that owns the frontend. What is sent back does not alter the sound.", "quantifier": "all sequences of frontend calls (set, push, edit, commit) and backend calls (ticks, blocks, resets) in any interleaving; all units; all channel capacities", "why_tests_cant": "Where a value is dropped is not observable from samples, and whether the return channel has room depends on the whole interleaving of frontend and backend calls.", "anchors": ["src/slot.rs: SlotBackend, Slot::set", "src/realseq.rs: SequencerBackend", "src/sequencer.rs: Sequencer::backend, push, edit", "src/realnet.rs: NetBackend", "src/net.rs: Net::backend, commit, migrate, apply_edits", "src/vertex.rs: Vertex::enqueue, next_phase"]}
{"id": "C115", "title": "Units with a live connection keep it in a net with a backend", "statement": "A unit that is connected to something outside the net (a ring that is fed from another thread, a setting listener, the backend of a slot, of a sequencer or of another net) and that is pushed into a net stays connected when the net is played through its backend: what plays in the backend is the unit that was pushed, not an unconnected clone, however the frontend edits and commits, until the node is replaced or removed.", "quantifier": "all nets and all units; all sequences of frontend edits, commits, settings and backend ticks, blocks, resets and rate changes in any interleaving", "why_tests_cant": "Which of two equal-looking copies of a unit plays depends on the whole interleaving of commits and backend reads; a clone sounds right until something is sent to it.", "anchors": ["src/net.rs: Net::backend, Net::commit, Net::migrate, Net::clone", "src/realnet.rs: NetBackend::handle_messages, clone", "src/vertex.rs: Vertex", "src/ring.rs: Ring::clone", "src/setting.rs: SettingListener::clone", "src/slot.rs: SlotBackend::clone", "src/realseq.rs: SequencerBackend::clone"]}
{"id": "C116", "title": "A unit added with a fade-in rises from silence", "statement": "A unit added to a net with fade_in is heard from silence: until the fade time is over, each sample of the node is the sample of the unit times the fade curve at the time since the fade began, and from then on it is the sample of the unit alone. This is so whether the net is ticked or processed in blocks; in particular the node is never louder than the unit.", "quantifier": "all units, fade shapes and fade times, all inputs, all histories of ticks, blocks of any size and further edits during the fade", "why_tests_cant": "The output during the fade depends on what earlier blocks left in internal buffers, so it needs whole sequences of blocks; a single block or a tick test shows nothing.", "anchors": ["src/net.rs: Net::fade_in, Net::crossfade", "src/audiounit.rs: DummyUnit", "src/vertex.rs: Vertex::process, Vertex::tick", "src/buffer.rs: BufferMut::channel_f32_mut", "src/math.rs: sine_ease, smooth5"]}
{"id": "C117", "title": "Editing a playing net does not disturb the nodes that are not edited", "statement": "Adding, removing, replacing, connecting and disconnecting nodes of a net that is being played leaves every other node in the state it is in: with the next sample its unit takes its next step, as if nothing had happened. Oscillators keep their phase, noise does not start over, filters and delays keep their memory. This is so for nets that are edited directly and for nets that are edited through a frontend and committed.", "quantifier": "all nets, all histories of edits and ticks, all units, all sequences of edits that do not concern the node; with a backend, all interleavings of edits, commits and backend processing", "why_tests_cant": "Whether a node is disturbed depends on its hidden state at the time of the edit and on the whole sequence of calls before it.", "anchors": ["src/net.rs: push, fade_in, remove, replace, crossfade, connect, disconnect, determine_order, ping, migrate", "src/audionode.rs: AudioNode::ping, AudioNode::set_hash", "src/noise.rs: Noise::set_hash", "src/oscillator.rs: Sine::set_hash"]}
{"id": "C118", "title": "Changing the sample rate while playing keeps time", "statement": "A unit that goes on playing when its sample rate is changed, rather than start over, goes on in time: sine and ramp continue from the phase they have at the frequency of their input, fades take their duration in seconds, and envelopes continue to interpolate their function around the present time, so they stay within its range. Sequencers play their events in their windows of time. Time is what has been played: every sample lasts one over the rate it was played at.", "quantifier": "all sequences of sample rates set between samples, all inputs, durations, phases, envelope functions, intervals and hashes", "why_tests_cant": "The effect of a change depends on the state in which it finds the unit and on all rates before it; tests set the rate once, before playing.", "anchors": ["src/oscillator.rs: Sine::set_sample_rate, Ramp::set_sample_rate, tick", "src/dynamics.rs: Declick::set_sample_rate, tick", "src/envelope.rs: Envelope::set_sample_rate, next_segment, tick", "src/sequencer.rs: Sequencer::set_sample_rate, tick"]}
{"id": "C119", "title": "The response of every linear expression is found", "statement": "Whenever an expression is built of filters, delays, wiring, mixing, constants and multiplication by constants, asking for the response of an output that depends on the inputs gives an answer (never none), and it is the true one: a sinusoid at the inputs comes out multiplied by it, plus a constant. Outputs that do not depend on the inputs are found to be constants.", "quantifier": "all expressions of any size and depth built from these units and all graph operators, all nets that can be built and edited, all frequencies, all responses of the filters, all constants", "why_tests_cant": "Answering none is always safe, so tests of particular responses do not notice where an answer is lost; the claim is over all expressions.", "anchors": ["src/audionode.rs: route, response", "src/signal.rs: Signal::filter, combine_linear, scale, delay", "src/audiounit.rs: AudioUnit::response"]}
{"id": "C120", "title": "What display shows of a unit", "statement": "`display` never panics for linear expressions. It graphs the response exactly if there are inputs and outputs and a response is found. The peak magnitude it prints is the level of the greatest response over the frequencies of the columns, and a frequency is printed with it exactly if the response there stands out by more than 0.01 dB. The top of the graph is the least multiple of 10 dB that is not exceeded, rows descend in steps of 5 dB as labelled, and each cell is marked exactly if the response at its column reaches the level of its row. The axis marks are below the frequencies they name. The other lines repeat inputs, outputs, latency and footprint.", "quantifier": "all units with any responses at all frequencies (including zero responses), any latency and footprint, all columns and rows", "why_tests_cant": "The peak search is a fold with a tolerance whose outcome depends on the order and distances of 48 real numbers; a test shows a few graphs.", "anchors": ["src/audiounit.rs: AudioUnit::display, response, response_db, latency", "src/math.rs: amp_db"]}
{"id": "C121", "title": "Combining nets of which one has a backend", "statement": "The predicates `can_pipe`, `can_stack`, `can_branch`, `can_bus`, `can_sum`, `can_product` and `can_binary` say whether the operator is accepted. If one of the operands has a backend then the combination is the frontend of that backend, with its waiting edits, and it can be committed exactly if it has the arity of the backend. After the commit, nodes that were running in the backend and that were not replaced or reset keep their state, and every other node runs the unit it has in the combination, whatever the frontend has been combined with and however often it has been edited and committed in between.", "quantifier": "all pairs of nets built by any calls, all operators, all sequences of edits, commits and combinations on either side, all queues of messages, any state of the units in the backend", "why_tests_cant": "Which unit ends up running depends on node ids, revisions and stamps accumulated over whole histories of two nets and the backend; a test follows one history.", "anchors": ["src/net.rs: Net::can_pipe, can_stack, can_branch, can_bus, can_binary, can_sum, can_product, resolve_frontend, disambiguate_ids, migrate, commit", "src/realnet.rs: NetBackend::handle_messages"]}
{"id": "C122", "title": "Nets in expressions with units and numbers", "statement": "A net can be combined with a unit or a number by every operator, on either side. The expression is accepted exactly if the channels fit (a number always fits), has the channels the operator documents, and plays what the operator makes of the net and of the unit by itself at the sample rate of the net; `net + y`, `net - y`, `net * y` and `y + net`, `y - net`, `y * net` apply the number to every channel of the net, on its side, and leave the inputs as they are.", "quantifier": "all nets without a cycle built by any calls, all units, all numbers, all operators on both sides, all input signals of any length", "why_tests_cant": "The operators wrap the unit in a net of its own and splice two graphs; that the signal is right depends on the wiring, the arities and the hashes of every net and unit that can be combined.", "anchors": ["src/net.rs: impl Shr/BitAnd/BitOr/BitXor/Add/Sub/Mul<An<X>> for Net, <Net> for An<X>, Add/Sub/Mul<f32> for Net, <Net> for f32, Net::wrap, Net::scalar"]}
{"id": "C123", "title": "Commits reach the backend in every execution", "statement": "Frontend and backend of a net run in any order for any time. Whenever the backend runs, it has the graph the frontend had at its last commit. Nodes that the backend was running and whose unit was not changed in the frontend since the commit it ran go on as they were, with the settings and crossfades sent since; all other nodes have the unit of the frontend at the commit. Without a commit the backend only takes settings.", "quantifier": "all executions: any edits, commits and settings in the frontend interleaved in any way with samples, blocks, resets and sample rate changes in the backend; all nets and units; channels of every size", "why_tests_cant": "Which unit a node runs depends on revisions and stamps over the whole interleaved history of two threads, and on how many messages are waiting; tests try a few schedules.", "anchors": ["src/net.rs: Net::backend, Net::commit, Net::set, Net::migrate", "src/realnet.rs: NetBackend::handle_messages, tick, process, reset, set_sample_rate"]}
{"id": "C124", "title": "Changing the interval of an envelope", "statement": "The interval of an envelope or LFO can be set at any time. Whatever has been played, set and reset before, every sample is on the line between the values of the function at two points around the present time. Their distance is within 25 percent of the interval that was set when their first sample was about to be played, so that a new interval is in use after at most 1.25 old intervals. Set before playing, it counts from the start. It does not matter whether playing is in blocks.", "quantifier": "all control functions, sample rates, hashes and histories of samples, blocks, interval settings, hash changes and resets", "why_tests_cant": "Points in time are jittered and segments already begun are finished with the old interval; the relation has to hold over every history of settings, blocks and resets.", "anchors": ["src/envelope.rs: Envelope::set, Envelope::next_segment, Envelope::tick, Envelope::process, Envelope::reset", "src/combinator.rs: An::interval", "src/setting.rs: Setting::interval"]}
{"id": "C125", "title": "Settings in a block rate adapter", "statement": "Settings, sample rates and hashes can be given to a block rate adapter at any time. What it plays is what the unit plays in full blocks of 64 samples, with each change made before the first block that begins at that time or later, in order. A change is heard 63 samples late at most, leaves what is before alone, and none is lost by a reset.", "quantifier": "all generators, all histories of single samples, blocks of any size, changes and resets", "why_tests_cant": "Where a change lands depends on the position in the buffer, which any mix of samples, blocks and resets can produce, and on other changes that are pending.", "anchors": ["src/audiounit.rs: BlockRateAdapter::set, set_sample_rate, ping, tick, process, reset"]}
