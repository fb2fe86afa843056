{
"C01": ["partial", "Full claim is false of the code: connect accepts nonexistent source ports, check() fails on a stale cached source vertex, remove_link can create a self connection (C01_violation_*). Proved for every history of calls with in-range ports."],
"C02": ["proved", "Any acyclic/cyclic graph; order is a complete topological permutation, error() reports a cycle exactly when there is one."],
"C03": ["proved", ""],
"C04": ["proved", "For histories that never create a self connection (two-node loops: see C01_violation_removeLink)."],
"C05": ["proved", ""],
"C06": ["proved", "Units are stated up to ticks, resets, sample rate changes and hash pings, which evaluation order computation performs."],
"C07": ["proved", "Tick semantics equals the unique solution of the dataflow equations, for any evaluation order."],
"C08": ["partial", "Proved for all nets without crossfades over an abstract sample type, and over the reals for crossfades lasting a whole number of samples; false of the code for fractional fade lengths and queued edits (C08_violation, C08_violation_queued)."],
"C09": ["proved", "Operands with equal sample rates; units up to hash pings (C09_exact removes this when pings do not change units)."],
"C10": ["proved", ""],
"C100": ["partial", "proved for the bass drum, the glissando, the filter sweeps above 40 kHz and the frequencies of the pebbles; false for restarting the pebbles with reset (C100_violation_pebbles_reset) and for the filter sweeps at low sample rates (C99_example)"],
"C101": ["proved", "All branches of the generators, over the reals."],
"C102": ["partial", "The oversampled wire is a fixed 43 tap filter for any half band filter (C102_pass), inner delays of 2 d samples become d samples (C102_delay), and constants pass with a loss of a thousandth (C102_constant_partial). The reported latency and response are not those of the sound (C102_violation)."],
"C103": ["partial", "The response is that of the sound, and the latency that of the quickest path, for every acyclic net; false while a crossfade is under way (C103_violation)."],
"C104": ["partial", "True of the fixed units after any history of settings and rates, and of units with parameter inputs once a sample has been played; false before that (C104_violation_fresh, C104_violation_panner) and of the phase of the limiter (C104_violation_limiter)."],
"C105": ["partial", "Proved for all expressions over units that keep the contract (C105_parts, C105_unchanged_partial) and for the filters, followers and ramp named; a running limiter is emptied by its own rate (C105_violation_limiter) and a fixed filter after set_gain changes (C105_violation_gain). Oscillators other than ramp and delays are not treated as leaves."],
"C106": ["proved", "Equations for every partial of every table against integrals over one cycle; exact reals, the tables are f32."],
"C107": ["partial", "The code gets the phase of each partial wrong by a quarter cycle (C107_violation); amplitudes and proportions are right."],
"C108": ["proved", "Exact reals; the FFT is the DFT (trusted)."],
"C109": ["partial", "Exact width of the band, its relation to the Q, the center and the constant gain for noise are proved; the bandwidth of the hacker modules and the gain for tones are violated (DESIGN.md rows 68, 69)."],
"C11": ["proved", "For every frontend history since the net of the backend was sent (any edits, any number of further commits, any messages in the queue): graph equals the frontend, untouched nodes keep the backend's running state, touched or new nodes get the frontend's unit. The channel is a FIFO whose capacity (1024 messages) is not exceeded; unit clones are equal to the originals."],
"C110": ["partial", "Exact gains of all state variable modes, Butterworth, first order filters and follow are proved, with monotonicity; highpole does not pass high tones, lowpole does not stop them and dcblock is unstable for high cutoffs (DESIGN.md rows 70 to 72)."],
"C111": ["partial", "The first frame that comes out, and attacks of less than 20 or releases of less than 40 samples, are not kept within the ceiling: C111_violation_first, C111_violation_short. All else is proved, for attacks up to 1000000 samples."],
"C112": ["partial", "The energy falls by 60 dB, but not in the given time: C112_violation. C112_time_partial has the time after which it has fallen, 2.77 times the given one and a round."],
"C113": ["partial", "Proved for all units but limiters that were played before or had their rate raised, the second node of feedback2, and listeners, which are shown to ask for memory; edits of ended sequencer events pile up."],
"C114": ["partial", "Slot, sequencer and net backends: the sound is that of the model without return channel, every unit handed over is in exactly one place, and nothing is freed by the backend as long as the return channel has room (units set per backend call, events pushed, crossfades due per commit; any number of commits without crossfades). Missing because false: the channel is emptied only by frontend calls, and a full channel makes the backend free units (C114_violation_*). Not modelled: a Net without backend, which has no channel."],
"C115": ["partial", "Violated when two commits are read together, after a reset or rate change at the frontend, and for a fade under way when the backend is started; proved for nodes in the net when a commit is read in step, and for all units if each commit is read before the next."],
"C116": ["partial", "Proved for ticks, and in blocks for the first eighth of each block and after the end; violated for the other samples of blocks, where the level is not bounded by that of the unit."],
"C117": ["partial", "The calls themselves leave other nodes exactly as they are. Without a backend, units that do not depend on their hash go on from the state they were in, and all units do when other nodes are replaced or crossfaded; with a backend all units do. Missing because the code violates it: without a backend, changes of the wiring restart oscillators and noises."],
"C118": ["partial", "Exact for sine, ramp, fade-in, limiters, sequencers, and envelopes at any rates; envelopes keep a stale slope until the segment ends, with a witness above 1.75 for a function within 0...1."],
"C119": ["partial", "Constants that go through a filter are taken for unknown, and the response of what they are added to is lost (C119_violation). Proved for all linear expressions in which constants are not filtered."],
"C12": ["partial", "False of the code in two ways, both proved with a concrete run: C12_violation_lost (a fade_in is lost when a second commit arrives before the backend runs) and C12_violation_undone (reset or a new sample rate in the frontend brings the old unit back). Proved: crossfades wait in order, are carried by the commit, and for a node that the backend has and that is not touched, the last one in any queue ends up as the only unit running."],
"C120": ["partial", "Everything is proved where some response is not zero. For a unit that is silent at all columns the graph and the peak are wrong (C120_violation_silence)."],
"C121": ["partial", "Violated for two frontends, for clones of the frontend that bring its nodes back, and for queued crossfades of renamed nodes; proved for all other histories."],
"C122": ["partial", "Proved for nets at the default sample rate; at another rate the unit stays at the default rate (C122_violation_rate)."],
"C123": ["partial", "Proved for the last commit that found room in the channel; a commit that finds it full is lost (C123_violation_full, C123_violation_crossfade)."],
"C124": ["partial", "Proved for intervals of 4/3 of a sample and longer, in blocks and single samples. Fails for 'it does not matter whether playing is in blocks' (C124_violation_block): a block of an envelope without inputs begins the next segment early. With inputs blocks are as single samples (C124_in_block_partial); what is interpolated after changes is proved without inputs. Over the reals."],
"C125": ["proved", "The unit is any generator of which full blocks are known (LiveBlocks); held_live and liveBlocks_exact give cases."],
"C13": ["proved", "Samples as real numbers; fade times positive. Node level: all histories of ticks, blocks and edits."],
"C14": ["proved", "All static combinators. Join/MultiJoin assume exact averaging and MultiBus assumes 0 + x = x (stated hypotheses); the rest bit-exact."],
"C15": ["proved", ""],
"C16": ["proved", ""],
"C17": ["proved", ""],
"C18": ["proved", "Slice layout shared by BufferVec/BufferRef/BufferMut; BufferArray through its repr(C) layout."],
"C19": ["partial", "Proved for every expression of the static combinators over leaves with the property (C19_graph, by induction over the graph), for nets of units with the property (C19_net_partial) and for delays, taps, feedback, filters, FIR, declick, meter, hold, envelope, oscillator and noise leaves; resampler, oversampler and resynthesis are under C63_reset, C64_reset, C61_reset_fresh, the sequencer under C22_replay and C22_no_replay. The full claim fails for the limiter (C19_violation_limiter), for an MLS generator used on its own (C19_violation_mls) and for nets reset during a crossfade (C19_violation_net_fade)."],
"C20": ["partial", "Exact effect on every component, uniqueness, no effect for paths that lead nowhere, panic condition and path building are proved for all trees, arrays and nets. The full claim fails in two ways: a path continuing below a component still sets that component (C20_violation_below), an index beyond the end of an array panics (C20_violation_panic)."],
"C21": ["proved", "hash64 functions of the external funutd crate are arbitrary function parameters."],
"C22": ["proved", "Arbitrary ordered field for times and samples. C22_refines: any sequence of push, push_relative, edit, edit_relative, reset and tick equals a plain list of events; C22_windows gives the samples explicitly; C22_replay, C22_no_replay. Ids are fresh; edits as in C71."],
"C23": ["partial", "C23_block_equals_tick_partial for any schedule and any units with TickBlock; three violations found when fades or half-sample ends fall inside a block (C23_violation_*)."],
"C24": ["partial", "Model of the backend over the sequencer model, channel as a bounded queue. Equal to direct calls (any starting state, ticks and blocks) when no message follows a reset within a batch and the channel does not overflow; otherwise false: C24_violation (a push handled in the same batch as an earlier reset is lost), C24_violation_overflow (a message beyond the channel capacity is lost)."],
"C25": ["partial", "Model of slot.rs over the unit model of nets; over the reals for crossfades. Proved for all histories of set, tick, process, reset and set_sample_rate: exactly what is heard (C25_resting, C25_received, C25_crossfade, C25_crossfade_end, C25_crossfade_reset, C25_crossfade_rate), the unit heard once fades are over is the last one set, fades end, order is never inverted. Missing: overflow of the channel (1024 sets without a tick), for which the claim is false (C25_violation_overflow); C25_violation_rate records that a set unit does not get the sample rate of the backend."],
"C26": ["proved", "The external thingbuf channel is modelled as a bounded FIFO queue."],
"C27": ["proved", "The external thingbuf channel is modelled as a bounded FIFO queue."],
"C28": ["proved", "Timer time in real arithmetic, rounded by an arbitrary conversion."],
"C29": ["partial", "False if a call stalls while 2^32 - 2^20 other calls complete (C29_violation_stall). Proved for all other interleavings, for any interleaving of the first 4.29 billion steps and for 2^63 sequential steps; sequentially consistent atomics."],
"C30": ["proved", "Real arithmetic."],
"C31": ["proved", "Real arithmetic."],
"C32": ["partial", "spline_mono is not monotone on falling data (C32_violation_falling); proved for the cases where its tangent limiter is correct."],
"C33": ["proved", "Real arithmetic."],
"C34": ["partial", "softmix adds an epsilon that pulls results outside the range of its arguments (C34_violation_softmix) and the SIMD softsign differs from the scalar one for negative hardness (C34_violation_softsign_simd); the remaining bounds are proved."],
"C35": ["proved", "Delay and Tick, every buffer length, tick and block processing."],
"C36": ["proved", "Tap/Multitap with arbitrary interpolation arithmetic; clamped range in exact real arithmetic."],
"C37": ["partial", "Full claim is false of the code: block processing reads overwritten samples when the buffer has no SIMD headroom (C37_violation). Proved with that headroom; tick values proved without it."],
"C38": ["proved", ""],
"C39": ["proved", "Real arithmetic; every power of two size."],
"C40": ["proved", "Real arithmetic."],
"C41": ["proved", "Over the reals (IEEE rounding not modelled). Range bounds for all inputs and horizons, convergence and monotonicity from rest; C41_moving_start shows that follow need not be monotone from a moving start."],
"C42": ["proved", "Over the reals."],
"C43": ["proved", "Convolution formula for arbitrary uninterpreted arithmetic; DC gain over the reals; block = tick."],
"C44": ["proved", "Over the reals, from every starting state, as an asymptotic statement; covers lowpole, highpole, dcblock, allpole, follow, pinkpass, tick, delay, fir, stable biquads and all nine SVF modes."],
"C45": ["partial", "latency() is proved to be that of the quickest signal path for every expression; series through one channel adds, parallel takes the minimum. C45_violation: a generator without inputs in front of a processor yields None, and Arbitrary routing with latency adds it once per input."],
"C46": ["proved", "Over the reals (exact arithmetic), for a limiter made by Limiter::new and any follower coefficients in [0,1]: no panic, exact delay, common gain >= 1, gain bound, exact window maximum in the reduce tree for every length. C46_reset_violation shows that the gain claim does not extend to a limiter that ran and was then reset, which is outside the statement."],
"C47": ["proved", "Over the reals with exact phase; positive sample duration."],
"C48": ["proved", "Over the reals; level of peak and rms meters in closed form; monitor exact in ticks and blocks including the shared variable."],
"C49": ["proved", "All 31 table entries are proved primitive by kernel-checked certificates; u32 state as Nat with truncating shift."],
"C50": ["proved", "Ticks and blocks with uninterpreted sample arithmetic; range over the reals in place of f32."],
"C51": ["proved", "Real arithmetic in place of f32."],
"C52": ["proved", "Real arithmetic in place of f32/f64; in floats the wrap of a tiny negative phase can round to 1. Pulse width input must be in 0..1 (C52_pulse_width_needed shows why)."],
"C53": ["proved", "Real arithmetic. The partials are i = 0..=n; the code comment says 0..n (C53_violation_doc), and the last partial always exceeds 22050 Hz for spacing <= 1 (C53_violation_alias)."],
"C54": ["partial", "Over the reals. Interpolation, jitter range and blocks = ticks proved for intervals of at least 4/3 samples (0.75*interval >= sample duration), for pure functions and for closures with state and inputs. Between 1 and 4/3 samples the claim is false: C54_violation."],
"C55": ["partial", "Over the reals, sample rates of 667 Hz and up, release > 0. Range, attack, sustain and release proved for a new node. Zero before the gate first opens is false (C55_violation_closed), and after a reset the range claim is false (C55_violation_reset)."],
"C56": ["proved", "For every consistent wave, channel, start, end and loop point: the heard position of every sample is given by an independent formula, reads never leave the wave, reset replays. Ticks only; blocks of the player are the default process (C14)."],
"C57": ["partial", "Consistency under any sequence of edits and the exact sample effect of push/insert/remove channel, mix_channel, resize, append, push and retain, with acceptance conditions. retain panics when the span starts after the end of the wave (C57_violation_retain); append and retain panic without channels (C57_violation_empty). Integer overflow of offsets not modelled."],
"C58": ["partial", "render and filter are exact for every unit whose blocks equal its ticks; the latency versions drop the latency measured before the sample rate is set (C58_violation_rate) and do not reset the unit (C58_violation_reset). Real-valued durations."],
"C59": ["proved", "Real-valued samples. Exact peak, one common positive factor, strictly monotone gains strictly between 0 and 1 inside the fades, everything else untouched."],
"C60": ["proved", "Byte-level model with an independent RIFF chunk reader; the limits are those of the format fields (file below 4 GB, u16 block size, u32 byte rate; the rate field is the rounded rate). 32-bit samples are bit patterns; 16-bit samples are real numbers before quantization."],
"C61": ["proved", "Over the reals, with the FFT crate's transforms as the discrete Fourier transform and its inverse (the inverse law is then proved, not assumed). Exact from 7/4 window lengths on, a quarter window earlier than documented. Also proved: the output for arbitrary stateful processing."],
"C62": ["partial", "Over the reals, with the inverse FFT as the inverse DFT. Proved for all table sets of at least three tables with fewer than 8192 partials (minimum pitch above about 2.69 Hz): contents, normalization, bounds, bandlimit, and that the value read does not depend on the hint. Violated parts: the selected table index itself does depend on the hint exactly at the pitch of a table (inaudible, C62_violation_hint); tables for very low pitches index out of bounds (C62_violation_low)."],
"C63": ["proved", "Over the reals, for any inner generator; ring contents left from before do not matter. At speed one the source is played from its third sample (an advance, not a delay, contrary to the statement's wording; the offset is fixed). set_sample_rate and ping not modelled."],
"C64": ["proved", "Over the reals, for arbitrary taps. As coded the taps are applied with the first tap on the oldest sample and the output filter leaves out the newest sample; the theorem states exactly this."],
"C65": ["proved", "Over the reals."],
"C66": ["proved", "Real arithmetic; random source arbitrary in [0, 1]."],
"C67": ["proved", "Real arithmetic."],
"C68": ["partial", "Proved for every expression over the graph operators whose leaves are sound. Partial because MultiStack and Reduce hand the whole input frame to their first unit (C68_violation gives the wrong response); they are covered when the unit's route reads only its own inputs."],
"C69": ["partial", "False of the code when a setting and the commit that brings its node are handled together (C69_violation_lost). Proved for nodes the backend already has, in any mixture with commits, and for queues of settings."],
"C70": ["partial", "The code violates the claim: SettingListener never implements set, so settings sent through listen are dropped (C70_violation). Transparency of the listener and the room of the channel are proved for all schedules."],
"C71": ["partial", "C71_edit_partial; edits of waiting events into the past are ignored (C71_violation)."],
"C72": ["partial", "Real arithmetic. Proved: block equals tick, each documented shape, the adaptive level's halfway time, crest and limit. Violated by the code: block rendering of Crush rounds halves to even and ticks away from zero (C72_violation_crush); the level of an adaptive shape starts at 0 when new and at 1e-3 after reset (C72_violation_reset) and falls below the documented -60 dB floor (C72_violation_floor)."],
"C73": ["proved", "Real arithmetic for time; f32 accumulation not modelled; sample rate fixed before use."],
"C74": ["partial", "Over the reals, for any valid table set, any rnd1, any sample rate and any initial phase. Proved for oscillators that have been given their hash, which every combinator does: phase, table reading, range, no panic, blocks of steady frequency equal ticks, reset equals new; also for the phase driven and the pulse oscillator. Violated part: an oscillator used on its own starts at phase zero but resets to a pseudorandom phase (C74_violation_reset). The steadiness condition is needed (C74_violation_block)."],
"C75": ["proved", "Real arithmetic, arbitrary random generator. Frequencies above the sample rate over 2.2 panic (C75_panic); a new hash without reset keeps the damping filter's memory (C75_violation_hash)."],
"C76": ["partial", "Real arithmetic. Stability, decay and silence proved for every non-amplifying loop filter; reset leaves the input diffusers (C76_violation_reset)."],
"C77": ["partial", "Real arithmetic for the stability parts. The sample rate is not passed on to the shape (C77_violation_sample_rate); everything else of the claim is proved."],
"C78": ["proved", "Lanes are modelled as independent scalar operations."],
"C79": ["partial", "Real arithmetic. Bounded for any resonance, settles for all resonances in [0, 1) (C79_settles). Partial only because at cutoff = sample rate/6 the feedback gain divides by zero (C79_violation_cutoff)."],
"C80": ["partial", "Over the reals, with arbitrary texture, generator and random number generator. Chains, scheduling on time, the calls of the generator, sound as the sum of all grains with their fades (for ticks), mixing at constant power, totality, reset proved in full. Blocks spawn the same grains as ticks for one voice, and up to random phases without jitter; otherwise violated, see C80_violation_block."],
"C81": ["partial", "Real arithmetic. The exact blend, blocks, reset and response for a unit incoming response are proved; the documented lowpass/highpass ends and the reported response in a chain fail (C81_violation_ends, C81_violation_response)."],
"C82": ["partial", "Real arithmetic. Reset with subsampling and the lone gain setter fail (C82_violation_reset, C82_violation_gain); what a reset does with any period is C82_reset_period; everything else proved."],
"C83": ["proved", "over the reals; fdn with delay and three-tap FIR lines, reverb_stereo and reverb4_stereo_delays: loop equation, energy gain, peak, decay per pass, silence tends to zero, onset, block equals tick, reset. The delay tables and weights are those of the code; the bound gives -60 dB after time/(0.003 room_size) passes of the longest line, longer than the documented (approximate) time"],
"C84": ["proved", "over the reals; the modulating oscillator is an arbitrary node without inputs (for blocks of the chorus and for reset it must itself be block-consistent and reset properly)"],
"C85": ["proved", "over the reals; equation for arbitrary modulation, stability for resting modulation as stated (a moving modulation does not preserve energy); oscillator arbitrary"],
"C86": ["partial", "Real arithmetic. Everything but boundedness is proved in full. Bounded: the Lorenz oscillator for frequencies up to 1/250 of the sample rate (C86_lorenz_bounded_partial). The claim is false of the code for the R\u00f6ssler oscillator: C86_violation_diverges."],
"C87": ["proved", "Over the reals. Energy and dying out for passive loop filters, |speed| at most 250 and |speed| times time at most 100 s; equations, onset and blocks for every loop filter."],
"C88": ["partial", "proved for nets whose rate is set while no crossfade is pending, operators on nets of equal rate, backends whose rate is set in the frontend, sequencers, slots given units at their rate; the code violates the claim otherwise (C88_violation_fade, _operator, _neg, _backend, _sequencer, _slot)"],
"C89": ["proved", "over the reals; rounding not modelled"],
"C90": ["partial", "Numbers are real. Proved for lowpole, DC blocker, highpole, allpole, biquad, Butterworth, Moog, resonant two-pole, panner, followers, constant, nested allpass, DSF oscillator and the shorthands. Missing: the resonator, whose documented setting does nothing (C90_violation_resonator); its input form and its constructor are covered."],
"C91": ["proved", "Operators with constants, generated groups and sample access, for all nodes, states, sizes and signals. Sums over groups assume a commutative monoid (exact arithmetic); everything else holds for any sample type."],
"C92": ["partial", "the documented later change of the phase of sine_hz through an unaddressed setting is ignored (C92_violation_hz); everything else holds, over the reals"],
"C93": ["partial", "Rounding modelled (nearest even, unbounded exponent). Proved for double precision and, up to explicit limits, for single precision; fails beyond (findings 49, 50)."],
"C94": ["partial", "Rounding modelled (nearest even, unbounded exponent). Ranges of phases, noise and 16-bit samples and end points of interpolation proved; low frequencies and interior of lerp fail in single precision (findings 51, 52)."],
"C95": ["partial", "Reader and decoder of Symphonia are arbitrary. Proved for tracks whose format does not change; a missing track, a broken file and a change of format are not reported as errors (findings 53-55)."],
"C96": ["partial", "Rounding modelled. Bit for bit agreement proved for powers of two, error bounds for any number of channels; agreement fails for three channels (finding 56)."],
"C97": ["partial", "the first pair of the table starts from different phases (C97_violation_bus); all others are proved, and the first for equal starting states"],
"C98": ["partial", "Everything holds except that set_gain alone does not reach the sound until another parameter is set; the reported response then differs from the actual one (C98_violation_gain)."],
"C99": ["partial", "Holds for the one-pole lowpass, the resonator and the Moog filter; fails for state variable filters, Butterworth and biquad lowpass and highpass (C99_violation_*)."]
}
