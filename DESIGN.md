# Formal model of fundsp in Lean 4 — design

Source under study: `/repo` (SamiPerttu/fundsp at the pinned commit), read as text only.
Lean project: `/verif/lean` (Lean 4.33.0, Mathlib imported one module at a time).

## Trusted base

* The Lean 4 kernel.
* Axioms: at most `propext`, `Classical.choice`, `Quot.sound` (checked with `#print axioms`); no axioms of our own, no
  `sorry`/`admit`, no `native_decide`, no `bv_decide`.
* The reading of the Rust sources: the model is hand written; every definition cites the file and lines it models. The code
  is not executed here, so faithfulness rests on that reading.
* Rust/LLVM, the OS, the atomics implementation and these crates are not modelled: `thingbuf` (a bounded FIFO channel with
  non-blocking `try_send`/`try_recv` is assumed), `wide` (lane-wise arithmetic is assumed), `microfft` (given the meaning of
  the discrete Fourier transform and its inverse, in the packing documented by that crate; the inverse law is then proved),
  `funutd` (its hash functions are arbitrary function parameters), `tinyvec`, `hashbrown`, `numeric_array`, `symphonia`.

## Treatment of numbers

* Structural properties (wiring, ordering, block/tick equivalence, message protocols, delays, FIFO, ...) are proved over
  an arbitrary sample type with uninterpreted operations. They therefore hold for IEEE `f32`/`f64` bit for bit,
  including NaN and rounding.
* Integer state (hashes, shift registers, counters) uses `BitVec`/`Nat` with the wrap-around of the code.
* Numeric properties (ranges, monotonicity, energy, frequency response) are proved over the reals (or an ordered field).
  They state what the formulas mean in exact arithmetic; rounding error is outside the model. This is marked "real" below.
* C93, C94 and C96 do model rounding: `Fl.rnd p` (Float/Round.lean) rounds a real to `p` binary digits, to nearest, ties to even
  (`p = 24` for `f32`, 53 for `f64`), with an unbounded exponent, so that overflow and subnormal numbers are left out. The code is trusted to
  use these operations as written (no fused operations, no reassociation).
* Panics are modelled as `none`/explicit error values where a property concerns them.

## Code modelled / not modelled

| file in /repo/src | modelled | left out |
|---|---|---|
| net.rs, vertex.rs, realnet.rs | all edits, order, ticks, blocks, crossfades, commit, backend messages, settings, operators | allocation, display, `wrap` of boxed trait objects |
| sequencer.rs, realseq.rs | push/edit/reset/ticks/blocks, backend messages | `allocate`, ping |
| slot.rs, ring.rs, snoop.rs, shared.rs | whole, channels as bounded FIFO | weak memory orderings (sequential consistency assumed) |
| setting.rs | addresses and their routing through every combinator | parameter payload types beyond equality |
| audionode.rs | all combinators: tick, process, reset, route, settings, hashes | `allocate` |
| audiounit.rs | default process, adapters, latency, response | boxed dispatch, display |
| buffer.rs, signal.rs | all views, routing algebra | |
| math.rs | interpolation, easing, splines, hashes, noise, time functions, pitch, gain and loudness conversions (C30-C34, C89) | rounding of `f32`/`f64`; `hash64a`, `hash64g` and `Rnd` of funutd are arbitrary functions |
| combinator.rs, prelude*.rs, hacker*.rs | constructors quoted where needed; fdn, reverb_stereo, reverb2_stereo, reverb4_stereo_delays, chorus, flanger, phaser as compositions of nodes over the reals | the thin wrappers as such; reverb3_stereo only as the `Reverb` it makes |
| delay.rs, feedback.rs, filter.rs, follow.rs, fir.rs, biquad.rs, svf.rs | tick, process, reset, response, coefficients | |
| shape.rs | all shapes, Adaptive, Shaper | route |
| dynamics.rs | limiter, declick, meters, hold | |
| dynamics.rs, follow.rs (Dyn/Ceiling, CeilingProps) | `Limiter::new` with the coefficients of its follower; bounds on its gain (C111) | reals in place of f32 |
| prelude.rs, feedback.rs (Effect/TimeProps) | the energy in the lines of `reverb_stereo` without damping (C112) | damping; the energy of the mix of the lines |
| `allocate` in audionode.rs, audiounit.rs, dynamics.rs, oscillator.rs, feedback.rs, setting.rs, net.rs, sequencer.rs (Mem) | lengths and capacities of the vectors that grow while playing: limiter, plucked string, order of a net, events and edits of the sequencer (C113) | memory taken in constructors and `set_sample_rate`; freeing of memory; tombstones in hash maps; `Granular`, which makes grains while playing; units given to `Slot` |
| slot.rs, realseq.rs, realnet.rs, net.rs, vertex.rs: return channels (Mail) | every unit handed to a backend, the channel it is sent back on, what the frontend takes out of it and what the backend has to free itself because the channel is full (C114) | memory freed inside units (`Granular` voices, vectors); a `Net` that is played without a backend passes no sender and frees replaced units itself (vertex.rs:131, 238); a clone of a backend, whose channel has no receiver |
| net.rs `backend`, `commit`: exchange of originals and clones (Net/Live) | which copy of each unit is in the frontend, in the channel and in the backend; units are marked as originals by an arbitrary predicate that their own methods keep (C115) | a full channel at `commit` (the originals are then dropped, net.rs:1161); nets inside units |
| audiounit.rs `DummyUnit` and net.rs `fade_in` (Net/FadeIn) | ticks and blocks of the dummy unit, with the old contents of the buffer (C116) | real numbers |
| noise.rs, pan.rs, oscillator.rs | MLS, noise, mixers, sine, ramps, poly oscillators, dsf, pluck, rossler, lorenz | see the list of later modules below |
| envelope.rs, adsr.rs | all | |
| wave.rs, write.rs | channels, editing, render/filter, normalize, fades, WAV writing, players | |
| resynth.rs, fft.rs | windows, overlap-add, processing interface | |
| resynth.rs (Resynth/Window) | `FftWindow`: times, rates, bins, frequencies (C108) | reals in place of f64 and f32 |
| wavetable.rs | tables, selection, reading, WaveSynth, PhaseSynth, PulseWave | see the next row for the constructors |
| wavetable.rs (Wavetable/Shapes, Fourier, ShapesProps) | `saw_table`, `square_table`, `triangle_table`, `organ_table`, `soft_saw_table`, `hammond_table`, `from_wave` (C106, C107) | reals in place of f32; the FFT is the DFT |
| granular.rs | Granular: spawning, tick, process, reset, set_hash | texture, random numbers and generator are arbitrary functions; times are reals |
| resample.rs, oversample.rs | all | set_sample_rate, ping |
| (Param) filter.rs, biquad.rs, moog.rs, rez.rs, pan.rs, follow.rs, delay.rs, oscillator.rs | constructors, `set` and `set_sample_rate` between samples (C90) | settings of Svf, Hold and Pluck |
| combinator.rs, prelude.rs (Core/Expr) | operators with constants, `add/sub/mul`, generators `*i`/`*f`, `get_mono`, `get_stereo`, `filter_mono`, `filter_stereo` (C91) | hash values given to group members (parameter; C21) |
| combinator.rs, oscillator.rs, wavetable.rs, noise.rs (Phase) | builders `phase` and `seed`, settings, hashes and resets of oscillators and noise as calls on one unit (C92) | the hash arithmetic itself (C21); phases drawn from a hash (`funutd` parameter) |
| shared.rs, envelope.rs, system.rs, vertex.rs, oscillator.rs, wavetable.rs, noise.rs, write.rs, math.rs (Float) | the clocks, phases, noise samples, 16-bit conversion, `lerp`, `delerp`, with every operation rounded (C93, C94) | rounding everywhere else; overflow, subnormal numbers, NaN |
| audionode.rs (Float/Avg) | `Join`, `MultiJoin` of Core/Combinators over the numbers with `p` bits (C96) | |
| README.md:1570-1586, audionode.rs constructors (Core/Equiv) | the expressions of the table over Core/Combinators; hashes at construction over Hash/Model; `rnd1` | |
| README.md:989-1048, prelude.rs:1618-1626, audionode.rs `Chain`, svf.rs `FixedSvf` with `BellMode` (Filter/Equalizer) | construction, methods of a band, settings by index, sample rate, reset, samples, `response`, `response_db` over the reals | the setting listener (C70) |
| svf.rs, biquad.rs, filter.rs, moog.rs (Filter/BeyondProps) | the filters of Filter/Model and Filter/Stable with frequencies above half of the sample rate (C99) | frequencies above the sample rate |
| biquad.rs (Filter/Resonator) | band and gains of `BiquadCoefs::resonator`, `resonator_hz` of each prelude (C109) | reals in place of f32 and f64 |
| svf.rs, biquad.rs, filter.rs, follow.rs (Filter/Kind, KindProps) | gains of the linear filters at all frequencies (C110) | reals in place of f32 and f64; the response of `pinkpass` |
| sound.rs (Sound) | `risset_glissando` and `bassdrum` whole; the cutoff envelopes of `snaredrum` and `cymbal`; the update of `pebbles` (C100) | the noise and modes of `snaredrum`, the squares of `cymbal`, the oscillators of `pebbles` |
| gen.rs (Sound/Gen) | `gen_lfo`, `gen_effect` (modulation), `gen_granular` as choices and a function from texture values to a description of the grain (C101) | code strings; `Dna` (answers within the ranges asked for); scales with rounding; the units of the parts are those of the other modules |
| oversample.rs (Resample/Pass) | the taps of the library (exact decimals), `route` (C102) | rounding of the taps to `f32` |
| net.rs `route` (Net/Route, Net/RouteProps) | `Net::route`, `response` and `latency` of a net (C103) | `route` of units is a function of the unit, at one frequency, that does not change it |
| `route` of filters, smoothers, pan.rs, dynamics.rs (Route/Live, Route/LiveProps) | the answers of units in use, with settings and sample rates (C104) | real numbers; `route` does not change the unit; tap gains and windows of delays are not included |
| `set_sample_rate` of the combinators, feedback.rs, resample.rs, oversample.rs and of filters, followers and oscillators (Rate/Model, Rate/Props) | the rate at which each part runs; unchanged rates (C105) | real numbers, so a rate is never NaN; methods other than `tick`, `process`, `reset`, `set_sample_rate` are arbitrary functions of the state of a leaf; the closure of `System` and units of nets are not included (C73, C88) |
| read.rs (Wave/Read) | `Wave::decode`: choice of track, loop over packets, assembly of the wave (C95) | Symphonia: reader and decoder are arbitrary, conversion to `f32` is part of the decoder; the packets of a file are a finite list |
| system.rs, rez.rs, moog.rs | all | f32 time accumulation |
| reverb.rs | Reverb: tick, reset, loop of allpasses, delays and user filter | set_sample_rate (delays are fixed in samples) |

Not modelled: Symphonia, the code strings of `gen.rs`, performance, memory safety; of allocation only when the audio thread asks for memory (C113).

## How wrong programs are judged

`tools/mutate.py` edits one definition in a scratch copy and rebuilds. A failed build alone proves nothing: only the proof
script of a helper may have failed. A line of `seeded/LOG.jsonl` says "caught" only if a property theorem is named that is
false of the edited program, with the reason in the note (for doubtful cases the refutation was itself checked by Lean). It
says "equivalent" when the edit does not change behaviour, and "survived" when no property theorem is false; survivors led to
the tightening recorded in the line.

## Files

`Verif/<Area>/Model.lean` — definitions following the code; `Verif/<Area>/Lemmas.lean` — helper lemmas;
`Verif/<Area>/Props.lean` — specification and property theorems `Cxx_*` with non-vacuity `example`s. Small areas keep model
and lemmas in one file, property theorems always sit in their own `Props` file.

## Plan per property

C01 model `Net` as lists of vertices/edges + id map; invariant `WF`; prove each edit op preserves it; induction over op lists.
C02 model `determine_order_in` with fuel-free recursion on counts; prove permutation, topological, complete vs. cycle spec.
C03/C04 relate `source by id` before/after removal (spec in terms of ids only). C04 negation for two-node loops.
C05 direct. C06 invariant: `node_index` is the inverse of vertex ids; ids are fresh.
C07 dataflow equations spec (values satisfying the equations are unique for acyclic graph); tick_2 computes them for any order.
C08 block simulation: unit `process` = tick iterated (hypothesis, discharged for units by C14) ⇒ net process = tick.
C09 denotational: stream/dataflow function of the combined net from those of the operands.
C10 direct list reasoning. C11/C12 protocol state machine front/back with FIFO; C11 refinement, C12 negation + partial.
C13 vertex fade state machine over an ordered field.
C14/C15 Mealy-machine specification; `Implements node machine`; closure under each combinator; laws on Mealy runs.
C16/C17 induction over chunks / over call sequences. C18 index arithmetic. C19 per component state equality (bisimulation).
C20 tree of components with paths. C21 BitVec injectivity by explicit inverse. C22–C24 sequencer event machine; negations where
code deviates. C25 slot machine. C26 FIFO refinement. C27 ring refinement. C28 register machine. C29 interleaving semantics of
fetch_add; negation for stalls, partial below the danger limit. C30–C34 real analysis with polynomial identities.
C35–C38 stream recurrences over arbitrary sample type. C39 real, induction on log2 size. C40 exact energy identities (real).
C41/C42 convexity and geometric decay (real). C43 convolution sum. C44 complex exponentials are eigenfunctions (complex).
C45 routing algebra; negation for generators. C46 segment tree invariant; limiter alignment. C47/C48 direct.
C49 GF(2) linear recurrences: order of companion polynomial by certified modular exponentiation for all 31 polynomials.
C50 index arithmetic on BitVec/Nat, range real. C51/C52/C53 real. C54/C55 real, negations where the code deviates.
C56–C59 list models. C60 byte-level writer and independent parser. C61 overlap-add identity (real, FFT inverse proved).
C62 binary search invariant. C63/C64 window invariant. C65 stability triangle (real). C66/C67 direct.
C72 per shape, level as weighted mean of squares (real). C73 schedule by counting. C74 phase recurrence as in C52. C75 delay
line recurrence. C76 energy function as in C40. C77/C78 difference equations, lane independence. C79 invariant interval; settling by a Lyapunov function with the
integral of the saturation (real). C86 invariant ball of the Euler map (real).
C80 event list invariant. C81 response algebra. C82 time-varying recursion and energy balance. C83 loop equation of the network;
total energy of a contraction fed back through an isometry (real). C84/C85 loop equations of the compositions, interpolation weights,
energy of allpass chains (real). C87 energy of a slowly modulated interpolating delay: the interpolation weights that fall on one input sample
add up to at most one plus twice the slope; the slope of spline noise is at most 2.4 (real). C88 invariant "unit is at rate r" over an abstract
rate observation of units (`Tells`), through edits, operators, commits and sequencer heaps; negations where the rate does not arrive. C89 derivatives for single peaks,
series bounds for constants, certified positivity of a polynomial for M-weighting (real). C90 refinement of units with settings and rate changes to recursions with
time-varying parameters. C14 and C19 also from the states of leaves that are block-consistent only in reachable states. C91 stream equations by induction on group
size, explicit channel arithmetic, repeated calls by induction. C92 relation between two runs
that every call keeps, whatever the hashes (two-run invariant), and explicit starting states. C93, C94 a rounding function on the reals with monotonicity,
fixed points and error bounds by binade; clocks by induction on samples, below and above the point where half a unit exceeds the step. C95 the loop as a function on
the list of packets, filtering first, then induction on decoded pieces with the wave as a table. C96 the model
of `join` over rounded numbers: scaling by powers of two commutes with rounding; relative error by induction on the sum. C97 bisimulation; replacement
because indistinguishability is the largest bisimulation; the hashes of the first pair computed by the kernel. C98 refinement of the chain
to a list of bands; the response of a bell as a quotient of complex numbers with the same real
part, which gives its bounds; product over the chain with a uniform bound on the transients. C99 the Hankel determinant
of the response to a click grows by the product of the poles at every sample. C100 the streams of
the parts compose; continuity of a function of `fract`; products of frequencies fall with every pair. C101 decision logic, all
branches; interpolation ranges. C102 convolution of
the two filters, reindexed; table of 43 products computed by the kernel. C103 the signals of the nodes
solve the equations of the wiring; induction along the evaluation order, with the streams of C08. C104 parameters and
caches by induction over events, then the fixed filter that the unit follows; the responses of C44. C105 reachability
of each part from reachability of the whole, by induction over the expression; one invariant for each leaf. C106 Fourier coefficients by integration, compared
partial by partial with the tables of C62. C107 the same against the sums over the wave. C108 from the invariant of C61; the spectrum of a tone from sums of roots of unity. C109 the power of the response in closed form, the angles
where it is half, monotonicity of arctan(tanh) for the width; the energy of the click response by a quadratic form that telescopes. C110 responses
of C44 on the unit circle as those of the analog prototypes at `tan(π f / sr) / tan(π cutoff / sr)`, then inequalities between polynomials. C111 the follower is
monotone in state and input, so the worst case is a lone peak after silence, whose step response is known exactly from C41; a bound of `exp (-z) (1 + z + z²/2)`. C112 the weight
`a^(2 m / d)` on a sample that went into a line of length `d` `m` samples ago makes the energy fall by a known factor per sample and line. C113 length and
capacity per vector with a count of requests, any growth within the guarantee of `Vec::reserve`; a unit is silent exactly if every vector has room. C114 the state machines of the backends with the
return channel as a bounded list; units are counted by label (nothing lost or doubled), then room in the channel bounds what is freed. C115 an invariant of the two threads: the backend holds originals,
and a clone in a later net is never newer than the original it would displace. C116 the crossfade of C13 from the dummy unit; in blocks a
recurrence between the same sample of successive blocks, bounded from below. C117 every call is shown to keep
the engines of nodes it does not name, and C07 says what the next sample makes of them; with a backend C11 gives the same without a ping. For C118 the rate is set
before every sample and the state is followed by an invariant that ties it to the time played. C119 is the
converse of C68: by induction over expressions, every channel a sinusoid reaches is a response and every other channel a value. For nets
the induction is along the evaluation order, with what is known of each node as a parameter. C120 models
`display` up to the text: the fold over levels with minus infinity, the columns as lists of characters. C121 extends the history of C11 by combinations
(`SinceJoin`): nodes of a combination come from the operands with id and stamp, or have fresh ids. C122: `wrap` is a net of one node with known wiring, so the operators
of C09 give the signals of mixed expressions. C123: invariant over executions with a bounded channel,
which relates the frontend at the last commit that found room, the channel and the backend; reduces to C11.  C124: invariant over histories
of samples, blocks and settings, on top of the block lemmas of C54.  C125: invariant which relates the adapter to a log of
changes with their times. C80, C82 and C118 also with the helpers of
the model written out: grains, resets of subsampled filters, limiters at a new rate, sequencers that forget events at changing rates (edits then only of events that are not over).

Any property that cannot be proved in full is kept as stated, with a `_partial` theorem and, when the code violates it, a
theorem proving the negation on a concrete witness.

## Findings

Deviations from the documented or evident intent met while modelling. Those marked with a theorem are proved on a concrete
run of the model; the others were seen while reading and are outside the modelled part or the properties.

| # | where | what | theorem |
|---|---|---|---|
| 1 | net.rs remove_link | on a loop of two nodes it creates a self connection | C01_violation_removeLink |
| 2 | net.rs commit | a crossfade is lost when a second commit arrives before the backend runs | C12_violation_lost |
| 3 | net.rs | reset or set_sample_rate in the frontend followed by commit brings back the unit that was faded out | C12_violation_undone |
| 4 | net.rs connect etc. | port ranges are not checked; `check` fails on a stale cached source | C01_violation_* |
| 5 | vertex.rs | fade length is rounded up in ticks and down in blocks; queued edits start at different samples | C08_violation, C08_violation_queued |
| 6 | sequencer.rs process | fade positions are relative to the block instead of the event; an event ending at a half sample plays one sample longer | C23_violation_fade_in, C23_violation_fade_out, C23_violation_half |
| 7 | realseq.rs | push after reset in one batch is lost; messages beyond the capacity are dropped | C24_violation, C24_violation_overflow |
| 8 | sequencer.rs edit | editing a waiting event into the past is ignored | C71_violation |
| 9 | slot.rs | a set unit never gets the sample rate of the backend; overflow loses the last set | C25_violation_rate, C25_violation_overflow |
| 10 | math.rs spline_mono | not monotone on falling data | C32_violation_falling |
| 11 | math.rs softmix, shape softsign | epsilon leaves the range; SIMD differs for negative hardness | C34_violation_* |
| 12 | setting.rs | an index beyond an array panics; a path below a leaf still sets it | C20_violation_panic, C20_violation_below |
| 13 | net.rs | a live setting handled in the batch of its commit is lost | C69_violation_lost |
| 14 | setting.rs SettingListener | drops every setting | C70_violation |
| 15 | lib.rs IdGenerator | can repeat ids if a caller stalls | C29_violation_stall |
| 16 | audionode.rs route | generator in front of a processor has no latency; MultiStack/Reduce pass the whole frame | C45_violation, C68_violation |
| 17 | delay.rs TapLinear | blocks read overwritten samples for lack of SIMD headroom | C37_violation |
| 18 | dynamics.rs Limiter | reset does not reset the follower | C46_reset_violation, C19_violation_limiter |
| 19 | oscillator.rs dsf | one partial more than documented; it exceeds 22050 Hz | C53_violation_doc, C53_violation_alias |
| 20 | envelope.rs | blocks differ from ticks for intervals of 1 to 4/3 samples | C54_violation |
| 21 | adsr.rs | sounds although the gate was never open; after reset may be negative | C55_violation_closed, C55_violation_reset |
| 22 | wave.rs | retain panics past the end, append/retain without channels; render_latency measures before the rate is set and does not reset | C57_violation_*, C58_violation_* |
| 23 | wavetable.rs | out of bounds for very low pitches; hint dependence of the index at a table pitch | C62_violation_low, C62_violation_hint |
| 24 | resample.rs, oversample.rs | first two samples skipped; taps reversed, newest sample left out of the output filter | stated in C63_whole, C64_output |
| 25 | audiounit.rs DummyUnit | process clears only part of the buffer | see 78 |
| 26 | reverb.rs | reset/set_sample_rate skip the pre diffusers | C76_violation_reset |
| 27 | svf.rs Morph | ends are not the lowpass and highpass, peak is halved; route adds the morph value without the incoming response | C81_violation_ends, C81_peak, C81_violation_response |
| 28 | svf.rs FixedSvf::set_gain | has no effect on the sound | C82_violation_gain |
| 29 | shape.rs Adaptive | new and reset start from different levels; level falls below the documented -60 dB | C72_violation_reset, C72_violation_floor |
| 30 | audionode.rs | Chain/Reduce share ID 32, Tap/TapLinear share ID 50 | read |
| 31 | shape.rs Crush | halves are rounded to even in blocks and away from zero in ticks | C72_violation_crush |
| 32 | biquad.rs FbBiquad, DirtyBiquad | set_sample_rate does not reach the shape | C77_violation_sample_rate |
| 33 | rez.rs | cutoff at a sixth of the sample rate divides by zero | C79_violation_cutoff |
| 34 | svf.rs Svf | reset with subsampling keeps the parameters in force before it | C82_violation_reset |
| 35 | oscillator.rs Pluck | a string above the sample rate over 2.2 panics; set_hash keeps the damping filter's memory | C75_panic, C75_violation_hash |
| 36 | wavetable.rs WaveSynth | used without a combinator it starts at phase zero but resets to a pseudorandom phase; a block picks the table by the first frequency of each eight samples | C74_violation_reset, C74_violation_block |
| 37 | granular.rs | with two voices or more the random phases (and jitter) of grains depend on block sizes; spawning need not end if grains get shorter and shorter | C80_violation_block, C80_violation_endless |
| 38 | oscillator.rs Rossler | at the constant frequency sample rate / 2.91 (15155 Hz at 44.1 kHz) the output leaves every bound | C86_violation_diverges |
| 39 | slot.rs | a crossfade ends after its length rounded up in ticks and rounded down in blocks; a unit set meanwhile waits for the next block | C25_crossfade_end |
| 40 | slot.rs reset | messages in the channel are not handled by a reset, so a unit set before a reset is faded in after it | C25_received |
| 41 | noise.rs Mls | a lone `mls()` starts with all bits set, a reset puts it at the state made from its hash, so the first sample differs | C19_violation_mls |
| 42 | net.rs set_sample_rate | reaches only the audible unit of a vertex: units waiting to be faded in stay at the old rate | C88_violation_fade |
| 43 | net.rs operators | `net1 >> net2` (and `+`, `*`, ...) of different rates keeps the units of the second at their rate; negation of a net reports the default rate | C88_violation_operator, C88_violation_neg |
| 44 | realnet.rs | a rate set in the backend is lost at the next commit, which brings units at the frontend's rate | C88_violation_backend |
| 45 | realseq.rs | events pushed in the frontend have the rate of the frontend, which a rate set in the backend does not reach | C88_violation_sequencer |
| 46 | slot.rs set | a unit given to a slot is never told the rate | C25_violation_rate, C88_violation_slot |
| 47 | biquad.rs Resonator | the documented setting of center and bandwidth is not implemented: `set` does nothing | C90_violation_resonator |
| 48 | README.md "initial phase", combinator.rs `phase`, audionode.rs `Pipe::set` | README says that after `let mut A = sine_hz(220.0).phase(0.0)` the phase can be changed with `A.set(Setting::phase(0.5))`; `sine_hz` is a pipe and a setting without an address is ignored there. With `.right()` it works. | `C92_violation_hz` |
| 49 | envelope.rs (f32), system.rs | In single precision, the clock of an envelope or `lfo` (hacker32) stops at 512 seconds at 44.1 kHz when rendered sample by sample, and its function is never called again; `system` goes on calling its function with time 512. | `C93_violation_envelope`, `C93_violation_system` |
| 50 | vertex.rs `tick` | A crossfade of a net node over 2^25 + 4 samples or more (761 s at 44.1 kHz) never gets beyond half way when rendered sample by sample. | `C93_violation_fade` |
| 51 | oscillator.rs, wavetable.rs | Phases in single precision: below 0.0013 Hz at 44.1 kHz an oscillator stops at half its cycle; at 0.01 Hz the second half of the cycle takes 47.6 s, not 50. With a negative frequency the phase can be 1 itself. | `C94_violation_stuck`, `C94_violation_frequency`, `C94_phase_one` |
| 52 | math.rs `lerp` | Interpolation between 7 and 7 can give more than 7 in single precision. | `C94_violation_lerp` |
| 53 | read.rs `decode` | Asking for a track that does not exist loads the first one with a known codec. | `C95_violation_track` |
| 54 | read.rs `decode` | A file that breaks off after its first packet loads without an error: any error of the reader counts as the end of the file. | `C95_violation_truncated` |
| 55 | read.rs `decode` (marked TODO there) | If a later packet has more channels than the first, loading panics; if fewer, the missing channels are silent; a change of sample rate is ignored. | `C95_violation_format` |
| 56 | audionode.rs `Join`, `MultiJoin` | `tick` sums and divides, `process` multiplies and sums: for a number of channels that is not a power of two the results differ (5, 0, 0 in single precision), and `split::<U3>() >> join::<U3>()` changes 7 in a block. | `C96_violation_join`, `C96_violation_split_join` |
| 57 | README.md, audionode.rs constructors | The first pair of equivalent expressions is not identical: the initial phases of the oscillators come from the structure of the graph, so the two start differently. The first sample of `(pass() ^ mul(2.0)) >> sine() + sine()` is positive and that of `sine() & mul(2.0) >> sine()` negative. | `C97_violation_bus` |
| 58 | svf.rs `set_gain`, README.md Parametric Equalizer Recipe | If the gain of a band is set after its center and Q, then `response_db` reports 10 dB at the center while the equalizer still passes every signal unchanged (`update_gain` does nothing by default). The README sets the gain first, which works. | `C98_violation_gain` |
| 59 | svf.rs `SvfCoefs`, biquad.rs `BiquadCoefs` | With a cutoff between half of the sample rate and the sample rate the state variable filters, the Butterworth filter and the biquad lowpass and highpass are unstable: a single click grows beyond every bound. `lowpass_hz(15000.0, 1.0)`, as at the start of `snaredrum`, does this at 22.05 kHz. | `C99_violation_svf`, `C99_violation_butter`, `C99_violation_biquad`, `C99_example` |
| 60 | sound.rs `pebbles` | Resetting does not restart the sound: the update at time zero reads the frequencies back from the constants, which hold what was written last, so the sound continues with them. | `C100_violation_pebbles_reset` |
| 61 | oversample.rs | An oversampled unit reports the latency and response of its inner unit as they are: the latency is in samples of the inner, doubled rate, and the delay (40 samples) and the loss at high frequencies of the half band filters are not in it. | `C102_violation` |
| 62 | net.rs `Net::route` | While a crossfade is under way (or queued) a net reports the response and latency of the unit that is being faded out. | `C103_violation` |
| 63 | dynamics.rs `Limiter::route` | The delay of the limiter is in the latency it reports but not in the phase of its response; summed with a dry path the reported response is wrong. | `C104_violation_limiter` |
| 64 | `route` of units with parameter inputs | Before the first sample they answer with the parameters they were made with, whatever signals the analysis supplies for those inputs (`lowpole()`, `panner()`). | `C104_violation_fresh`, `C104_violation_panner` |
| 65 | dynamics.rs `Limiter::set_sample_rate` | Given the sample rate it already has, a running limiter empties its delay and is silent for its lookahead. | `C105_violation_limiter` |
| 66 | svf.rs `FixedSvf::set_gain` | The gain that was set has no effect until the sample rate is set again, to the same value even; then it jumps in (see row on `set_gain`). | `C105_violation_gain` |
| 67 | wavetable.rs `Wavetable::from_wave` | The angle of a bin, which is the phase of a cosine, is used as the phase of a sine: each partial is late by a quarter of its own cycle. A sine becomes a negative cosine, other waves change shape. | `C107_violation` |
| 68 | hacker.rs, hacker32.rs `resonator`, `resonator_hz` | Documented to take a bandwidth in Hz, which is handed over as the Q: 110 Hz at 440 Hz is a band of 4 Hz, and a wider bandwidth gives a narrower band. | `C109_violation_bandwidth`, `C109_violation_order` |
| 69 | biquad.rs `Resonator` | "Gain stays constant as Q is varied" holds for white noise (`C109_noise_partial`) but not for tones: the power at the peak is 1 / (1 - exp(-2π f / (q sr))). | `C109_violation_tones` |
| 70 | filter.rs `Highpole` | The gain at the highest frequency is 2 c / (1 + c) with c = exp(-2π cutoff / sr) instead of 1: `highpole_hz(5000.0)` passes less than half of the power of every tone, at 44.1 kHz. | `C110_violation_highpole` |
| 71 | filter.rs `Lowpole` | Above 0.28 of the sample rate the response never falls to half: `lowpole_hz(15000.0)` passes more than half of the power of every tone, at 44.1 kHz. | `C110_violation_lowpole` |
| 72 | filter.rs `DCBlock` | The coefficient is 1 - 2π cutoff / sr, below -1 when the cutoff is above sr / π: `dcblock_hz(15000.0)` is unstable at 44.1 kHz. | `C110_violation_dcblock` |
| 73 | dynamics.rs `Limiter` | The first frame leaves the maximum tracker before the follower makes its first step, and the first step jumps to its target: a click of any size in the first frame comes out at full size. Later frames are within -1 ... 1 for attacks of at least 20 and releases of at least 40 samples; with an attack of one sample a click of size 10 comes out larger than one. | `C111_violation_first`, `C111_violation_short` |
| 74 | prelude.rs `reverb_stereo` | The gain per pass is for passes of 3 ms per meter, but the lines are 3.6 to 8.3 ms per meter long: without damping the energy is still above -52 dB after the reverberation time ("to -60 dB"), and above -60 dB until 1.16 times that time. | `C112_violation` |
| 75 | dynamics.rs `Limiter::allocate`, feedback.rs `Feedback2::allocate`, setting.rs, sequencer.rs `edit` | `reserve` is given the missing capacity instead of the missing length: a limiter that was played before, or whose rate was doubled, asks for memory while playing. `feedback2` leaves out its second node and a listener its only one. Edits of ended events stay in the map for good, so it outgrows its capacity. | `C113_violation_used`, `C113_violation_rate`, `C113_violation_feedback2`, `C113_violation_listen`, `C113_violation_edits` |
| 76 | slot.rs, realseq.rs, realnet.rs return channels | `try_send` on a full return channel fails and the unit is dropped on the spot, on the audio thread. The channel is only emptied by frontend calls: 1026 units set in a slot before a reset, a score of 2049 events followed by a reset, the past events of a sequencer when its backend first plays, or 1028 crossfades in one commit. | `C114_violation_slot`, `C114_violation_slot_dropped`, `C114_violation_seq`, `C114_violation_seq_dropped`, `C114_violation_seq_played`, `C114_violation_net`, `C114_violation_net_dropped` |
| 77 | net.rs:1094-1164 `backend`, `commit` | The originals go to the backend and the frontend keeps clones, which are cut off (a cloned ring is silent). A clone reaches the backend when two commits are read together (the unit pushed before the first is lost with it), when the frontend is reset or its rate is changed and it then commits (every node), and when a fade was under way as the backend was started and the node is then replaced. | `C115_violation_twice`, `C115_violation_reset`, `C115_violation_rate`, `C115_violation_fade`, `C115_clone_silent` |
| 78 | audiounit.rs:676-680 `DummyUnit::process` | clears `simd_items(size)` samples, not items, so seven eighths of a block keep what the node played in the block before. A unit that is faded in with `fade_in` and processed in blocks gets its own echoes mixed in: over ten seconds with `Fade::Power`, a constant of 1 reaches 8 after half a second, and with longer fades any level. | `C116_violation_loud`, `C116_violation_unbounded` |
| 79 | net.rs:835-853 `Net::determine_order` | pings all units to give them their hash, and `set_hash` of oscillators and noises resets them. In a net without a backend every change of the wiring is followed by this before the next sample, so adding a node, even with `fade_in` and even if it is not connected to anything, makes all oscillators and noises that are playing jump to their initial phase. | `C117_violation`, `C117_violation_repeats` |
| 80 | net.rs:1334-1347 `Net::reset` | resets the units that are heard, but neither the units that are being faded in nor the fades: a net that is reset during a crossfade goes on in the middle of it, and afterwards plays the incoming unit from where it had got. | `C19_violation_net_fade` |
| 81 | envelope.rs:124-126 `Envelope::set_sample_rate` | keeps the slope of the current segment per sample. After a change of the rate the segment goes on at the old pace but ends by the new clock, so with a doubled rate the envelope overshoots by almost as much as it was to rise: a function with values 0...1 reaches more than 1.75. It is right again from the next segment on. | `C118_envelope`, `C118_violation_envelope` |
| 82 | signal.rs:26-32 `Signal::filter` | a constant that goes through a filter becomes unknown, and so does what it is added to: `pass() + (dc(v) >> lowpole())` has no response, though its output settles to the input plus a constant. | `C119_response_partial`, `C119_violation` |
| 83 | audiounit.rs:294-316 `display` | if the response is zero at all columns, e.g. `pass() * 0.0`, the level is minus infinity: the graph is filled to the top, the labels are -9223372036854775808 dB and 22000 Hz is printed as the peak. And the mark at the top of a column is a star if the response is exactly at the level of the row but a dot if it is up to 2.5 dB above it. | `C120_peak_partial`, `C120_graph_partial`, `C120_violation_silence`, `C120_violation_marks` |
| 84 | net.rs:1168-1179 `resolve_frontend`, 1053-1076 `migrate`, 1040-1050 `disambiguate_ids` | (1) `can_bus` etc. are true for two nets that both have a backend, and the operators panic. (2) A clone of the frontend whose node was replaced, combined with the frontend (`clone & front`) after another commit: the backend puts its running unit in place of the replaced one, and plays 2 instead of 6. (3) If the frontend is the right operand and its ids are taken, a crossfade that waits in its queue goes to the node of the other operand. | `C121_can_partial`, `C121_kept_partial`, `C121_violation_two_frontends`, `C121_violation_clone`, `C121_violation_crossfade` |
| 85 | net.rs:1848-2048 operators of `Net` with `An<X>` | The unit is wrapped in a net at the default sample rate, whatever the rate of the net: in `net >> unit` it stays there, and giving the result the rate it reports changes nothing; `unit >> net` reports the default rate while the nodes of the net keep theirs (compare row 43). | `C122_violation_rate` |
| 86 | net.rs:1162, 1359 `try_send` | A commit that finds 1024 messages waiting (settings count) is dropped without notice: the backend keeps the old graph until another commit. A crossfade in such a commit is never heard, since the frontend has forgotten it. | `C123_violation_full`, `C123_violation_crossfade` |
| 87 | envelope.rs:159-161 | `Envelope::process` begins the next segment when a block ends with a segment. An interval (or hash) that is set at that time counts one segment later than when the envelope is played by `tick`, though `An::interval` says that it takes effect immediately; the sounds differ. `EnvelopeIn::process` waits for the next sample. | `C124_violation_block` |
