{
 "claims": [
  {
   "property": "C01",
   "status": "partial",
   "theorems": [
    "Fundsp.Net.C01_check_partial",
    "Fundsp.Net.C01_violation_check",
    "Fundsp.Net.C01_violation_connect",
    "Fundsp.Net.C01_violation_removeLink",
    "Fundsp.Net.C01_wiring_partial"
   ],
   "note": "Full claim is false of the code: connect accepts nonexistent source ports, check() fails on a stale cached source vertex, remove_link can create a self connection (C01_violation_*). Proved for every history of calls with in-range ports."
  },
  {
   "property": "C02",
   "status": "proved",
   "theorems": [
    "Fundsp.Net.C02_error",
    "Fundsp.Net.C02_net_order",
    "Fundsp.Net.C02_order"
   ],
   "note": "Any acyclic/cyclic graph; order is a complete topological permutation, error() reports a cycle exactly when there is one."
  },
  {
   "property": "C03",
   "status": "proved",
   "theorems": [
    "Fundsp.Net.C03_remove",
    "Fundsp.Net.C03_total"
   ],
   "note": ""
  },
  {
   "property": "C04",
   "status": "proved",
   "theorems": [
    "Fundsp.Net.C04_remove_link"
   ],
   "note": "For histories that never create a self connection (two-node loops: see C01_violation_removeLink)."
  },
  {
   "property": "C05",
   "status": "proved",
   "theorems": [
    "Fundsp.Net.C05_replace"
   ],
   "note": ""
  },
  {
   "property": "C06",
   "status": "proved",
   "theorems": [
    "Fundsp.Net.C06_crossfade_accepts",
    "Fundsp.Net.C06_fade_in",
    "Fundsp.Net.C06_handle_arity",
    "Fundsp.Net.C06_handle_exact",
    "Fundsp.Net.C06_handle_unit",
    "Fundsp.Net.C06_push_fresh",
    "Fundsp.Net.C06_unambiguous"
   ],
   "note": "Units are stated up to ticks, resets, sample rate changes and hash pings, which evaluation order computation performs."
  },
  {
   "property": "C07",
   "status": "proved",
   "theorems": [
    "Fundsp.Net.C07_order_independent",
    "Fundsp.Net.C07_tick",
    "Fundsp.Net.C07_unique"
   ],
   "note": "Tick semantics equals the unique solution of the dataflow equations, for any evaluation order."
  },
  {
   "property": "C08",
   "status": "partial",
   "theorems": [
    "Fundsp.Net.C08_block_equals_tick_partial",
    "Fundsp.Net.C08_crossfade_partial",
    "Fundsp.Net.C08_first_call",
    "Fundsp.Net.C08_violation",
    "Fundsp.Net.C08_violation_queued"
   ],
   "note": "Proved for all nets without crossfades over an abstract sample type, and over the reals for crossfades lasting a whole number of samples; false of the code for fractional fade lengths and queued edits (C08_violation, C08_violation_queued)."
  },
  {
   "property": "C09",
   "status": "proved",
   "theorems": [
    "Fundsp.Net.C09_binary",
    "Fundsp.Net.C09_binary_accepts",
    "Fundsp.Net.C09_branch",
    "Fundsp.Net.C09_branch_accepts",
    "Fundsp.Net.C09_bus",
    "Fundsp.Net.C09_bus_accepts",
    "Fundsp.Net.C09_exact",
    "Fundsp.Net.C09_neg",
    "Fundsp.Net.C09_pipe",
    "Fundsp.Net.C09_pipe_accepts",
    "Fundsp.Net.C09_stack",
    "Fundsp.Net.C09_stack_accepts",
    "Fundsp.Net.C09_thru"
   ],
   "note": "Operands with equal sample rates; units up to hash pings (C09_exact removes this when pings do not change units)."
  },
  {
   "property": "C10",
   "status": "proved",
   "theorems": [
    "Fundsp.Net.C10_chain",
    "Fundsp.Net.C10_pass_through",
    "Fundsp.Net.C10_pipe_all",
    "Fundsp.Net.C10_pipe_input",
    "Fundsp.Net.C10_pipe_output"
   ],
   "note": ""
  },
  {
   "property": "C11",
   "status": "proved",
   "theorems": [
    "Fundsp.Net.C11_accepts",
    "Fundsp.Net.C11_graph",
    "Fundsp.Net.C11_kept",
    "Fundsp.Net.C11_kept_exactly",
    "Fundsp.Net.C11_new",
    "Fundsp.Net.C11_ready",
    "Fundsp.Net.C11_stays"
   ],
   "note": "For every frontend history since the net of the backend was sent (any edits, any number of further commits, any messages in the queue): graph equals the frontend, untouched nodes keep the backend's running state, touched or new nodes get the frontend's unit. The channel is a FIFO whose capacity (1024 messages) is not exceeded; unit clones are equal to the originals."
  },
  {
   "property": "C12",
   "status": "partial",
   "theorems": [
    "Fundsp.Net.C12_carried",
    "Fundsp.Net.C12_eventually_partial",
    "Fundsp.Net.C12_fade_in_partial",
    "Fundsp.Net.C12_queued",
    "Fundsp.Net.C12_violation_lost",
    "Fundsp.Net.C12_violation_undone",
    "Fundsp.Net.C12_waits"
   ],
   "note": "False of the code in two ways, both proved with a concrete run: C12_violation_lost (a fade_in is lost when a second commit arrives before the backend runs) and C12_violation_undone (reset or a new sample rate in the frontend brings the old unit back). Proved: crossfades wait in order, are carried by the commit, and for a node that the backend has and that is not touched, the last one in any queue ends up as the only unit running."
  },
  {
   "property": "C13",
   "status": "proved",
   "theorems": [
    "Fundsp.Net.C13_complete",
    "Fundsp.Net.C13_crossfade",
    "Fundsp.Net.C13_crossfade_end",
    "Fundsp.Net.C13_last_edit_wins",
    "Fundsp.Net.C13_mix_block",
    "Fundsp.Net.C13_mix_tick",
    "Fundsp.Net.C13_never_back",
    "Fundsp.Net.C13_resting"
   ],
   "note": "Samples as real numbers; fade times positive. Node level: all histories of ticks, blocks and edits."
  },
  {
   "property": "C14",
   "status": "proved",
   "theorems": [
    "Fundsp.C14_block_equals_tick",
    "Fundsp.C14_from_state"
   ],
   "note": "All static combinators. Join/MultiJoin assume exact averaging and MultiBus assumes 0 + x = x (stated hypotheses); the rest bit-exact."
  },
  {
   "property": "C15",
   "status": "proved",
   "theorems": [
    "Fundsp.C15_binop",
    "Fundsp.C15_branch",
    "Fundsp.C15_branch_assoc",
    "Fundsp.C15_branch_eq_split_stack",
    "Fundsp.C15_bus",
    "Fundsp.C15_bus_assoc",
    "Fundsp.C15_bus_comm",
    "Fundsp.C15_bus_eq_branch_sum",
    "Fundsp.C15_interchange",
    "Fundsp.C15_multisplit_multijoin",
    "Fundsp.C15_pass_unit",
    "Fundsp.C15_pipe",
    "Fundsp.C15_pipe_assoc",
    "Fundsp.C15_reverse_involution",
    "Fundsp.C15_split_join",
    "Fundsp.C15_stack",
    "Fundsp.C15_stack_assoc",
    "Fundsp.C15_thru"
   ],
   "note": ""
  },
  {
   "property": "C16",
   "status": "proved",
   "theorems": [
    "Fundsp.Adapt.C16_big_block"
   ],
   "note": ""
  },
  {
   "property": "C17",
   "status": "proved",
   "theorems": [
    "Fundsp.Adapt.C17_block_rate",
    "Fundsp.Adapt.C17_block_rate_ticks"
   ],
   "note": ""
  },
  {
   "property": "C18",
   "status": "proved",
   "theorems": [
    "Fundsp.Buffer.C18_channel",
    "Fundsp.Buffer.C18_items",
    "Fundsp.Buffer.C18_new",
    "Fundsp.Buffer.C18_resize",
    "Fundsp.Buffer.C18_scalar",
    "Fundsp.Buffer.C18_simd_read",
    "Fundsp.Buffer.C18_simd_write",
    "Fundsp.Buffer.C18_subset"
   ],
   "note": "Slice layout shared by BufferVec/BufferRef/BufferMut; BufferArray through its repr(C) layout."
  },
  {
   "property": "C19",
   "status": "partial",
   "theorems": [
    "Fundsp.C19_afollow",
    "Fundsp.C19_allnest",
    "Fundsp.C19_allpole",
    "Fundsp.C19_biquad",
    "Fundsp.C19_dcblock",
    "Fundsp.C19_declick",
    "Fundsp.C19_delay",
    "Fundsp.C19_feedback",
    "Fundsp.C19_feedback2",
    "Fundsp.C19_feedback_unit",
    "Fundsp.C19_fir",
    "Fundsp.C19_follow",
    "Fundsp.C19_graph",
    "Fundsp.C19_graph_at",
    "Fundsp.C19_highpole",
    "Fundsp.C19_hold",
    "Fundsp.C19_lowpole",
    "Fundsp.C19_meter",
    "Fundsp.C19_monitor",
    "Fundsp.C19_pinkpass",
    "Fundsp.C19_svf",
    "Fundsp.C19_tap",
    "Fundsp.C19_tap_linear",
    "Fundsp.C19_tick",
    "Fundsp.C19_violation_limiter",
    "Fundsp.Env.C19_envelope",
    "Fundsp.Env.C19_envelope_in",
    "Fundsp.Net.C19_net_partial",
    "Fundsp.Net.C19_violation_net_fade",
    "Fundsp.Noise.C19_mls",
    "Fundsp.Noise.C19_noise",
    "Fundsp.Noise.C19_violation_mls",
    "Fundsp.Osc.C19_dsf",
    "Fundsp.Osc.C19_poly_pulse",
    "Fundsp.Osc.C19_poly_saw",
    "Fundsp.Osc.C19_poly_square",
    "Fundsp.Osc.C19_ramp",
    "Fundsp.Osc.C19_sine"
   ],
   "note": "Proved for every expression of the static combinators over leaves with the property (C19_graph, by induction over the graph), for nets of units with the property (C19_net_partial) and for delays, taps, feedback, filters, FIR, declick, meter, hold, envelope, oscillator and noise leaves; resampler, oversampler and resynthesis are under C63_reset, C64_reset, C61_reset_fresh, the sequencer under C22_replay and C22_no_replay. The full claim fails for the limiter (C19_violation_limiter), for an MLS generator used on its own (C19_violation_mls) and for nets reset during a crossfade (C19_violation_net_fade)."
  },
  {
   "property": "C20",
   "status": "partial",
   "theorems": [
    "Fundsp.Setting.C20_build",
    "Fundsp.Setting.C20_exactly",
    "Fundsp.Setting.C20_nowhere",
    "Fundsp.Setting.C20_panics",
    "Fundsp.Setting.C20_unique",
    "Fundsp.Setting.C20_violation_below",
    "Fundsp.Setting.C20_violation_panic"
   ],
   "note": "Exact effect on every component, uniqueness, no effect for paths that lead nowhere, panic condition and path building are proved for all trees, arrays and nets. The full claim fails in two ways: a path continuing below a component still sets that component (C20_violation_below), an index beyond the end of an array panics (C20_violation_panic)."
  },
  {
   "property": "C21",
   "status": "proved",
   "theorems": [
    "Fundsp.Hash.C21_atto",
    "Fundsp.Hash.C21_hash1",
    "Fundsp.Hash.C21_hash32x",
    "Fundsp.Hash.C21_ping",
    "Fundsp.Hash.C21_ping_injective",
    "Fundsp.Hash.C21_rnd1",
    "Fundsp.Hash.C21_step_collision"
   ],
   "note": "hash64 functions of the external funutd crate are arbitrary function parameters."
  },
  {
   "property": "C22",
   "status": "proved",
   "theorems": [
    "Fundsp.Seq.C22_no_replay",
    "Fundsp.Seq.C22_refines",
    "Fundsp.Seq.C22_replay",
    "Fundsp.Seq.C22_windows"
   ],
   "note": "Arbitrary ordered field for times and samples. C22_refines: any sequence of push, push_relative, edit, edit_relative, reset and tick equals a plain list of events; C22_windows gives the samples explicitly; C22_replay, C22_no_replay. Ids are fresh; edits as in C71."
  },
  {
   "property": "C23",
   "status": "partial",
   "theorems": [
    "Fundsp.Seq.C23_block_equals_tick_partial",
    "Fundsp.Seq.C23_violation_fade_in",
    "Fundsp.Seq.C23_violation_fade_out",
    "Fundsp.Seq.C23_violation_half"
   ],
   "note": "C23_block_equals_tick_partial for any schedule and any units with TickBlock; three violations found when fades or half-sample ends fall inside a block (C23_violation_*)."
  },
  {
   "property": "C24",
   "status": "partial",
   "theorems": [
    "Fundsp.Seq.C24_backend_partial",
    "Fundsp.Seq.C24_violation",
    "Fundsp.Seq.C24_violation_overflow"
   ],
   "note": "Model of the backend over the sequencer model, channel as a bounded queue. Equal to direct calls (any starting state, ticks and blocks) when no message follows a reset within a batch and the channel does not overflow; otherwise false: C24_violation (a push handled in the same batch as an earlier reset is lost), C24_violation_overflow (a message beyond the channel capacity is lost)."
  },
  {
   "property": "C25",
   "status": "partial",
   "theorems": [
    "Fundsp.Slot.C25_crossfade",
    "Fundsp.Slot.C25_crossfade_end",
    "Fundsp.Slot.C25_crossfade_rate",
    "Fundsp.Slot.C25_crossfade_reset",
    "Fundsp.Slot.C25_finishes",
    "Fundsp.Slot.C25_last_set_wins_partial",
    "Fundsp.Slot.C25_mix_block",
    "Fundsp.Slot.C25_mix_tick",
    "Fundsp.Slot.C25_never_back",
    "Fundsp.Slot.C25_new",
    "Fundsp.Slot.C25_received",
    "Fundsp.Slot.C25_resting",
    "Fundsp.Slot.C25_settled_partial",
    "Fundsp.Slot.C25_violation_overflow",
    "Fundsp.Slot.C25_violation_rate"
   ],
   "note": "Model of slot.rs over the unit model of nets; over the reals for crossfades. Proved for all histories of set, tick, process, reset and set_sample_rate: exactly what is heard (C25_resting, C25_received, C25_crossfade, C25_crossfade_end, C25_crossfade_reset, C25_crossfade_rate), the unit heard once fades are over is the last one set, fades end, order is never inverted. Missing: overflow of the channel (1024 sets without a tick), for which the claim is false (C25_violation_overflow); C25_violation_rate records that a set unit does not get the sample rate of the backend."
  },
  {
   "property": "C26",
   "status": "proved",
   "theorems": [
    "Fundsp.Chan.C26_order",
    "Fundsp.Chan.C26_ring"
   ],
   "note": "The external thingbuf channel is modelled as a bounded FIFO queue."
  },
  {
   "property": "C27",
   "status": "proved",
   "theorems": [
    "Fundsp.Chan.C27_capacity",
    "Fundsp.Chan.C27_chunks",
    "Fundsp.Chan.C27_delivery",
    "Fundsp.Chan.C27_history",
    "Fundsp.Chan.C27_through",
    "Fundsp.Chan.C27_update"
   ],
   "note": "The external thingbuf channel is modelled as a bounded FIFO queue."
  },
  {
   "property": "C28",
   "status": "proved",
   "theorems": [
    "Fundsp.Shared.C28_timer",
    "Fundsp.Shared.C28_timer_samples",
    "Fundsp.Shared.C28_var",
    "Fundsp.Shared.C28_varFn"
   ],
   "note": "Timer time in real arithmetic, rounded by an arbitrary conversion."
  },
  {
   "property": "C29",
   "status": "partial",
   "theorems": [
    "Fundsp.Ids.C29_first_billion",
    "Fundsp.Ids.C29_sequential",
    "Fundsp.Ids.C29_unique_partial",
    "Fundsp.Ids.C29_violation_stall"
   ],
   "note": "False if a call stalls while 2^32 - 2^20 other calls complete (C29_violation_stall). Proved for all other interleavings, for any interleaving of the first 4.29 billion steps and for 2^63 sequential steps; sequentially consistent atomics."
  },
  {
   "property": "C30",
   "status": "proved",
   "theorems": [
    "Fundsp.Math.C30_arcs",
    "Fundsp.Math.C30_sine_ease",
    "Fundsp.Math.C30_smooth3",
    "Fundsp.Math.C30_smooth5",
    "Fundsp.Math.C30_smooth7",
    "Fundsp.Math.C30_smooth9"
   ],
   "note": "Real arithmetic."
  },
  {
   "property": "C31",
   "status": "proved",
   "theorems": [
    "Fundsp.Math.C31_clamp",
    "Fundsp.Math.C31_lerp",
    "Fundsp.Math.C31_lerp11",
    "Fundsp.Math.C31_xerp",
    "Fundsp.Math.C31_xerp11"
   ],
   "note": "Real arithmetic."
  },
  {
   "property": "C32",
   "status": "partial",
   "theorems": [
    "Fundsp.Math.C32_mono_partial",
    "Fundsp.Math.C32_spline",
    "Fundsp.Math.C32_violation_falling"
   ],
   "note": "spline_mono is not monotone on falling data (C32_violation_falling); proved for the cases where its tangent limiter is correct."
  },
  {
   "property": "C33",
   "status": "proved",
   "theorems": [
    "Fundsp.Math.C33_ease_continuous",
    "Fundsp.Math.C33_ease_exact",
    "Fundsp.Math.C33_ease_noise",
    "Fundsp.Math.C33_fractal",
    "Fundsp.Math.C33_fractal_exact",
    "Fundsp.Math.C33_spline_exact",
    "Fundsp.Math.C33_spline_noise",
    "Fundsp.Math.C33_spline_noise_slope"
   ],
   "note": "Real arithmetic."
  },
  {
   "property": "C34",
   "status": "partial",
   "theorems": [
    "Fundsp.Math.C34_crush",
    "Fundsp.Math.C34_shapers",
    "Fundsp.Math.C34_softexp",
    "Fundsp.Math.C34_softmix_partial",
    "Fundsp.Math.C34_softmix_scale",
    "Fundsp.Math.C34_softsign",
    "Fundsp.Math.C34_violation_softmix",
    "Fundsp.Math.C34_violation_softsign_simd"
   ],
   "note": "softmix adds an epsilon that pulls results outside the range of its arguments (C34_violation_softmix) and the SIMD softsign differs from the scalar one for negative hardness (C34_violation_softsign_simd); the remaining bounds are proved."
  },
  {
   "property": "C35",
   "status": "proved",
   "theorems": [
    "Fundsp.Delay.C35_block",
    "Fundsp.Delay.C35_delay",
    "Fundsp.Delay.C35_delay_reset",
    "Fundsp.Delay.C35_rounding",
    "Fundsp.Delay.C35_tick"
   ],
   "note": "Delay and Tick, every buffer length, tick and block processing."
  },
  {
   "property": "C36",
   "status": "proved",
   "theorems": [
    "Fundsp.Delay.C36_block",
    "Fundsp.Delay.C36_clamped",
    "Fundsp.Delay.C36_in_bounds",
    "Fundsp.Delay.C36_real",
    "Fundsp.Delay.C36_value"
   ],
   "note": "Tap/Multitap with arbitrary interpolation arithmetic; clamped range in exact real arithmetic."
  },
  {
   "property": "C37",
   "status": "partial",
   "theorems": [
    "Fundsp.Delay.C37_block_partial",
    "Fundsp.Delay.C37_real",
    "Fundsp.Delay.C37_real_block_partial",
    "Fundsp.Delay.C37_tick_value",
    "Fundsp.Delay.C37_violation"
   ],
   "note": "Full claim is false of the code: block processing reads overwritten samples when the buffer has no SIMD headroom (C37_violation). Proved with that headroom; tick values proved without it."
  },
  {
   "property": "C38",
   "status": "proved",
   "theorems": [
    "Fundsp.Delay.C38_block",
    "Fundsp.Delay.C38_block_single",
    "Fundsp.Delay.C38_feedback",
    "Fundsp.Delay.C38_feedback2",
    "Fundsp.Delay.C38_setup",
    "Fundsp.Delay.C38_unit"
   ],
   "note": ""
  },
  {
   "property": "C39",
   "status": "proved",
   "theorems": [
    "Fundsp.Delay.C39_energy",
    "Fundsp.Delay.C39_involution",
    "Fundsp.Delay.C39_matrix"
   ],
   "note": "Real arithmetic; every power of two size."
  },
  {
   "property": "C40",
   "status": "proved",
   "theorems": [
    "Fundsp.Filter.C40_allnest",
    "Fundsp.Filter.C40_allnest_delay",
    "Fundsp.Filter.C40_allpole",
    "Fundsp.Filter.C40_allpole_delay"
   ],
   "note": "Real arithmetic."
  },
  {
   "property": "C41",
   "status": "proved",
   "theorems": [
    "Fundsp.Filter.C41_afollow_converges",
    "Fundsp.Filter.C41_afollow_halfway",
    "Fundsp.Filter.C41_afollow_monotone",
    "Fundsp.Filter.C41_afollow_range",
    "Fundsp.Filter.C41_afollow_speeds",
    "Fundsp.Filter.C41_first_sample",
    "Fundsp.Filter.C41_follow_const",
    "Fundsp.Filter.C41_follow_range",
    "Fundsp.Filter.C41_halfway",
    "Fundsp.Filter.C41_lowpole_const",
    "Fundsp.Filter.C41_lowpole_cutoff",
    "Fundsp.Filter.C41_lowpole_range",
    "Fundsp.Filter.C41_moving_start",
    "Fundsp.Filter.C41_response_time",
    "Fundsp.Filter.C41_step"
   ],
   "note": "Over the reals (IEEE rounding not modelled). Range bounds for all inputs and horizons, convergence and monotonicity from rest; C41_moving_start shows that follow need not be monotone from a moving start."
  },
  {
   "property": "C42",
   "status": "proved",
   "theorems": [
    "Fundsp.Filter.C42_coefficients",
    "Fundsp.Filter.C42_dcblock_bounded",
    "Fundsp.Filter.C42_dcblock_const",
    "Fundsp.Filter.C42_highpole_bounded",
    "Fundsp.Filter.C42_highpole_const"
   ],
   "note": "Over the reals."
  },
  {
   "property": "C43",
   "status": "proved",
   "theorems": [
    "Fundsp.Filter.C43_block",
    "Fundsp.Filter.C43_convolution",
    "Fundsp.Filter.C43_dc_gain"
   ],
   "note": "Convolution formula for arbitrary uninterpreted arithmetic; DC gain over the reals; block = tick."
  },
  {
   "property": "C44",
   "status": "proved",
   "theorems": [
    "Fundsp.Filter.C44_allpole",
    "Fundsp.Filter.C44_biquad",
    "Fundsp.Filter.C44_dcblock",
    "Fundsp.Filter.C44_delay",
    "Fundsp.Filter.C44_fir",
    "Fundsp.Filter.C44_follow",
    "Fundsp.Filter.C44_highpole",
    "Fundsp.Filter.C44_lowpole",
    "Fundsp.Filter.C44_pinkpass",
    "Fundsp.Filter.C44_svf_allpass",
    "Fundsp.Filter.C44_svf_bandpass",
    "Fundsp.Filter.C44_svf_bell",
    "Fundsp.Filter.C44_svf_cutoff",
    "Fundsp.Filter.C44_svf_highpass",
    "Fundsp.Filter.C44_svf_highshelf",
    "Fundsp.Filter.C44_svf_lowpass",
    "Fundsp.Filter.C44_svf_lowshelf",
    "Fundsp.Filter.C44_svf_notch",
    "Fundsp.Filter.C44_svf_peak",
    "Fundsp.Filter.C44_tick"
   ],
   "note": "Over the reals, from every starting state, as an asymptotic statement; covers lowpole, highpole, dcblock, allpole, follow, pinkpass, tick, delay, fir, stable biquads and all nine SVF modes."
  },
  {
   "property": "C45",
   "status": "partial",
   "theorems": [
    "Fundsp.Route.C45_binop",
    "Fundsp.Route.C45_branch",
    "Fundsp.Route.C45_bus",
    "Fundsp.Route.C45_latency_partial",
    "Fundsp.Route.C45_series_partial",
    "Fundsp.Route.C45_stack",
    "Fundsp.Route.C45_violation"
   ],
   "note": "latency() is proved to be that of the quickest signal path for every expression; series through one channel adds, parallel takes the minimum. C45_violation: a generator without inputs in front of a processor yields None, and Arbitrary routing with latency adds it once per input."
  },
  {
   "property": "C46",
   "status": "proved",
   "theorems": [
    "Fundsp.Dyn.C46_amplitude",
    "Fundsp.Dyn.C46_gain",
    "Fundsp.Dyn.C46_limits",
    "Fundsp.Dyn.C46_peak",
    "Fundsp.Dyn.C46_reduce",
    "Fundsp.Dyn.C46_reset_delay",
    "Fundsp.Dyn.C46_reset_violation",
    "Fundsp.Dyn.C46_transparent"
   ],
   "note": "Over the reals (exact arithmetic), for a limiter made by Limiter::new and any follower coefficients in [0,1]: no panic, exact delay, common gain >= 1, gain bound, exact window maximum in the reduce tree for every length. C46_reset_violation shows that the gain claim does not extend to a limiter that ran and was then reset, which is outside the statement."
  },
  {
   "property": "C47",
   "status": "proved",
   "theorems": [
    "Fundsp.Dyn.C47_block_equals_tick",
    "Fundsp.Dyn.C47_fade",
    "Fundsp.Dyn.C47_output"
   ],
   "note": "Over the reals with exact phase; positive sample duration."
  },
  {
   "property": "C48",
   "status": "proved",
   "theorems": [
    "Fundsp.Dyn.C48_block_equals_tick",
    "Fundsp.Dyn.C48_monitor",
    "Fundsp.Dyn.C48_monitor_exact",
    "Fundsp.Dyn.C48_peak",
    "Fundsp.Dyn.C48_peak_current",
    "Fundsp.Dyn.C48_rms",
    "Fundsp.Dyn.C48_rms_range",
    "Fundsp.Dyn.C48_sample",
    "Fundsp.Dyn.C48_timescale"
   ],
   "note": "Over the reals; level of peak and rms meters in closed form; monitor exact in ticks and blocks including the shared variable."
  },
  {
   "property": "C49",
   "status": "proved",
   "theorems": [
    "Fundsp.Noise.C49_autocorrelation",
    "Fundsp.Noise.C49_balance",
    "Fundsp.Noise.C49_full_period",
    "Fundsp.Noise.C49_never_zero",
    "Fundsp.Noise.C49_new",
    "Fundsp.Noise.C49_node",
    "Fundsp.Noise.C49_period",
    "Fundsp.Noise.C49_reset",
    "Fundsp.Noise.C49_seed_onto",
    "Fundsp.Noise.C49_shift"
   ],
   "note": "All 31 table entries are proved primitive by kernel-checked certificates; u32 state as Nat with truncating shift."
  },
  {
   "property": "C50",
   "status": "proved",
   "theorems": [
    "Fundsp.Noise.C50_block_equals_tick",
    "Fundsp.Noise.C50_exact",
    "Fundsp.Noise.C50_period",
    "Fundsp.Noise.C50_range",
    "Fundsp.Noise.C50_same_seed",
    "Fundsp.Noise.C50_seed",
    "Fundsp.Noise.C50_uniform"
   ],
   "note": "Ticks and blocks with uninterpreted sample arithmetic; range over the reals in place of f32."
  },
  {
   "property": "C51",
   "status": "proved",
   "theorems": [
    "Fundsp.Pan.C51_block_equals_tick",
    "Fundsp.Pan.C51_ends",
    "Fundsp.Pan.C51_equal_power",
    "Fundsp.Pan.C51_mirror",
    "Fundsp.Pan.C51_mixer_cascade",
    "Fundsp.Pan.C51_mixer_linear",
    "Fundsp.Pan.C51_mixer_matrix",
    "Fundsp.Pan.C51_monotone",
    "Fundsp.Pan.C51_panner_fixed",
    "Fundsp.Pan.C51_panner_input",
    "Fundsp.Pan.C51_panner_power",
    "Fundsp.Pan.C51_range"
   ],
   "note": "Real arithmetic in place of f32."
  },
  {
   "property": "C52",
   "status": "proved",
   "theorems": [
    "Fundsp.Osc.C52_block_equals_tick",
    "Fundsp.Osc.C52_continuous",
    "Fundsp.Osc.C52_ideal",
    "Fundsp.Osc.C52_initial",
    "Fundsp.Osc.C52_phase",
    "Fundsp.Osc.C52_pulse_width_needed",
    "Fundsp.Osc.C52_ramp",
    "Fundsp.Osc.C52_range",
    "Fundsp.Osc.C52_sine",
    "Fundsp.Osc.C52_sine_block_equals_tick",
    "Fundsp.Osc.C52_wave"
   ],
   "note": "Real arithmetic in place of f32/f64; in floats the wrap of a tiny negative phase can round to 1. Pulse width input must be in 0..1 (C52_pulse_width_needed shows why)."
  },
  {
   "property": "C53",
   "status": "proved",
   "theorems": [
    "Fundsp.Osc.C53_dsf",
    "Fundsp.Osc.C53_node",
    "Fundsp.Osc.C53_roughness",
    "Fundsp.Osc.C53_stream",
    "Fundsp.Osc.C53_stream_rough",
    "Fundsp.Osc.C53_violation_alias",
    "Fundsp.Osc.C53_violation_doc"
   ],
   "note": "Real arithmetic. The partials are i = 0..=n; the code comment says 0..n (C53_violation_doc), and the last partial always exceeds 22050 Hz for spacing <= 1 (C53_violation_alias)."
  },
  {
   "property": "C54",
   "status": "partial",
   "theorems": [
    "Fundsp.Env.C54_block_equals_tick_in_partial",
    "Fundsp.Env.C54_block_equals_tick_partial",
    "Fundsp.Env.C54_interpolation_in_partial",
    "Fundsp.Env.C54_interpolation_partial",
    "Fundsp.Env.C54_jitter",
    "Fundsp.Env.C54_new",
    "Fundsp.Env.C54_new_in",
    "Fundsp.Env.C54_violation"
   ],
   "note": "Over the reals. Interpolation, jitter range and blocks = ticks proved for intervals of at least 4/3 samples (0.75*interval >= sample duration), for pure functions and for closures with state and inputs. Between 1 and 4/3 samples the claim is false: C54_violation."
  },
  {
   "property": "C55",
   "status": "partial",
   "theorems": [
    "Fundsp.Env.C55_attack",
    "Fundsp.Env.C55_attack_first",
    "Fundsp.Env.C55_block_equals_tick",
    "Fundsp.Env.C55_note",
    "Fundsp.Env.C55_range_partial",
    "Fundsp.Env.C55_release",
    "Fundsp.Env.C55_sustain",
    "Fundsp.Env.C55_violation_closed",
    "Fundsp.Env.C55_violation_reset"
   ],
   "note": "Over the reals, sample rates of 667 Hz and up, release > 0. Range, attack, sustain and release proved for a new node. Zero before the gate first opens is false (C55_violation_closed), and after a reset the range claim is false (C55_violation_reset)."
  },
  {
   "property": "C56",
   "status": "proved",
   "theorems": [
    "Fundsp.Wv.C56_new",
    "Fundsp.Wv.C56_plays",
    "Fundsp.Wv.C56_reset"
   ],
   "note": "For every consistent wave, channel, start, end and loop point: the heard position of every sample is given by an independent formula, reads never leave the wave, reset replays. Ticks only; blocks of the player are the default process (C14)."
  },
  {
   "property": "C57",
   "status": "partial",
   "theorems": [
    "Fundsp.Wv.C57_append",
    "Fundsp.Wv.C57_consistent",
    "Fundsp.Wv.C57_insert_channel",
    "Fundsp.Wv.C57_mix_channel",
    "Fundsp.Wv.C57_push",
    "Fundsp.Wv.C57_push_channel",
    "Fundsp.Wv.C57_remove_channel",
    "Fundsp.Wv.C57_resize",
    "Fundsp.Wv.C57_retain_partial",
    "Fundsp.Wv.C57_violation_empty",
    "Fundsp.Wv.C57_violation_retain"
   ],
   "note": "Consistency under any sequence of edits and the exact sample effect of push/insert/remove channel, mix_channel, resize, append, push and retain, with acceptance conditions. retain panics when the span starts after the end of the wave (C57_violation_retain); append and retain panic without channels (C57_violation_empty). Integer overflow of offsets not modelled."
  },
  {
   "property": "C58",
   "status": "partial",
   "theorems": [
    "Fundsp.Wv.C58_filter",
    "Fundsp.Wv.C58_filter_latency_partial",
    "Fundsp.Wv.C58_render",
    "Fundsp.Wv.C58_render_latency_partial",
    "Fundsp.Wv.C58_violation_rate",
    "Fundsp.Wv.C58_violation_reset"
   ],
   "note": "render and filter are exact for every unit whose blocks equal its ticks; the latency versions drop the latency measured before the sample rate is set (C58_violation_rate) and do not reset the unit (C58_violation_reset). Real-valued durations."
  },
  {
   "property": "C59",
   "status": "proved",
   "theorems": [
    "Fundsp.Wv.C59_amplify",
    "Fundsp.Wv.C59_amplitude",
    "Fundsp.Wv.C59_fade",
    "Fundsp.Wv.C59_fade_in",
    "Fundsp.Wv.C59_fade_out",
    "Fundsp.Wv.C59_normalize"
   ],
   "note": "Real-valued samples. Exact peak, one common positive factor, strictly monotone gains strictly between 0 and 1 inside the fades, everything else untouched."
  },
  {
   "property": "C60",
   "status": "proved",
   "theorems": [
    "Fundsp.Wv.C60_wav16",
    "Fundsp.Wv.C60_wav32"
   ],
   "note": "Byte-level model with an independent RIFF chunk reader; the limits are those of the format fields (file below 4 GB, u16 block size, u32 byte rate; the rate field is the rounded rate). 32-bit samples are bit patterns; 16-bit samples are real numbers before quantization."
  },
  {
   "property": "C61",
   "status": "proved",
   "theorems": [
    "Fundsp.Rsy.C61_identity",
    "Fundsp.Rsy.C61_output",
    "Fundsp.Rsy.C61_reset",
    "Fundsp.Rsy.C61_reset_fresh",
    "Fundsp.Rsy.C61_silence"
   ],
   "note": "Over the reals, with the FFT crate's transforms as the discrete Fourier transform and its inverse (the inverse law is then proved, not assumed). Exact from 7/4 window lengths on, a quarter window earlier than documented. Also proved: the output for arbitrary stateful processing."
  },
  {
   "property": "C62",
   "status": "partial",
   "theorems": [
    "Fundsp.Wt.C62_at",
    "Fundsp.Wt.C62_bandlimited",
    "Fundsp.Wt.C62_hint",
    "Fundsp.Wt.C62_hint_index_partial",
    "Fundsp.Wt.C62_in_bounds",
    "Fundsp.Wt.C62_length",
    "Fundsp.Wt.C62_new",
    "Fundsp.Wt.C62_normalized",
    "Fundsp.Wt.C62_partials",
    "Fundsp.Wt.C62_run",
    "Fundsp.Wt.C62_select",
    "Fundsp.Wt.C62_valid",
    "Fundsp.Wt.C62_violation_hint",
    "Fundsp.Wt.C62_violation_low",
    "Fundsp.Wt.C62_wave_partial"
   ],
   "note": "Over the reals, with the inverse FFT as the inverse DFT. Proved for all table sets of at least three tables with fewer than 8192 partials (minimum pitch above about 2.69 Hz): contents, normalization, bounds, bandlimit, and that the value read does not depend on the hint. Violated parts: the selected table index itself does depend on the hint exactly at the pitch of a table (inaudible, C62_violation_hint); tables for very low pitches index out of bounds (C62_violation_low)."
  },
  {
   "property": "C63",
   "status": "proved",
   "theorems": [
    "Fundsp.Rs.C63_consumes",
    "Fundsp.Rs.C63_reads",
    "Fundsp.Rs.C63_reset",
    "Fundsp.Rs.C63_whole"
   ],
   "note": "Over the reals, for any inner generator; ring contents left from before do not matter. At speed one the source is played from its third sample (an advance, not a delay, contrary to the statement's wording; the offset is fixed). set_sample_rate and ping not modelled."
  },
  {
   "property": "C64",
   "status": "proved",
   "theorems": [
    "Fundsp.Rs.C64_output",
    "Fundsp.Rs.C64_reset",
    "Fundsp.Rs.C64_two"
   ],
   "note": "Over the reals, for arbitrary taps. As coded the taps are applied with the first tap on the oldest sample and the output filter leaves out the newest sample; the theorem states exactly this."
  },
  {
   "property": "C65",
   "status": "proved",
   "theorems": [
    "Fundsp.Filter.C65_bell_gain",
    "Fundsp.Filter.C65_bell_stable",
    "Fundsp.Filter.C65_biquad_dies_out",
    "Fundsp.Filter.C65_butter_cutoff",
    "Fundsp.Filter.C65_butter_dc",
    "Fundsp.Filter.C65_butter_stable",
    "Fundsp.Filter.C65_highpass_gain",
    "Fundsp.Filter.C65_highpass_stable",
    "Fundsp.Filter.C65_lowpass_gain",
    "Fundsp.Filter.C65_lowpass_stable",
    "Fundsp.Filter.C65_moog_bounded",
    "Fundsp.Filter.C65_moog_feedback",
    "Fundsp.Filter.C65_resonator_stable",
    "Fundsp.Filter.C65_svf_dies_out",
    "Fundsp.Filter.C65_svf_energy",
    "Fundsp.Filter.C65_svf_energy_bounded",
    "Fundsp.Filter.C65_svf_stable"
   ],
   "note": "Over the reals."
  },
  {
   "property": "C66",
   "status": "proved",
   "theorems": [
    "Fundsp.Shared.C66_hold"
   ],
   "note": "Real arithmetic; random source arbitrary in [0, 1]."
  },
  {
   "property": "C67",
   "status": "proved",
   "theorems": [
    "Fundsp.Shared.C67_synth",
    "Fundsp.Shared.C67_table"
   ],
   "note": "Real arithmetic."
  },
  {
   "property": "C68",
   "status": "partial",
   "theorems": [
    "Fundsp.Route.C68_response_partial",
    "Fundsp.Route.C68_sound_partial",
    "Fundsp.Route.C68_violation"
   ],
   "note": "Proved for every expression over the graph operators whose leaves are sound. Partial because MultiStack and Reduce hand the whole input frame to their first unit (C68_violation gives the wrong response); they are covered when the unit's route reads only its own inputs."
  },
  {
   "property": "C69",
   "status": "partial",
   "theorems": [
    "Fundsp.Net.C69_settings",
    "Fundsp.Net.C69_settings_partial",
    "Fundsp.Net.C69_violation_lost"
   ],
   "note": "False of the code when a setting and the commit that brings its node are handled together (C69_violation_lost). Proved for nodes the backend already has, in any mixture with commits, and for queues of settings."
  },
  {
   "property": "C70",
   "status": "partial",
   "theorems": [
    "Fundsp.Setting.C70_room_partial",
    "Fundsp.Setting.C70_transparent_partial",
    "Fundsp.Setting.C70_violation"
   ],
   "note": "The code violates the claim: SettingListener never implements set, so settings sent through listen are dropped (C70_violation). Transparency of the listener and the room of the channel are proved for all schedules."
  },
  {
   "property": "C71",
   "status": "partial",
   "theorems": [
    "Fundsp.Seq.C71_edit_partial",
    "Fundsp.Seq.C71_violation"
   ],
   "note": "C71_edit_partial; edits of waiting events into the past are ignored (C71_violation)."
  },
  {
   "property": "C72",
   "status": "partial",
   "theorems": [
    "Fundsp.Shape.C72_adaptive",
    "Fundsp.Shape.C72_block_equals_tick",
    "Fundsp.Shape.C72_crest",
    "Fundsp.Shape.C72_floor_partial",
    "Fundsp.Shape.C72_halfway",
    "Fundsp.Shape.C72_limit",
    "Fundsp.Shape.C72_reset_partial",
    "Fundsp.Shape.C72_shapes",
    "Fundsp.Shape.C72_violation_crush",
    "Fundsp.Shape.C72_violation_floor",
    "Fundsp.Shape.C72_violation_reset"
   ],
   "note": "Real arithmetic. Proved: block equals tick, each documented shape, the adaptive level's halfway time, crest and limit. Violated by the code: block rendering of Crush rounds halves to even and ticks away from zero (C72_violation_crush); the level of an adaptive shape starts at 0 when new and at 1e-3 after reset (C72_violation_reset) and falls below the documented -60 dB floor (C72_violation_floor)."
  },
  {
   "property": "C73",
   "status": "proved",
   "theorems": [
    "Fundsp.Sys.C73_first",
    "Fundsp.Sys.C73_prompt",
    "Fundsp.Sys.C73_regular",
    "Fundsp.Sys.C73_runs",
    "Fundsp.Sys.C73_sum",
    "Fundsp.Sys.C73_transparent"
   ],
   "note": "Real arithmetic for time; f32 accumulation not modelled; sample rate fixed before use."
  },
  {
   "property": "C74",
   "status": "partial",
   "theorems": [
    "Fundsp.Wt.C74_block",
    "Fundsp.Wt.C74_no_panic",
    "Fundsp.Wt.C74_phase",
    "Fundsp.Wt.C74_phase_block",
    "Fundsp.Wt.C74_phase_no_panic",
    "Fundsp.Wt.C74_phase_reset",
    "Fundsp.Wt.C74_process",
    "Fundsp.Wt.C74_pulse",
    "Fundsp.Wt.C74_pulse_block",
    "Fundsp.Wt.C74_pulse_reset",
    "Fundsp.Wt.C74_range",
    "Fundsp.Wt.C74_reset",
    "Fundsp.Wt.C74_violation_block",
    "Fundsp.Wt.C74_violation_reset",
    "Fundsp.Wt.C74_wave"
   ],
   "note": "Over the reals, for any valid table set, any rnd1, any sample rate and any initial phase. Proved for oscillators that have been given their hash, which every combinator does: phase, table reading, range, no panic, blocks of steady frequency equal ticks, reset equals new; also for the phase driven and the pulse oscillator. Violated part: an oscillator used on its own starts at phase zero but resets to a pseudorandom phase (C74_violation_reset). The steadiness condition is needed (C74_violation_block)."
  },
  {
   "property": "C75",
   "status": "proved",
   "theorems": [
    "Fundsp.Osc.C75_block",
    "Fundsp.Osc.C75_dies_out",
    "Fundsp.Osc.C75_energy",
    "Fundsp.Osc.C75_gain",
    "Fundsp.Osc.C75_hash",
    "Fundsp.Osc.C75_no_panic",
    "Fundsp.Osc.C75_panic",
    "Fundsp.Osc.C75_period",
    "Fundsp.Osc.C75_period_energy",
    "Fundsp.Osc.C75_rate",
    "Fundsp.Osc.C75_reset",
    "Fundsp.Osc.C75_stable",
    "Fundsp.Osc.C75_string",
    "Fundsp.Osc.C75_violation_hash",
    "Fundsp.Osc.C75_zero_mean"
   ],
   "note": "Real arithmetic, arbitrary random generator. Frequencies above the sample rate over 2.2 panic (C75_panic); a new hash without reset keeps the damping filter's memory (C75_violation_hash)."
  },
  {
   "property": "C76",
   "status": "partial",
   "theorems": [
    "Fundsp.Reverb.C76_block",
    "Fundsp.Reverb.C76_delays",
    "Fundsp.Reverb.C76_dies_out",
    "Fundsp.Reverb.C76_gain",
    "Fundsp.Reverb.C76_loop",
    "Fundsp.Reverb.C76_lowpole",
    "Fundsp.Reverb.C76_pass",
    "Fundsp.Reverb.C76_reset_partial",
    "Fundsp.Reverb.C76_sample",
    "Fundsp.Reverb.C76_silence",
    "Fundsp.Reverb.C76_stable",
    "Fundsp.Reverb.C76_violation_reset"
   ],
   "note": "Real arithmetic. Stability, decay and silence proved for every non-amplifying loop filter; reset leaves the input diffusers (C76_violation_reset)."
  },
  {
   "property": "C77",
   "status": "partial",
   "theorems": [
    "Fundsp.Filter.C77_dirty",
    "Fundsp.Filter.C77_dirty_bounded",
    "Fundsp.Filter.C77_dirty_linear",
    "Fundsp.Filter.C77_feedback",
    "Fundsp.Filter.C77_feedback_bounded",
    "Fundsp.Filter.C77_feedback_linear",
    "Fundsp.Filter.C77_fixed_dirty",
    "Fundsp.Filter.C77_fixed_dirty_linear",
    "Fundsp.Filter.C77_fixed_feedback",
    "Fundsp.Filter.C77_fixed_feedback_linear",
    "Fundsp.Filter.C77_reset_dirty",
    "Fundsp.Filter.C77_reset_feedback",
    "Fundsp.Filter.C77_reset_fixed",
    "Fundsp.Filter.C77_violation_sample_rate"
   ],
   "note": "Real arithmetic for the stability parts. The sample rate is not passed on to the shape (C77_violation_sample_rate); everything else of the claim is proved."
  },
  {
   "property": "C78",
   "status": "proved",
   "theorems": [
    "Fundsp.Filter.C78_independent",
    "Fundsp.Filter.C78_reset",
    "Fundsp.Filter.C78_set"
   ],
   "note": "Lanes are modelled as independent scalar operations."
  },
  {
   "property": "C79",
   "status": "partial",
   "theorems": [
    "Fundsp.Filter.C79_bounded",
    "Fundsp.Filter.C79_bounded_inputs",
    "Fundsp.Filter.C79_inputs",
    "Fundsp.Filter.C79_reset",
    "Fundsp.Filter.C79_reset_inputs",
    "Fundsp.Filter.C79_rest",
    "Fundsp.Filter.C79_settings",
    "Fundsp.Filter.C79_settles",
    "Fundsp.Filter.C79_violation_cutoff",
    "Fundsp.Filter.C79_zero_resonance"
   ],
   "note": "Real arithmetic. Bounded for any resonance, settles for all resonances in [0, 1) (C79_settles). Partial only because at cutoff = sample rate/6 the feedback gain divides by zero (C79_violation_cutoff)."
  },
  {
   "property": "C80",
   "status": "partial",
   "theorems": [
    "Fundsp.Gran.C80_block_partial",
    "Fundsp.Gran.C80_block_steady_partial",
    "Fundsp.Gran.C80_chain",
    "Fundsp.Gran.C80_generator",
    "Fundsp.Gran.C80_grains",
    "Fundsp.Gran.C80_hash",
    "Fundsp.Gran.C80_hash_reset",
    "Fundsp.Gran.C80_on_time",
    "Fundsp.Gran.C80_panic",
    "Fundsp.Gran.C80_power",
    "Fundsp.Gran.C80_replay",
    "Fundsp.Gran.C80_reset",
    "Fundsp.Gran.C80_rounds",
    "Fundsp.Gran.C80_sound",
    "Fundsp.Gran.C80_total",
    "Fundsp.Gran.C80_violation_block",
    "Fundsp.Gran.C80_violation_endless"
   ],
   "note": "Over the reals, with arbitrary texture, generator and random number generator. Chains, scheduling on time, the calls of the generator, sound as the sum of all grains with their fades (for ticks), mixing at constant power, totality, reset proved in full. Blocks spawn the same grains as ticks for one voice, and up to random phases without jitter; otherwise violated, see C80_violation_block."
  },
  {
   "property": "C81",
   "status": "partial",
   "theorems": [
    "Fundsp.Filter.C81_blend_partial",
    "Fundsp.Filter.C81_block",
    "Fundsp.Filter.C81_peak",
    "Fundsp.Filter.C81_reset",
    "Fundsp.Filter.C81_response_partial",
    "Fundsp.Filter.C81_violation_ends",
    "Fundsp.Filter.C81_violation_response"
   ],
   "note": "Real arithmetic. The exact blend, blocks, reset and response for a unit incoming response are proved; the documented lowpass/highpass ends and the reported response in a chain fail (C81_violation_ends, C81_violation_response)."
  },
  {
   "property": "C82",
   "status": "partial",
   "theorems": [
    "Fundsp.Filter.C82_block",
    "Fundsp.Filter.C82_bounded",
    "Fundsp.Filter.C82_constant",
    "Fundsp.Filter.C82_energy",
    "Fundsp.Filter.C82_fixed_output",
    "Fundsp.Filter.C82_fixed_partial",
    "Fundsp.Filter.C82_fixed_reset",
    "Fundsp.Filter.C82_immediate",
    "Fundsp.Filter.C82_output",
    "Fundsp.Filter.C82_reset",
    "Fundsp.Filter.C82_reset_period",
    "Fundsp.Filter.C82_response",
    "Fundsp.Filter.C82_settings",
    "Fundsp.Filter.C82_violation_gain",
    "Fundsp.Filter.C82_violation_reset"
   ],
   "note": "Real arithmetic. Reset with subsampling and the lone gain setter fail (C82_violation_reset, C82_violation_gain); what a reset does with any period is C82_reset_period; everything else proved."
  },
  {
   "property": "C83",
   "status": "proved",
   "theorems": [
    "Fundsp.Effect.C83_block",
    "Fundsp.Effect.C83_decay",
    "Fundsp.Effect.C83_dies_out",
    "Fundsp.Effect.C83_four_block",
    "Fundsp.Effect.C83_four_dies_out",
    "Fundsp.Effect.C83_four_network",
    "Fundsp.Effect.C83_four_peak",
    "Fundsp.Effect.C83_four_reset",
    "Fundsp.Effect.C83_four_stable",
    "Fundsp.Effect.C83_gain",
    "Fundsp.Effect.C83_network",
    "Fundsp.Effect.C83_onset",
    "Fundsp.Effect.C83_peak",
    "Fundsp.Effect.C83_reset",
    "Fundsp.Effect.C83_rt60",
    "Fundsp.Effect.C83_stable"
   ],
   "note": "over the reals; fdn with delay and three-tap FIR lines, reverb_stereo and reverb4_stereo_delays: loop equation, energy gain, peak, decay per pass, silence tends to zero, onset, block equals tick, reset. The delay tables and weights are those of the code; the bound gives -60 dB after time/(0.003 room_size) passes of the longest line, longer than the documented (approximate) time"
  },
  {
   "property": "C84",
   "status": "proved",
   "theorems": [
    "Fundsp.Effect.C84_chorus",
    "Fundsp.Effect.C84_chorus_block",
    "Fundsp.Effect.C84_chorus_bounded",
    "Fundsp.Effect.C84_chorus_reset",
    "Fundsp.Effect.C84_chorus_silent",
    "Fundsp.Effect.C84_flanger",
    "Fundsp.Effect.C84_flanger_block",
    "Fundsp.Effect.C84_flanger_bounded",
    "Fundsp.Effect.C84_flanger_dies_out",
    "Fundsp.Effect.C84_flanger_reset"
   ],
   "note": "over the reals; the modulating oscillator is an arbitrary node without inputs (for blocks of the chorus and for reset it must itself be block-consistent and reset properly)"
  },
  {
   "property": "C85",
   "status": "proved",
   "theorems": [
    "Fundsp.Effect.C85_block",
    "Fundsp.Effect.C85_dies_out",
    "Fundsp.Effect.C85_phaser",
    "Fundsp.Effect.C85_reset",
    "Fundsp.Effect.C85_stable"
   ],
   "note": "over the reals; equation for arbitrary modulation, stability for resting modulation as stated (a moving modulation does not preserve energy); oscillator arbitrary"
  },
  {
   "property": "C86",
   "status": "partial",
   "theorems": [
    "Fundsp.Osc.C86_block_equals_tick",
    "Fundsp.Osc.C86_hold",
    "Fundsp.Osc.C86_lorenz",
    "Fundsp.Osc.C86_lorenz_bounded_partial",
    "Fundsp.Osc.C86_ratio",
    "Fundsp.Osc.C86_reset",
    "Fundsp.Osc.C86_rossler",
    "Fundsp.Osc.C86_start",
    "Fundsp.Osc.C86_violation_diverges"
   ],
   "note": "Real arithmetic. Everything but boundedness is proved in full. Bounded: the Lorenz oscillator for frequencies up to 1/250 of the sample rate (C86_lorenz_bounded_partial). The claim is false of the code for the R\u00f6ssler oscillator: C86_violation_diverges."
  },
  {
   "property": "C87",
   "status": "proved",
   "theorems": [
    "Fundsp.Effect.C87_block",
    "Fundsp.Effect.C87_dies_out",
    "Fundsp.Effect.C87_gain",
    "Fundsp.Effect.C87_network",
    "Fundsp.Effect.C87_onset",
    "Fundsp.Effect.C87_reset",
    "Fundsp.Effect.C87_stable"
   ],
   "note": "Over the reals. Energy and dying out for passive loop filters, |speed| at most 250 and |speed| times time at most 100 s; equations, onset and blocks for every loop filter."
  },
  {
   "property": "C88",
   "status": "partial",
   "theorems": [
    "Fundsp.Net.C88_commit",
    "Fundsp.Net.C88_last",
    "Fundsp.Net.C88_op",
    "Fundsp.Net.C88_rates_partial",
    "Fundsp.Net.C88_set_rate",
    "Fundsp.Net.C88_threads",
    "Fundsp.Net.C88_violation_backend",
    "Fundsp.Net.C88_violation_fade",
    "Fundsp.Net.C88_violation_neg",
    "Fundsp.Net.C88_violation_operator",
    "Fundsp.Seq.C88_seq_rates",
    "Fundsp.Seq.C88_seq_refines",
    "Fundsp.Seq.C88_seq_refines_forgetful",
    "Fundsp.Seq.C88_seq_windows",
    "Fundsp.Seq.C88_violation_sequencer",
    "Fundsp.Slot.C88_slot_partial",
    "Fundsp.Slot.C88_slot_set_rate",
    "Fundsp.Slot.C88_violation_slot"
   ],
   "note": "proved for nets whose rate is set while no crossfade is pending, operators on nets of equal rate, backends whose rate is set in the frontend, sequencers, slots given units at their rate; the code violates the claim otherwise (C88_violation_fade, _operator, _neg, _backend, _sequencer, _slot)"
  },
  {
   "property": "C89",
   "status": "proved",
   "theorems": [
    "Fundsp.Math.C89_a_weight",
    "Fundsp.Math.C89_a_weight_peak",
    "Fundsp.Math.C89_bpm",
    "Fundsp.Math.C89_decibels",
    "Fundsp.Math.C89_dissonance",
    "Fundsp.Math.C89_dissonance_max",
    "Fundsp.Math.C89_dissonance_peak",
    "Fundsp.Math.C89_m_weight",
    "Fundsp.Math.C89_midi",
    "Fundsp.Math.C89_rnd1",
    "Fundsp.Math.C89_semitones",
    "Fundsp.Math.C89_sines",
    "Fundsp.Math.C89_sines_rate",
    "Fundsp.Math.C89_square",
    "Fundsp.Math.C89_triangle",
    "Fundsp.Math.C89_waves"
   ],
   "note": "over the reals; rounding not modelled"
  },
  {
   "property": "C90",
   "status": "partial",
   "theorems": [
    "Fundsp.Param.C90_afollow",
    "Fundsp.Param.C90_allnest",
    "Fundsp.Param.C90_allnest_input",
    "Fundsp.Param.C90_allpole",
    "Fundsp.Param.C90_allpole_input",
    "Fundsp.Param.C90_biquad",
    "Fundsp.Param.C90_butterpass",
    "Fundsp.Param.C90_butterpass_input",
    "Fundsp.Param.C90_constant",
    "Fundsp.Param.C90_constant_input_biquad",
    "Fundsp.Param.C90_constant_input_first",
    "Fundsp.Param.C90_constant_input_pan",
    "Fundsp.Param.C90_constant_input_resonant",
    "Fundsp.Param.C90_dcblock",
    "Fundsp.Param.C90_dsf_input",
    "Fundsp.Param.C90_dsf_new",
    "Fundsp.Param.C90_follow",
    "Fundsp.Param.C90_highpole",
    "Fundsp.Param.C90_highpole_input",
    "Fundsp.Param.C90_lowpole",
    "Fundsp.Param.C90_lowpole_input",
    "Fundsp.Param.C90_moog",
    "Fundsp.Param.C90_moog_input",
    "Fundsp.Param.C90_pan",
    "Fundsp.Param.C90_pan_input",
    "Fundsp.Param.C90_resonator_input",
    "Fundsp.Param.C90_resonator_partial",
    "Fundsp.Param.C90_rez",
    "Fundsp.Param.C90_rez_input",
    "Fundsp.Param.C90_shorthand_append",
    "Fundsp.Param.C90_shorthand_constant",
    "Fundsp.Param.C90_violation_resonator"
   ],
   "note": "Numbers are real. Proved for lowpole, DC blocker, highpole, allpole, biquad, Butterworth, Moog, resonant two-pole, panner, followers, constant, nested allpass, DSF oscillator and the shorthands. Missing: the resonator, whose documented setting does nothing (C90_violation_resonator); its input form and its constructor are covered."
  },
  {
   "property": "C91",
   "status": "proved",
   "theorems": [
    "Fundsp.Expr.C91_branch",
    "Fundsp.Expr.C91_bus",
    "Fundsp.Expr.C91_filter",
    "Fundsp.Expr.C91_fractional",
    "Fundsp.Expr.C91_generators",
    "Fundsp.Expr.C91_get_mono",
    "Fundsp.Expr.C91_get_stereo",
    "Fundsp.Expr.C91_neg",
    "Fundsp.Expr.C91_opcode",
    "Fundsp.Expr.C91_pipe",
    "Fundsp.Expr.C91_scalar",
    "Fundsp.Expr.C91_scalar_node",
    "Fundsp.Expr.C91_stack",
    "Fundsp.Expr.C91_sum"
   ],
   "note": "Operators with constants, generated groups and sample access, for all nodes, states, sizes and signals. Sums over groups assume a commutative monoid (exact arithmetic); everything else holds for any sample type."
  },
  {
   "property": "C92",
   "status": "partial",
   "theorems": [
    "Fundsp.Phase.C92_deferred",
    "Fundsp.Phase.C92_deferred_hz_partial",
    "Fundsp.Phase.C92_deterministic",
    "Fundsp.Phase.C92_exact",
    "Fundsp.Phase.C92_noise_exact",
    "Fundsp.Phase.C92_phase",
    "Fundsp.Phase.C92_phase_hz",
    "Fundsp.Phase.C92_seed",
    "Fundsp.Phase.C92_sine_hz",
    "Fundsp.Phase.C92_start",
    "Fundsp.Phase.C92_unaddressed",
    "Fundsp.Phase.C92_violation_hz"
   ],
   "note": "the documented later change of the phase of sine_hz through an unaddressed setting is ignored (C92_violation_hz); everything else holds, over the reals"
  },
  {
   "property": "C93",
   "status": "partial",
   "theorems": [
    "Fundsp.Fl.C93_advances_44100_partial",
    "Fundsp.Fl.C93_advances_f32_partial",
    "Fundsp.Fl.C93_advances_f64",
    "Fundsp.Fl.C93_clocks",
    "Fundsp.Fl.C93_error_f32_partial",
    "Fundsp.Fl.C93_exact",
    "Fundsp.Fl.C93_fade_partial",
    "Fundsp.Fl.C93_rounding",
    "Fundsp.Fl.C93_timer",
    "Fundsp.Fl.C93_timer_blocks",
    "Fundsp.Fl.C93_violation_envelope",
    "Fundsp.Fl.C93_violation_fade",
    "Fundsp.Fl.C93_violation_system"
   ],
   "note": "Rounding modelled (nearest even, unbounded exponent). Proved for double precision and, up to explicit limits, for single precision; fails beyond (findings 49, 50)."
  },
  {
   "property": "C94",
   "status": "partial",
   "theorems": [
    "Fundsp.Fl.C94_lerp_ends",
    "Fundsp.Fl.C94_noise",
    "Fundsp.Fl.C94_phase_one",
    "Fundsp.Fl.C94_phase_range",
    "Fundsp.Fl.C94_runs_partial",
    "Fundsp.Fl.C94_steps",
    "Fundsp.Fl.C94_violation_frequency",
    "Fundsp.Fl.C94_violation_lerp",
    "Fundsp.Fl.C94_violation_stuck",
    "Fundsp.Fl.C94_wav16",
    "Fundsp.Fl.C94_wav16_odd"
   ],
   "note": "Rounding modelled (nearest even, unbounded exponent). Ranges of phases, noise and 16-bit samples and end points of interpolation proved; low frequencies and interior of lerp fail in single precision (findings 51, 52)."
  },
  {
   "property": "C95",
   "status": "partial",
   "theorems": [
    "Fundsp.Wv.C95_decode_error",
    "Fundsp.Wv.C95_load",
    "Fundsp.Wv.C95_other_errors",
    "Fundsp.Wv.C95_other_tracks",
    "Fundsp.Wv.C95_violation_format",
    "Fundsp.Wv.C95_violation_track",
    "Fundsp.Wv.C95_violation_truncated"
   ],
   "note": "Reader and decoder of Symphonia are arbitrary. Proved for tracks whose format does not change; a missing track, a broken file and a change of format are not reported as errors (findings 53-55)."
  },
  {
   "property": "C96",
   "status": "partial",
   "theorems": [
    "Fundsp.Fl.C96_accuracy",
    "Fundsp.Fl.C96_block",
    "Fundsp.Fl.C96_split_join",
    "Fundsp.Fl.C96_violation_join",
    "Fundsp.Fl.C96_violation_split_join"
   ],
   "note": "Rounding modelled. Bit for bit agreement proved for powers of two, error bounds for any number of channels; agreement fails for three channels (finding 56)."
  },
  {
   "property": "C97",
   "status": "partial",
   "theorems": [
    "Fundsp.Equiv.C97_bus_partial",
    "Fundsp.Equiv.C97_congruence",
    "Fundsp.Equiv.C97_equivalence",
    "Fundsp.Equiv.C97_table",
    "Fundsp.Equiv.C97_violation_bus"
   ],
   "note": "the first pair of the table starts from different phases (C97_violation_bus); all others are proved, and the first for equal starting states"
  },
  {
   "property": "C98",
   "status": "partial",
   "theorems": [
    "Fundsp.Equalizer.C98_band",
    "Fundsp.Equalizer.C98_control_partial",
    "Fundsp.Equalizer.C98_example",
    "Fundsp.Equalizer.C98_flat",
    "Fundsp.Equalizer.C98_gain",
    "Fundsp.Equalizer.C98_recipe",
    "Fundsp.Equalizer.C98_reported_partial",
    "Fundsp.Equalizer.C98_response",
    "Fundsp.Equalizer.C98_setting",
    "Fundsp.Equalizer.C98_violation_gain"
   ],
   "note": "Everything holds except that set_gain alone does not reach the sound until another parameter is set; the reported response then differs from the actual one (C98_violation_gain)."
  },
  {
   "property": "C99",
   "status": "partial",
   "theorems": [
    "Fundsp.Filter.C99_example",
    "Fundsp.Filter.C99_safe_partial",
    "Fundsp.Filter.C99_violation_biquad",
    "Fundsp.Filter.C99_violation_butter",
    "Fundsp.Filter.C99_violation_svf"
   ],
   "note": "Holds for the one-pole lowpass, the resonator and the Moog filter; fails for state variable filters, Butterworth and biquad lowpass and highpass (C99_violation_*)."
  },
  {
   "property": "C100",
   "status": "partial",
   "theorems": [
    "Fundsp.Sound.C100_bassdrum",
    "Fundsp.Sound.C100_cutoffs_partial",
    "Fundsp.Sound.C100_pebbles_partial",
    "Fundsp.Sound.C100_pebbles_pull",
    "Fundsp.Sound.C100_pebbles_start",
    "Fundsp.Sound.C100_risset",
    "Fundsp.Sound.C100_risset_control",
    "Fundsp.Sound.C100_violation_pebbles_reset"
   ],
   "note": "proved for the bass drum, the glissando, the filter sweeps above 40 kHz and the frequencies of the pebbles; false for restarting the pebbles with reset (C100_violation_pebbles_reset) and for the filter sweeps at low sample rates (C99_example)"
  },
  {
   "property": "C101",
   "status": "proved",
   "theorems": [
    "Fundsp.Gen.C101_effect",
    "Fundsp.Gen.C101_grain",
    "Fundsp.Gen.C101_level",
    "Fundsp.Gen.C101_lfo",
    "Fundsp.Gen.C101_pitch",
    "Fundsp.Gen.C101_total"
   ],
   "note": "All branches of the generators, over the reals."
  },
  {
   "property": "C102",
   "status": "partial",
   "theorems": [
    "Fundsp.Rs.C102_constant_partial",
    "Fundsp.Rs.C102_delay",
    "Fundsp.Rs.C102_pass",
    "Fundsp.Rs.C102_violation"
   ],
   "note": "The oversampled wire is a fixed 43 tap filter for any half band filter (C102_pass), inner delays of 2 d samples become d samples (C102_delay), and constants pass with a loss of a thousandth (C102_constant_partial). The reported latency and response are not those of the sound (C102_violation)."
  },
  {
   "property": "C103",
   "status": "partial",
   "theorems": [
    "Fundsp.Net.C103_exact",
    "Fundsp.Net.C103_latency",
    "Fundsp.Net.C103_response_partial",
    "Fundsp.Net.C103_sound_partial",
    "Fundsp.Net.C103_violation"
   ],
   "note": "The response is that of the sound, and the latency that of the quickest path, for every acyclic net; false while a crossfade is under way (C103_violation)."
  },
  {
   "property": "C104",
   "status": "partial",
   "theorems": [
    "Fundsp.Route.C104_afollow",
    "Fundsp.Route.C104_allpole",
    "Fundsp.Route.C104_allpole_input_partial",
    "Fundsp.Route.C104_biquad",
    "Fundsp.Route.C104_butterpass",
    "Fundsp.Route.C104_butterpass_input_partial",
    "Fundsp.Route.C104_constant",
    "Fundsp.Route.C104_dcblock",
    "Fundsp.Route.C104_declick",
    "Fundsp.Route.C104_follow",
    "Fundsp.Route.C104_highpole",
    "Fundsp.Route.C104_highpole_input_partial",
    "Fundsp.Route.C104_limiter_partial",
    "Fundsp.Route.C104_lowpole",
    "Fundsp.Route.C104_lowpole_input_partial",
    "Fundsp.Route.C104_meter",
    "Fundsp.Route.C104_mixer",
    "Fundsp.Route.C104_monitor",
    "Fundsp.Route.C104_pan",
    "Fundsp.Route.C104_panner_partial",
    "Fundsp.Route.C104_resonator",
    "Fundsp.Route.C104_resonator_input_partial",
    "Fundsp.Route.C104_svf",
    "Fundsp.Route.C104_svf_input_partial",
    "Fundsp.Route.C104_violation_fresh",
    "Fundsp.Route.C104_violation_limiter",
    "Fundsp.Route.C104_violation_panner"
   ],
   "note": "True of the fixed units after any history of settings and rates, and of units with parameter inputs once a sample has been played; false before that (C104_violation_fresh, C104_violation_panner) and of the phase of the limiter (C104_violation_limiter)."
  },
  {
   "property": "C105",
   "status": "partial",
   "theorems": [
    "Fundsp.Rate.C105_afollow",
    "Fundsp.Rate.C105_butterpass",
    "Fundsp.Rate.C105_dcblock",
    "Fundsp.Rate.C105_fixed_partial",
    "Fundsp.Rate.C105_follow",
    "Fundsp.Rate.C105_highpole",
    "Fundsp.Rate.C105_lowpole",
    "Fundsp.Rate.C105_parts",
    "Fundsp.Rate.C105_ramp",
    "Fundsp.Rate.C105_resonator",
    "Fundsp.Rate.C105_rez",
    "Fundsp.Rate.C105_svf",
    "Fundsp.Rate.C105_unchanged_partial",
    "Fundsp.Rate.C105_violation_gain",
    "Fundsp.Rate.C105_violation_limiter"
   ],
   "note": "Proved for all expressions over units that keep the contract (C105_parts, C105_unchanged_partial) and for the filters, followers and ramp named; a running limiter is emptied by its own rate (C105_violation_limiter) and a fixed filter after set_gain changes (C105_violation_gain). Oscillators other than ramp and delays are not treated as leaves."
  },
  {
   "property": "C106",
   "status": "proved",
   "theorems": [
    "Fundsp.Wt.C106_hammond",
    "Fundsp.Wt.C106_no_overflow",
    "Fundsp.Wt.C106_organ",
    "Fundsp.Wt.C106_saw",
    "Fundsp.Wt.C106_soft_saw",
    "Fundsp.Wt.C106_square",
    "Fundsp.Wt.C106_triangle"
   ],
   "note": "Equations for every partial of every table against integrals over one cycle; exact reals, the tables are f32."
  },
  {
   "property": "C107",
   "status": "partial",
   "theorems": [
    "Fundsp.Wt.C107_partial",
    "Fundsp.Wt.C107_violation"
   ],
   "note": "The code gets the phase of each partial wrong by a quarter cycle (C107_violation); amplitudes and proportions are right."
  },
  {
   "property": "C108",
   "status": "proved",
   "theorems": [
    "Fundsp.Rsy.C108_frequency",
    "Fundsp.Rsy.C108_spacing",
    "Fundsp.Rsy.C108_told"
   ],
   "note": "Exact reals; the FFT is the DFT (trusted)."
  },
  {
   "property": "C109",
   "status": "partial",
   "theorems": [
    "Fundsp.Filter.C109_bandwidth",
    "Fundsp.Filter.C109_center",
    "Fundsp.Filter.C109_noise_partial",
    "Fundsp.Filter.C109_q_partial",
    "Fundsp.Filter.C109_violation_bandwidth",
    "Fundsp.Filter.C109_violation_order",
    "Fundsp.Filter.C109_violation_tones"
   ],
   "note": "Exact width of the band, its relation to the Q, the center and the constant gain for noise are proved; the bandwidth of the hacker modules and the gain for tones are violated (DESIGN.md rows 68, 69)."
  },
  {
   "property": "C110",
   "status": "partial",
   "theorems": [
    "Fundsp.Filter.C110_allpass",
    "Fundsp.Filter.C110_allpole",
    "Fundsp.Filter.C110_bandpass",
    "Fundsp.Filter.C110_bandpass_power",
    "Fundsp.Filter.C110_bell",
    "Fundsp.Filter.C110_butter",
    "Fundsp.Filter.C110_dcblock_partial",
    "Fundsp.Filter.C110_follow",
    "Fundsp.Filter.C110_highpass",
    "Fundsp.Filter.C110_highpass_power",
    "Fundsp.Filter.C110_highpass_rises",
    "Fundsp.Filter.C110_highpole_partial",
    "Fundsp.Filter.C110_highshelf",
    "Fundsp.Filter.C110_highshelf_power",
    "Fundsp.Filter.C110_lowpass",
    "Fundsp.Filter.C110_lowpass_falls",
    "Fundsp.Filter.C110_lowpass_power",
    "Fundsp.Filter.C110_lowpole_partial",
    "Fundsp.Filter.C110_lowshelf",
    "Fundsp.Filter.C110_lowshelf_power",
    "Fundsp.Filter.C110_notch",
    "Fundsp.Filter.C110_peak",
    "Fundsp.Filter.C110_violation_dcblock",
    "Fundsp.Filter.C110_violation_highpole",
    "Fundsp.Filter.C110_violation_lowpole"
   ],
   "note": "Exact gains of all state variable modes, Butterworth, first order filters and follow are proved, with monotonicity; highpole does not pass high tones, lowpole does not stop them and dcblock is unstable for high cutoffs (DESIGN.md rows 70 to 72)."
  },
  {
   "property": "C111",
   "status": "partial",
   "theorems": [
    "Fundsp.Dyn.C111_attack",
    "Fundsp.Dyn.C111_ceiling_partial",
    "Fundsp.Dyn.C111_first",
    "Fundsp.Dyn.C111_release",
    "Fundsp.Dyn.C111_violation_first",
    "Fundsp.Dyn.C111_violation_short"
   ],
   "note": "The first frame that comes out, and attacks of less than 20 or releases of less than 40 samples, are not kept within the ceiling: C111_violation_first, C111_violation_short. All else is proved, for attacks up to 1000000 samples."
  },
  {
   "property": "C112",
   "status": "partial",
   "theorems": [
    "Fundsp.Effect.C112_lines",
    "Fundsp.Effect.C112_time_partial",
    "Fundsp.Effect.C112_violation"
   ],
   "note": "The energy falls by 60 dB, but not in the given time: C112_violation. C112_time_partial has the time after which it has fallen, 2.77 times the given one and a round."
  },
  {
   "property": "C113",
   "status": "partial",
   "theorems": [
    "Fundsp.Mem.C113_allocate_partial",
    "Fundsp.Mem.C113_feedback2",
    "Fundsp.Mem.C113_limiter",
    "Fundsp.Mem.C113_listen",
    "Fundsp.Mem.C113_many",
    "Fundsp.Mem.C113_needed",
    "Fundsp.Mem.C113_needed_net",
    "Fundsp.Mem.C113_needed_pluck",
    "Fundsp.Mem.C113_one",
    "Fundsp.Mem.C113_pluck",
    "Fundsp.Mem.C113_two",
    "Fundsp.Mem.C113_violation_feedback2",
    "Fundsp.Mem.C113_violation_listen",
    "Fundsp.Mem.C113_violation_rate",
    "Fundsp.Mem.C113_violation_used",
    "Fundsp.Seq.C113_sequencer_next",
    "Fundsp.Seq.C113_sequencer_partial",
    "Fundsp.Seq.C113_violation_edits"
   ],
   "note": "Proved for all units but limiters that were played before or had their rate raised, the second node of feedback2, and listeners, which are shown to ask for memory; edits of ended sequencer events pile up."
  },
  {
   "property": "C114",
   "status": "partial",
   "theorems": [
    "Fundsp.Mail.C114_net_few",
    "Fundsp.Mail.C114_net_freed",
    "Fundsp.Mail.C114_net_kept",
    "Fundsp.Mail.C114_net_partial",
    "Fundsp.Mail.C114_net_plain",
    "Fundsp.Mail.C114_net_same_handle",
    "Fundsp.Mail.C114_net_same_play",
    "Fundsp.Mail.C114_seq_few",
    "Fundsp.Mail.C114_seq_freed",
    "Fundsp.Mail.C114_seq_kept",
    "Fundsp.Mail.C114_seq_partial",
    "Fundsp.Mail.C114_seq_same",
    "Fundsp.Mail.C114_slot_freed",
    "Fundsp.Mail.C114_slot_kept",
    "Fundsp.Mail.C114_slot_partial",
    "Fundsp.Mail.C114_slot_same",
    "Fundsp.Mail.C114_violation_net",
    "Fundsp.Mail.C114_violation_net_dropped",
    "Fundsp.Mail.C114_violation_seq",
    "Fundsp.Mail.C114_violation_seq_dropped",
    "Fundsp.Mail.C114_violation_seq_played",
    "Fundsp.Mail.C114_violation_slot",
    "Fundsp.Mail.C114_violation_slot_dropped"
   ],
   "note": "Slot, sequencer and net backends: the sound is that of the model without return channel, every unit handed over is in exactly one place, and nothing is freed by the backend as long as the return channel has room (units set per backend call, events pushed, crossfades due per commit; any number of commits without crossfades). Missing because false: the channel is emptied only by frontend calls, and a full channel makes the backend free units (C114_violation_*). Not modelled: a Net without backend, which has no channel."
  },
  {
   "property": "C115",
   "status": "partial",
   "theorems": [
    "Fundsp.Net.C115_clone_silent",
    "Fundsp.Net.C115_originals_partial",
    "Fundsp.Net.C115_stays_later_partial",
    "Fundsp.Net.C115_stays_partial",
    "Fundsp.Net.C115_violation_fade",
    "Fundsp.Net.C115_violation_rate",
    "Fundsp.Net.C115_violation_reset",
    "Fundsp.Net.C115_violation_twice"
   ],
   "note": "Violated when two commits are read together, after a reset or rate change at the frontend, and for a fade under way when the backend is started; proved for nodes in the net when a commit is read in step, and for all units if each commit is read before the next."
  },
  {
   "property": "C116",
   "status": "partial",
   "theorems": [
    "Fundsp.Net.C116_added",
    "Fundsp.Net.C116_blocks_partial",
    "Fundsp.Net.C116_rising_made",
    "Fundsp.Net.C116_smooth_bounded_partial",
    "Fundsp.Net.C116_ticks",
    "Fundsp.Net.C116_violation_loud",
    "Fundsp.Net.C116_violation_unbounded"
   ],
   "note": "Proved for ticks, and in blocks for the first eighth of each block and after the end; violated for the other samples of blocks, where the level is not bounded by that of the unit."
  },
  {
   "property": "C117",
   "status": "partial",
   "theorems": [
    "Fundsp.Net.C117_backend",
    "Fundsp.Net.C117_calls",
    "Fundsp.Net.C117_continues_partial",
    "Fundsp.Net.C117_swaps",
    "Fundsp.Net.C117_violation",
    "Fundsp.Net.C117_violation_repeats"
   ],
   "note": "The calls themselves leave other nodes exactly as they are. Without a backend, units that do not depend on their hash go on from the state they were in, and all units do when other nodes are replaced or crossfaded; with a backend all units do. Missing because the code violates it: without a backend, changes of the wiring restart oscillators and noises."
  },
  {
   "property": "C118",
   "status": "partial",
   "theorems": [
    "Fundsp.Rate.C118_limiter_new",
    "Fundsp.Rate.C118_limiter_played",
    "Fundsp.Rate.Keep.C118_declick",
    "Fundsp.Rate.Keep.C118_envelope",
    "Fundsp.Rate.Keep.C118_envelope_partial",
    "Fundsp.Rate.Keep.C118_limiter",
    "Fundsp.Rate.Keep.C118_ramp",
    "Fundsp.Rate.Keep.C118_sequencer",
    "Fundsp.Rate.Keep.C118_sequencer_forgetful",
    "Fundsp.Rate.Keep.C118_sine",
    "Fundsp.Rate.Keep.C118_violation_envelope"
   ],
   "note": "Exact for sine, ramp, fade-in, limiters, sequencers, and envelopes at any rates; envelopes keep a stale slope until the segment ends, with a witness above 1.75 for a function within 0...1."
  },
  {
   "property": "C119",
   "status": "partial",
   "theorems": [
    "Fundsp.Net.C119_net_partial",
    "Fundsp.Net.C119_net_true_partial",
    "Fundsp.Route.C119_constant_partial",
    "Fundsp.Route.C119_response_partial",
    "Fundsp.Route.C119_true_partial",
    "Fundsp.Route.C119_violation"
   ],
   "note": "Constants that go through a filter are taken for unknown, and the response of what they are added to is lost (C119_violation). Proved for all linear expressions in which constants are not filtered."
  },
  {
   "property": "C120",
   "status": "partial",
   "theorems": [
    "Fundsp.Route.C120_axis",
    "Fundsp.Route.C120_graph_partial",
    "Fundsp.Route.C120_linear",
    "Fundsp.Route.C120_lines",
    "Fundsp.Route.C120_peak_partial",
    "Fundsp.Route.C120_total",
    "Fundsp.Route.C120_violation_marks",
    "Fundsp.Route.C120_violation_silence"
   ],
   "note": "Everything is proved where some response is not zero. For a unit that is silent at all columns the graph and the peak are wrong (C120_violation_silence)."
  },
  {
   "property": "C121",
   "status": "partial",
   "theorems": [
    "Fundsp.Net.C121_can_partial",
    "Fundsp.Net.C121_commit",
    "Fundsp.Net.C121_kept_partial",
    "Fundsp.Net.C121_new_partial",
    "Fundsp.Net.C121_nodes",
    "Fundsp.Net.C121_takes",
    "Fundsp.Net.C121_violation_clone",
    "Fundsp.Net.C121_violation_crossfade",
    "Fundsp.Net.C121_violation_two_frontends"
   ],
   "note": "Violated for two frontends, for clones of the frontend that bring its nodes back, and for queued crossfades of renamed nodes; proved for all other histories."
  },
  {
   "property": "C122",
   "status": "partial",
   "theorems": [
    "Fundsp.Net.C122_net_scalar_partial",
    "Fundsp.Net.C122_net_unit_partial",
    "Fundsp.Net.C122_scalar_accepts",
    "Fundsp.Net.C122_scalar_net_partial",
    "Fundsp.Net.C122_unit_net_partial",
    "Fundsp.Net.C122_violation_rate",
    "Fundsp.Net.C122_wrap"
   ],
   "note": "Proved for nets at the default sample rate; at another rate the unit stays at the default rate (C122_violation_rate)."
  },
  {
   "property": "C123",
   "status": "partial",
   "theorems": [
    "Fundsp.Net.C123_graph_partial",
    "Fundsp.Net.C123_idle",
    "Fundsp.Net.C123_kept_partial",
    "Fundsp.Net.C123_new_partial",
    "Fundsp.Net.C123_room",
    "Fundsp.Net.C123_violation_crossfade",
    "Fundsp.Net.C123_violation_full"
   ],
   "note": "Proved for the last commit that found room in the channel; a commit that finds it full is lost (C123_violation_full, C123_violation_crossfade)."
  },
  {
   "property": "C124",
   "status": "partial",
   "theorems": [
    "Fundsp.Env.C124_block_partial",
    "Fundsp.Env.C124_builder",
    "Fundsp.Env.C124_in_block_partial",
    "Fundsp.Env.C124_interpolates_partial",
    "Fundsp.Env.C124_soon_partial",
    "Fundsp.Env.C124_violation_block"
   ],
   "note": "Proved for intervals of 4/3 of a sample and longer, in blocks and single samples. Fails for 'it does not matter whether playing is in blocks' (C124_violation_block): a block of an envelope without inputs begins the next segment early. With inputs blocks are as single samples (C124_in_block_partial); what is interpolated after changes is proved without inputs. Over the reals."
  },
  {
   "property": "C125",
   "status": "proved",
   "theorems": [
    "Fundsp.Adapt.C125_latency",
    "Fundsp.Adapt.C125_live"
   ],
   "note": "The unit is any generator of which full blocks are known (LiveBlocks); held_live and liveBlocks_exact give cases."
  }
 ]
}