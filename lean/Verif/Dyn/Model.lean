import Verif.Filter.Smooth
import Verif.Math.Model
import Verif.Core.Simd
import Verif.Chan.Props

/-! Models of `/repo/src/dynamics.rs`: `ReduceBuffer`, `Limiter`, `Declick`, `MeterState`, `MeterNode`, `Monitor`.
Samples are real numbers except in `ReduceBuffer`, which is generic as in the code; `none` is an index panic. -/

namespace Fundsp.Dyn
open Fundsp.Filter Fundsp.Math

/-! ### ReduceBuffer -/

/-- `ReduceBuffer`: `dynamics.rs:57-68`. -/
structure RB (T : Type) where
  buf : List T
  length : Nat
  leaf : Nat

/-- `ReduceBuffer::new`: `dynamics.rs:81-93`. -/
def rbNew {T : Type} (zero : T) (length : Nat) : RB T :=
  ⟨List.replicate (Chan.nextPowerOfTwo length + length + (length &&& 1)) zero, length, Chan.nextPowerOfTwo length⟩

/-- `ReduceBuffer::total`: `dynamics.rs:101-103`. -/
def rbTotal {T : Type} (b : RB T) : Option T := b.buf[1]?

/-- The loop of `ReduceBuffer::set`: `dynamics.rs:108-112`. -/
def rbUp {T : Type} (op : T → T → T) (i : Nat) (b : List T) : Option (List T) :=
  if 1 < i then
    match b[i]?, b[i ^^^ 1]? with
    | some x, some y => if i / 2 < b.length then rbUp op (i / 2) (b.set (i / 2) (op x y)) else none
    | _, _ => none
  else some b
termination_by i
decreasing_by omega

/-- `ReduceBuffer::set`: `dynamics.rs:105-113`. -/
def rbSet {T : Type} (op : T → T → T) (b : RB T) (index : Nat) (value : T) : Option (RB T) :=
  if b.leaf + index < b.buf.length then
    (rbUp op (b.leaf + index) (b.buf.set (b.leaf + index) value)).map fun buf => { b with buf := buf }
  else none

/-- `ReduceBuffer::clear`: `dynamics.rs:115-119`. -/
def rbClear {T : Type} (zero : T) (b : RB T) : RB T := { b with buf := b.buf.map fun _ => zero }

/-! ### Limiter -/

/-- `Limiter`: `dynamics.rs:124-136`. The attack and release coefficients of the follower are part of its state; `sample_rate` and
`lookahead` only enter through them and `reducer.length`. -/
structure LimSt (n : Nat) where
  red : RB ℝ
  fol : AFollowSt ℝ
  buf : List (Frame ℝ n)
  index : Nat

/-- `Limiter::advance`: `dynamics.rs:143-148`. -/
def limAdvance (length index : Nat) : Nat := if length ≤ index + 1 then 0 else index + 1

/-- `Limiter::buffer_length`: `dynamics.rs:150-152`. `round` is rounding half away from zero; for nonnegative numbers `⌊x + 1/2⌋`. -/
noncomputable def limLength (sr lookahead : ℝ) : Nat := max 1 ⌊sr * lookahead + 1 / 2⌋₊

/-- A follower as made by `AFollow::new` and `set_sample_rate`: `follow.rs:155-164, 178-190, 218-222`. -/
def folNew (a r : ℝ) : AFollowSt ℝ := ⟨0, 0, 0, a, r, 1, 1⟩

/-- `Limiter::new`: `dynamics.rs:158-170`, with coefficients `a`, `r` of the follower. -/
def limNew (n length : Nat) (a r : ℝ) : LimSt n := ⟨rbNew 0 length, folNew a r, [], 0⟩

/-- `Limiter::reset` without a change of sample rate: `dynamics.rs:181-194`. The coefficients are recalculated to the same values; once the
follower has run, `acoeff_now` is `acoeff`, so `set_time` changes nothing. -/
def limReset {n : Nat} (s : LimSt n) : LimSt n := ⟨rbClear 0 s.red, s.fol, [], 0⟩

/-- `AFollow::set_value`: `follow.rs:198-202`. -/
def folSet (s : AFollowSt ℝ) (x : ℝ) : AFollowSt ℝ := { s with v1 := x, v2 := x, v3 := x }

/-- Frame amplitude: `dynamics.rs:198`. -/
noncomputable def amp {n : Nat} (x : Frame ℝ n) : ℝ := Fin.foldl n (fun a c => max a |x c|) 0

/-- `Limiter::tick`: `dynamics.rs:197-221`. The constant `1.10_f32` is taken to be the real number 1.1. -/
noncomputable def limTick {n : Nat} (s : LimSt n) (x : Frame ℝ n) : Option (LimSt n × Frame ℝ n) :=
  (rbSet max s.red s.index (amp x)).bind fun red =>
  if s.buf.length < red.length then
    let buf := s.buf ++ [x]
    if buf.length = red.length then
      (rbTotal red).map fun total => (⟨red, folSet s.fol total, buf, limAdvance red.length s.index⟩, fun _ => 0)
    else some (⟨red, s.fol, buf, limAdvance red.length s.index⟩, fun _ => 0)
  else
    (s.buf[s.index]?).bind fun output =>
    (rbTotal red).map fun total =>
      let f := (afollowTick s.fol (max 1 (total * (11 / 10)))).1
      (⟨red, f, s.buf.set s.index x, limAdvance red.length s.index⟩, fun c => output c * (1 / f.v3))

/-- State after `k` ticks. -/
noncomputable def limRun {n : Nat} (s : LimSt n) (x : Nat → Frame ℝ n) : Nat → Option (LimSt n)
  | 0 => some s
  | k + 1 => (limRun s x k).bind fun t => (limTick t (x k)).map Prod.fst

/-- Output of tick `k`. -/
noncomputable def limOut {n : Nat} (s : LimSt n) (x : Nat → Frame ℝ n) (k : Nat) : Option (Frame ℝ n) :=
  (limRun s x k).bind fun t => (limTick t (x k)).map Prod.snd

/-! ### Declick -/

/-- `Declick`: `dynamics.rs:245-250`. -/
structure DecSt where
  t : ℝ
  duration : ℝ
  sampleDuration : ℝ

/-- `Declick::tick`: `dynamics.rs:278-287`. -/
noncomputable def decTick (s : DecSt) (x : Frame ℝ 1) : DecSt × Frame ℝ 1 :=
  if s.t < s.duration then
    ({ s with t := s.t + s.sampleDuration }, fun _ => x 0 * smooth5 (delerp 0 s.duration s.t))
  else (s, fun _ => x 0)

/-- `Declick::process`: `dynamics.rs:289-307`. The phase is advanced by addition. -/
noncomputable def decProcess (_ : Garb ℝ) (s : DecSt) (size : Nat) (inp out : Buf ℝ 1) : DecSt × Buf ℝ 1 :=
  let copied := setItems size inp out
  if s.t < s.duration then
    let phase := delerp 0 s.duration s.t
    let phaseD := s.sampleDuration / s.duration
    let endTime := s.t + size * s.sampleDuration
    let endIndex := if s.duration < endTime then ⌈(s.duration - s.t) / s.sampleDuration⌉.toNat else size
    ({ s with t := endTime }, fun c k => if k < endIndex then copied c k * smooth5 (phase + k * phaseD) else copied c k)
  else (s, copied)

/-- `Declick`. -/
noncomputable def declick : Node ℝ 1 1 where
  σ := DecSt
  reset := fun s => { s with t := 0 }
  tick := decTick
  process := decProcess

/-! ### Meters -/

/-- `Meter`: `dynamics.rs:317-326`. The smoothing times are in the state. -/
inductive Meter where
  | sample | peak | rms

/-- `MeterState`: `dynamics.rs:336-342`. -/
structure MeterSt where
  smoothing : ℝ
  state : ℝ

/-- `MeterState::tick`: `dynamics.rs:374-383`. -/
noncomputable def meterTick (m : Meter) (s : MeterSt) (v : ℝ) : MeterSt :=
  match m with
  | .sample => { s with state := v }
  | .peak => { s with state := max (s.state * s.smoothing) |v| }
  | .rms => { s with state := s.state * s.smoothing + v ^ 2 * (1 - s.smoothing) }

/-- `MeterState::level`: `dynamics.rs:385-392`. -/
noncomputable def meterLevel (m : Meter) (s : MeterSt) : ℝ :=
  match m with
  | .sample => s.state
  | .peak => s.state
  | .rms => Real.sqrt s.state

/-- Smoothing factor: `dynamics.rs:369`. -/
noncomputable def meterSmoothing (timescale sr : ℝ) : ℝ := (1 / 2) ^ (1 / (timescale * sr) : ℝ)

/-- `MeterNode`: `dynamics.rs:420-437`. -/
noncomputable def meterNode (m : Meter) : Node ℝ 1 1 :=
  .ofTick MeterSt (fun s => { s with state := 0 }) (fun s x => (meterTick m s (x 0), fun _ => meterLevel m (meterTick m s (x 0))))

/-- The metering of a block in `Monitor::process`: `dynamics.rs:492-500`. -/
noncomputable def monitorBlock (m : Meter) (s : MeterSt) (size : Nat) (inp : Buf ℝ 1) : MeterSt :=
  match m with
  | .sample => meterTick m s (inp 0 (size - 1))
  | _ => (List.range size).foldl (fun st i => meterTick m st (inp 0 i)) s

/-- `Monitor`: `dynamics.rs:468-508`. The second component of the state is the shared variable. -/
noncomputable def monitor (m : Meter) : Node ℝ 1 1 where
  σ := MeterSt × ℝ
  reset := fun s => ({ s.1 with state := 0 }, s.2)
  tick := fun s x => ((meterTick m s.1 (x 0), meterLevel m (meterTick m s.1 (x 0))), x)
  process := fun _ s size inp out =>
    if size = 0 then (s, out)
    else
      let st := monitorBlock m s.1 size inp
      ((st, meterLevel m st), setItems size inp out)

end Fundsp.Dyn
