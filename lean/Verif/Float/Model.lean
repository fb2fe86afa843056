import Verif.Float.Round
import Verif.Noise.Model

/-!
# Clocks, phases and samples in floating point: model

The parts of units that add up time or phase, with every operation rounded as in the code (`p = 24` for `f32`, `p = 53` for `f64`).
-/

noncomputable section
namespace Fundsp.Fl

/-- A clock that starts at zero and adds `d` for each sample: `Timer` (`shared.rs:226`, `f64`), `Sequencer` (`sequencer.rs:640`, `f64`), `Envelope` (`envelope.rs:134`, `F`),
`System` (`system.rs:70`, `f32`). -/
def acc (p : ℕ) (d : ℝ) : ℕ → ℝ
  | 0 => 0
  | n + 1 => rnd p (acc p d n + d)

/-! ## Timer -/

/-- `Timer`: `shared.rs:191-196`. `value` is the value of the shared variable. -/
structure TimerSt where
  time : ℝ
  value : ℝ

/-- `Timer::tick`: `shared.rs:225-229`. -/
def TimerSt.tick (sd : ℝ) (s : TimerSt) : TimerSt := ⟨rnd 53 (s.time + sd), rnd 24 (rnd 53 (s.time + sd))⟩

/-- `Timer::process`: `shared.rs:231-234`. -/
def TimerSt.process (sd : ℝ) (size : ℕ) (s : TimerSt) : TimerSt :=
  let t := rnd 53 (s.time + rnd 53 (size * sd))
  ⟨t, rnd 24 t⟩

/-! ## Envelope -/

/-- The times of `Envelope` and `EnvelopeIn`: `envelope.rs:23-50`. `calls` counts the calls of the envelope function after the one at reset. -/
structure EnvClock where
  t : ℝ
  t1 : ℝ
  calls : ℕ

/-- `Envelope::tick`: `envelope.rs:128-136`, with the times of `next_segment`, `envelope.rs:79-100`. `ni` is the sequence of intervals after jitter. -/
def EnvClock.tick (p : ℕ) (sd : ℝ) (ni : ℕ → ℝ) (s : EnvClock) : EnvClock :=
  let s := if s.t1 ≤ s.t then { s with t1 := rnd p (s.t1 + ni s.calls), calls := s.calls + 1 } else s
  { s with t := rnd p (s.t + sd) }

/-- State after `n` samples from reset: `envelope.rs:112-121`. -/
def EnvClock.after (p : ℕ) (sd : ℝ) (ni : ℕ → ℝ) (n : ℕ) : EnvClock := (EnvClock.tick p sd ni)^[n] ⟨0, 0, 0⟩

/-! ## System -/

/-- `System`: `system.rs:14-23`. -/
structure SysClock where
  time : ℝ
  delta : ℝ

/-- Whether `f` is called at this sample: `system.rs:64`. -/
def SysClock.Calls (interval : ℝ) (s : SysClock) : Prop := interval ≤ s.delta ∨ s.time = 0

open Classical in
/-- `System::tick`: `system.rs:59-69`; `f` receives `s.time`. -/
def SysClock.tick (sd interval : ℝ) (s : SysClock) : SysClock :=
  ⟨rnd 24 (s.time + sd), rnd 24 ((if s.Calls interval then 0 else s.delta) + sd)⟩

/-- State after `n` samples from reset. -/
def SysClock.after (sd interval : ℝ) (n : ℕ) : SysClock := (SysClock.tick sd interval)^[n] ⟨0, 0⟩

/-! ## Crossfade of a node -/

/-- Phase of the crossfade after `n` samples while it has not ended: `vertex.rs:154`, in `f32`; it ends when the phase reaches one, `vertex.rs:155`. -/
def fadePhase (fadeTime sr : ℝ) (n : ℕ) : ℝ := acc 24 (rnd 24 (1 / rnd 24 (fadeTime * sr))) n

/-! ## Oscillators -/

/-- Phase step of the oscillators: `oscillator.rs:69-70`, `489-490`, `wavetable.rs:321-322`. -/
def phaseStep (p : ℕ) (delta phase : ℝ) : ℝ :=
  let y := rnd p (phase + delta)
  rnd p (y - ⌊y⌋)

/-- Phases of an oscillator at constant frequency. -/
def phases (p : ℕ) (delta phase : ℝ) (n : ℕ) : ℝ := (phaseStep p delta)^[n] phase

/-! ## Noise -/

/-- The arithmetic of `Noise` and `Mls` in `f32`: `noise.rs:130`, `200`; `NOISE_Z` at `noise.rs:185`. Conversion from integers rounds. -/
def f32Noise : Noise.NoiseArith ℝ where
  ofNat n := rnd 24 n
  mul x y := rnd 24 (x * y)
  sub x y := rnd 24 (x - y)
  one := 1
  two := 2
  z := rnd 24 (2 / rnd 24 (2 ^ 24 - 1))

/-! ## Interpolation and conversion -/

/-- `lerp` on floats: `math.rs:170-178`. -/
def lerpFl (p : ℕ) (a b t : ℝ) : ℝ := rnd p (rnd p (a * rnd p (1 - t)) + rnd p (b * t))

/-- `delerp` on floats: `math.rs:218-220`. -/
def delerpFl (p : ℕ) (a b x : ℝ) : ℝ := rnd p (rnd p (x - a) / rnd p (b - a))

/-- `round` of Rust: to the nearest integer, halves away from zero. -/
def roundAway (x : ℝ) : ℤ := if 0 ≤ x then ⌊x + 1 / 2⌋ else -⌊-x + 1 / 2⌋

/-- The 16-bit sample written for `x`: `write.rs:71-72`. -/
def wav16 (x : ℝ) : ℤ := roundAway (rnd 24 (min (max x (-1)) 1 * rnd 24 32767.49))

end Fundsp.Fl
