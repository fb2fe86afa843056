import Verif.Core.Simd
import Verif.Math.Model
import Mathlib.Analysis.SpecialFunctions.Pow.Real

/-!
# Oscillators: model

Model of `Sine`, `Dsf`, `Ramp`, `PolySaw`, `PolySquare` and `PolyPulse`, `/repo/src/oscillator.rs`, over the reals. `rnd1` (`math.rs:529-536`), which turns a
hash into an initial phase, is the parameter `rnd`.
-/

noncomputable section
namespace Fundsp.Osc

open Fundsp.Math (clamp)

/-- Fields shared by the oscillators: `oscillator.rs:22-27`, `441-446`, `530-535`, `605-610`, `688-693`. -/
structure OscSt where
  phase : ℝ
  sampleDuration : ℝ
  hash : BitVec 64
  initialPhase : Option ℝ

/-- `reset`: `oscillator.rs:56-61`, `476-481` etc. -/
def OscSt.reset (rnd : BitVec 64 → ℝ) (s : OscSt) : OscSt := { s with phase := s.initialPhase.getD (rnd s.hash) }

/-- `set_hash`: `oscillator.rs:94-97` etc. -/
def OscSt.setHash (rnd : BitVec 64 → ℝ) (s : OscSt) (hash : BitVec 64) : OscSt := { s with hash := hash }.reset rnd

/-- `set_sample_rate`: `oscillator.rs:63-65` etc. -/
def OscSt.setSampleRate (s : OscSt) (sr : ℝ) : OscSt := { s with sampleDuration := 1 / sr }

/-- `new`: reset, then the default sample rate. `oscillator.rs:30-36` etc. -/
def OscSt.new (rnd : BitVec 64 → ℝ) : OscSt := (OscSt.reset rnd ⟨0, 0, 0, none⟩).setSampleRate 44100

/-- `with_phase`: `oscillator.rs:37-47` etc. -/
def OscSt.withPhase (rnd : BitVec 64 → ℝ) (phase : ℝ) : OscSt := (OscSt.reset rnd ⟨0, 0, 0, some phase⟩).setSampleRate 44100

/-- `phase += delta; phase -= phase.floor()`: `oscillator.rs:70-71`, `490-491` etc. -/
def OscSt.advance (s : OscSt) (delta : ℝ) : OscSt := { s with phase := s.phase + delta - ⌊s.phase + delta⌋ }

/-- `Ramp::tick`: `oscillator.rs:488-493`. -/
def ramp (rnd : BitVec 64 → ℝ) : Node ℝ 1 1 :=
  Node.ofTick OscSt (OscSt.reset rnd) (fun s x => (s.advance (x 0 * s.sampleDuration), fun _ => s.phase))

/-- `polyblep`: `oscillator.rs:513-523`. -/
def polyblep (t dt : ℝ) : ℝ :=
  if t < dt then (t / dt) + (t / dt) - (t / dt) * (t / dt) - 1
  else if t > 1 - dt then ((t - 1) / dt) + ((t - 1) / dt) + ((t - 1) / dt) * ((t - 1) / dt) + 1
  else 0

/-- `PolySaw::tick`: `oscillator.rs:575-582`. -/
def polySaw (rnd : BitVec 64 → ℝ) : Node ℝ 1 1 :=
  Node.ofTick OscSt (OscSt.reset rnd)
    (fun s x => (s.advance (x 0 * s.sampleDuration), fun _ => 2 * s.phase - 1 - polyblep s.phase (x 0 * s.sampleDuration)))

/-- Pulse of a given width: `oscillator.rs:743-746`; with width one half, `oscillator.rs:657-663`. -/
def pulseValue (phase delta width : ℝ) : ℝ :=
  (if phase < width then 1 else -1) + polyblep phase delta - polyblep (phase - width - ⌊phase - width⌋) delta

/-- `PolySquare::tick`: `oscillator.rs:652-665`. -/
def polySquare (rnd : BitVec 64 → ℝ) : Node ℝ 1 1 :=
  Node.ofTick OscSt (OscSt.reset rnd)
    (fun s x => (s.advance (x 0 * s.sampleDuration), fun _ => pulseValue s.phase (x 0 * s.sampleDuration) (1 / 2)))

/-- `PolyPulse::tick`: `oscillator.rs:735-747`. -/
def polyPulse (rnd : BitVec 64 → ℝ) : Node ℝ 2 1 :=
  Node.ofTick OscSt (OscSt.reset rnd)
    (fun s x => (s.advance (x 0 * s.sampleDuration), fun _ => pulseValue s.phase (x 0 * s.sampleDuration) (x 1)))

/-- One sample of the SIMD loop of `Sine::process`, `oscillator.rs:80-84`: the phase is not wrapped. -/
def sineLane (s : OscSt) (x : Frame ℝ 1) : OscSt := { s with phase := s.phase + x 0 * s.sampleDuration }

/-- An item of the SIMD loop: `oscillator.rs:79-86`. -/
def sineItem (s : OscSt) (x : Nat → Frame ℝ 1) : OscSt × (Nat → Frame ℝ 1) :=
  ((List.range 8).foldl (fun s j => sineLane s (x j)) s,
   fun k _ => Real.sin (((List.range k).foldl (fun s j => sineLane s (x j)) s).phase * (2 * Real.pi)))

/-- `Sine::tick`: `oscillator.rs:68-73`. -/
def sineTick (s : OscSt) (x : Frame ℝ 1) : OscSt × Frame ℝ 1 :=
  (s.advance (x 0 * s.sampleDuration), fun _ => Real.sin (s.phase * (2 * Real.pi)))

/-- `Sine`: `process` `oscillator.rs:75-91`, whole items without wrapping, one wrap, then the remainder by ticks. -/
def sine (rnd : BitVec 64 → ℝ) : Node ℝ 1 1 where
  σ := OscSt
  reset := OscSt.reset rnd
  tick := sineTick
  process _ s size inp out :=
    let r := itemLoop sineItem inp 0 (fullSimdItems size) s out
    tickLoop sineTick inp (8 * fullSimdItems size) (size - 8 * fullSimdItems size) { r.1 with phase := r.1.phase - ⌊r.1.phase⌋ } r.2

/-- `dsf`: `oscillator.rs:106-113`. `pow` is the real power. -/
def dsf (f d r n : ℝ) : ℝ :=
  (Real.sin f - r * Real.sin (f - d) - r ^ (n + 1) * (Real.sin (f + (n + 1) * d) - r * Real.sin (f + n * d)))
    / (1 + r * r - 2 * r * Real.cos d)

/-- `Dsf`: `oscillator.rs:121-129`. -/
structure DsfSt where
  osc : OscSt
  roughness : ℝ
  spacing : ℝ

/-- `set_roughness`: `oscillator.rs:155-157`. -/
def DsfSt.setRoughness (s : DsfSt) (r : ℝ) : DsfSt := { s with roughness := clamp 0.0001 0.9999 r }

/-- `Dsf::new`: `oscillator.rs:132-145`. -/
def DsfSt.new (rnd : BitVec 64 → ℝ) (spacing roughness : ℝ) : DsfSt := DsfSt.setRoughness ⟨OscSt.new rnd, roughness, spacing⟩ roughness

/-- `Dsf::tick` after the roughness is set: `oscillator.rs:179-188`. -/
def dsfTick (s : DsfSt) (f : ℝ) : DsfSt × ℝ :=
  let s := { s with osc := s.osc.advance (f * s.osc.sampleDuration) }
  (s, dsf (s.osc.phase * (2 * Real.pi)) (s.osc.phase * (2 * Real.pi) * s.spacing) s.roughness ⌊22050 / f / s.spacing⌋)

/-- `Dsf<U1>`: `oscillator.rs:160-189`. -/
def dsf1 (rnd : BitVec 64 → ℝ) : Node ℝ 1 1 :=
  Node.ofTick DsfSt (fun s => { s with osc := s.osc.reset rnd }) (fun s x => ((dsfTick s (x 0)).1, fun _ => (dsfTick s (x 0)).2))

/-- `Dsf<U2>`, with a roughness input: `oscillator.rs:160-189`. -/
def dsf2 (rnd : BitVec 64 → ℝ) : Node ℝ 2 1 :=
  Node.ofTick DsfSt (fun s => { s with osc := s.osc.reset rnd })
    (fun s x => ((dsfTick (s.setRoughness (x 1)) (x 0)).1, fun _ => (dsfTick (s.setRoughness (x 1)) (x 0)).2))

end Fundsp.Osc
