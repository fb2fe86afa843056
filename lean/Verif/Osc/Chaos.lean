import Verif.Core.Simd
import Mathlib.Data.Real.Basic

/-!
# Chaotic oscillators: model

Model of `Rossler` and `Lorenz`, `/repo/src/oscillator.rs:319-436`, over the reals. `rnd1` (`math.rs:529-536`) is the parameter `rnd`.
-/

noncomputable section
namespace Fundsp.Osc

/-- `Rossler` and `Lorenz` have the same fields: `oscillator.rs:323-329`, `383-389`. -/
structure ChaosSt where
  x : ℝ
  y : ℝ
  z : ℝ
  sr : ℝ
  hash : BitVec 64

/-- `reset`: `oscillator.rs:346-350`, `406-410`. `lerp(0.0, 1.0, t)` is `t`. -/
def ChaosSt.reset (rnd : BitVec 64 → ℝ) (s : ChaosSt) : ChaosSt := { s with x := rnd s.hash, y := 1, z := 1 }

/-- `set_sample_rate`: `oscillator.rs:352-354`, `412-414`. -/
def ChaosSt.setSampleRate (s : ChaosSt) (sr : ℝ) : ChaosSt := { s with sr := sr }

/-- `set_hash`: `oscillator.rs:368-371`, `428-431`. -/
def ChaosSt.setHash (rnd : BitVec 64 → ℝ) (s : ChaosSt) (hash : BitVec 64) : ChaosSt := { s with hash := hash }.reset rnd

/-- `new`: reset of the default, then the default sample rate. `oscillator.rs:333-338`, `393-398`. -/
def ChaosSt.new (rnd : BitVec 64 → ℝ) : ChaosSt := (ChaosSt.reset rnd ⟨0, 0, 0, 0, 0⟩).setSampleRate 44100

/-- State after `Rossler::tick`: `oscillator.rs:358-364`. -/
def ChaosSt.rossler (s : ChaosSt) (f : ℝ) : ChaosSt :=
  let dx := -s.y - s.z
  let dy := s.x + 0.15 * s.y
  let dz := 0.2 + s.z * (s.x - 10)
  let dt := 2.91 * f / s.sr
  { s with x := s.x + dx * dt, y := s.y + dy * dt, z := s.z + dz * dt }

/-- `Rossler`: `oscillator.rs:340-376`. -/
def rossler (rnd : BitVec 64 → ℝ) : Node ℝ 1 1 :=
  Node.ofTick ChaosSt (ChaosSt.reset rnd) (fun s x => (s.rossler (x 0), fun _ => (s.rossler (x 0)).x * 0.05757))

/-- State after `Lorenz::tick`: `oscillator.rs:418-424`. -/
def ChaosSt.lorenz (s : ChaosSt) (f : ℝ) : ChaosSt :=
  let dx := 10 * (s.y - s.x)
  let dy := s.x * (28 - s.z) - s.y
  let dz := s.x * s.y - (8 / 3) * s.z
  let dt := f / s.sr
  { s with x := s.x + dx * dt, y := s.y + dy * dt, z := s.z + dz * dt }

/-- `Lorenz`: `oscillator.rs:400-436`. -/
def lorenz (rnd : BitVec 64 → ℝ) : Node ℝ 1 1 :=
  Node.ofTick ChaosSt (ChaosSt.reset rnd) (fun s x => (s.lorenz (x 0), fun _ => (s.lorenz (x 0)).x * 0.05107))

end Fundsp.Osc
