import Verif.Filter.Model
import Mathlib.Analysis.SpecialFunctions.Pow.Real
import Mathlib.Algebra.Order.Archimedean.Real.Basic
/-! Karplus-Strong oscillator: `/repo/src/oscillator.rs:210-314`. Real arithmetic; the random generator is an arbitrary function of the seed. -/

namespace Fundsp.Osc
open Fundsp.Filter

/-- `Pluck`: `oscillator.rs:214-225`; `weights` are those of the `Fir<U3>`. -/
structure PluckSt where
  weights : Frame ℝ 3
  damping : Frame ℝ 3
  tuning : PoleZero ℝ
  line : List ℝ
  gain : ℝ
  pos : Nat
  hash : Nat
  frequency : ℝ
  sr : ℝ
  initialized : Bool

namespace PluckSt

/-- `fir3`: `prelude.rs:860-864`. -/
noncomputable def fir3 (gain : ℝ) : Frame ℝ 3 :=
  let alpha := (gain + 1) / 2
  let beta := (1 - alpha) / 2
  ![beta, alpha, beta]

/-- `Pluck::new`: `oscillator.rs:229-241`. -/
noncomputable def new (frequency gainPerSecond damping : ℝ) : PluckSt where
  weights := fir3 (1 - damping)
  damping := fun _ => 0
  tuning := ⟨0, 0, allpoleEta 1⟩
  line := []
  gain := gainPerSecond ^ (1 / frequency)
  pos := 0
  hash := 0
  frequency := frequency
  sr := 44100
  initialized := false

/-- `initialize_line`: `oscillator.rs:243-267`. `rnd h i` is the `i`th value of `Rnd::from_u64(h).f32_in(-1.0, 1.0)`. -/
noncomputable def initLine (rnd : Nat → Nat → ℝ) (s : PluckSt) : PluckSt :=
  let epsilon := 0.2
  let total := s.sr / s.frequency - 1
  let loop := ⌊total - epsilon⌋
  let line := (List.range loop.toNat).map (rnd s.hash)
  let mean := line.sum / line.length
  { s with
    tuning := ⟨0, 0, allpoleEta (total - loop)⟩
    line := line.map (· - mean)
    pos := 0
    initialized := true }

/-- `if !self.initialized { self.initialize_line() }`. -/
noncomputable def prep (rnd : Nat → Nat → ℝ) (s : PluckSt) : PluckSt := if s.initialized then s else s.initLine rnd

/-- `tick` after initialization: `oscillator.rs:291-300`; the read of `line[pos]` is total here, see `tick?`. -/
noncomputable def play (s : PluckSt) (x : ℝ) : PluckSt × ℝ :=
  let u := s.line.getD s.pos 0 * s.gain + x
  let d := firTick 0 (· + ·) (· * ·) s.weights s.damping (fun _ => u)
  let t := allpoleTick 0 s.tuning (fun _ => d.2 0)
  let pos := s.pos + 1
  ({ s with damping := d.1, tuning := t.1, line := s.line.set s.pos (t.2 0), pos := if pos = s.line.length then 0 else pos }, t.2 0)

/-- `tick`: `oscillator.rs:287-302`. -/
noncomputable def tick (rnd : Nat → Nat → ℝ) (s : PluckSt) (x : Frame ℝ 1) : PluckSt × Frame ℝ 1 :=
  let r := (s.prep rnd).play (x 0)
  (r.1, fun _ => r.2)

/-- The same with the index check: `none` is a panic. -/
noncomputable def tick? (rnd : Nat → Nat → ℝ) (s : PluckSt) (x : Frame ℝ 1) : Option (PluckSt × Frame ℝ 1) :=
  if (s.prep rnd).pos < (s.prep rnd).line.length then some (s.tick rnd x) else none

/-- `reset`: `oscillator.rs:275-278`. -/
def reset (s : PluckSt) : PluckSt := { s with damping := fun _ => 0, initialized := false }

open Classical in
/-- `set_sample_rate`: `oscillator.rs:280-286`. -/
noncomputable def setSampleRate (s : PluckSt) (sr : ℝ) : PluckSt := if s.sr ≠ sr then { s with sr := sr, initialized := false } else s

/-- `set_hash`: `oscillator.rs:304-307`. -/
def setHash (s : PluckSt) (h : Nat) : PluckSt := { s with hash := h, initialized := false }

end PluckSt

/-- `Pluck`: `oscillator.rs:270-314`; `process` is the default one. -/
noncomputable def pluck (rnd : Nat → Nat → ℝ) : Node ℝ 1 1 := .ofTick PluckSt PluckSt.reset (PluckSt.tick rnd)

end Fundsp.Osc
