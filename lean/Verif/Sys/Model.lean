import Mathlib.Data.Real.Basic
import Verif.Core.Node

/-!
# Dynamical systems

Model of `/repo/src/system.rs`. Time is a real number in place of `f32`.
-/

namespace Fundsp.Sys

/-- `System`, `system.rs:14-22`. `φ` is the state captured by the update closure (`FnMut`). -/
structure SysSt (X φ : Type) where
  x : X
  f : φ
  time : ℝ
  delta : ℝ
  interval : ℝ
  sampleRate : ℝ

/-- `System::new`, `system.rs:27-39`; the hash part is under C21. -/
noncomputable def SysSt.new {X φ : Type} (x : X) (dt : ℝ) (f : φ) : SysSt X φ :=
  { x := x, f := f, time := 0, delta := 0, interval := dt, sampleRate := 44100 }

/-- `System::set_sample_rate`, `system.rs:53-56`; `rate` is `set_sample_rate` of the enclosed node. -/
def SysSt.setSampleRate {X φ : Type} (rate : X → ℝ → X) (s : SysSt X φ) (sr : ℝ) : SysSt X φ :=
  { s with x := rate s.x sr, sampleRate := sr }

/-- The conditional call of the update function, `system.rs:62-65` and `:74-77`, followed by the clock, `:66-67` and `:78-79`.
`first` is the second half of the condition. -/
noncomputable def SysSt.advance {X φ : Type} (f : φ → ℝ → ℝ → X → φ × X) (s : SysSt X φ) (first : Prop) (now : ℝ) : SysSt X φ :=
  open Classical in
  let s := if s.delta ≥ s.interval ∨ first then
      let r := f s.f s.time s.delta s.x
      { s with f := r.1, x := r.2, delta := 0 }
    else s
  { s with time := s.time + now, delta := s.delta + now }

/-- `AudioNode for System`, `system.rs:42-98`. `f` is the update function `f(t, dt, x)`. -/
noncomputable def systemNode {α : Type} {i o : Nat} {φ : Type} (X : Node α i o) (f : φ → ℝ → ℝ → X.σ → φ × X.σ) : Node α i o where
  σ := SysSt X.σ φ
  reset s := { s with x := X.reset s.x, time := 0, delta := 0 }
  tick s x :=
    let s := s.advance f (s.time = 0) (1 / s.sampleRate)
    let r := X.tick s.x x
    ({ s with x := r.1 }, r.2)
  process g s size inp out :=
    let s := s.advance f (s.time = 0 ∧ 0 < size) (size / s.sampleRate)
    let r := X.process g s.x size inp out
    ({ s with x := r.1 }, r.2)

end Fundsp.Sys
