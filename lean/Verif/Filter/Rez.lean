import Mathlib.Analysis.SpecialFunctions.Trigonometric.Basic
import Mathlib.Analysis.SpecialFunctions.Artanh
import Verif.Core.Node

/-!
# Resonant two-pole filter

Model of `/repo/src/rez.rs` over the reals.
-/

namespace Fundsp.Filter

/-- `Rez`, `rez.rs:11-21`. -/
structure RezSt where
  buf0 : ℝ
  buf1 : ℝ
  f : ℝ
  fb : ℝ
  cutoff : ℝ
  q : ℝ
  sampleRate : ℝ
  bandpass : ℝ

/-- `Rez::set_cutoff_q`, `rez.rs:41-46`. The division is that of the reals; at `f = 1` the code gets an infinity and the model zero, so the
theorems exclude that case (see `C79_violation_cutoff`). -/
noncomputable def RezSt.setCutoffQ (s : RezSt) (cutoff q : ℝ) : RezSt :=
  let f := 2 * Real.sin (Real.pi * cutoff / s.sampleRate)
  { s with cutoff := cutoff, f := f, q := q, fb := q + q / (1 - f) }

/-- `Rez::new`, `rez.rs:25-39`. -/
noncomputable def rezNew (bandpass cutoff q : ℝ) : RezSt :=
  RezSt.setCutoffQ { buf0 := 0, buf1 := 0, f := 1, fb := 1, cutoff := cutoff, q := q, sampleRate := 44100, bandpass := bandpass } cutoff q

/-- `Rez::set_sample_rate`, `rez.rs:59-62`. -/
noncomputable def RezSt.setSampleRate (s : RezSt) (sr : ℝ) : RezSt := { s with sampleRate := sr }.setCutoffQ s.cutoff s.q

/-- The settings `Rez` understands, `rez.rs:81-89`. -/
inductive RezSetting where
  | center (cutoff : ℝ)
  | centerQ (cutoff q : ℝ)
  | other

/-- `Rez::set`, `rez.rs:81-89`. -/
noncomputable def RezSt.set (s : RezSt) : RezSetting → RezSt
  | .center c => s.setCutoffQ c s.q
  | .centerQ c q => s.setCutoffQ c q
  | .other => s

/-- `Rez::reset`, `rez.rs:54-57`. -/
def RezSt.reset (s : RezSt) : RezSt := { s with buf0 := 0, buf1 := 0 }

/-- The filter step of `Rez::tick`, `rez.rs:73-78`. -/
noncomputable def RezSt.step (s : RezSt) (x : ℝ) : RezSt × ℝ :=
  let hp := x - s.buf0
  let bp := s.buf0 - s.buf1
  let buf0 := s.buf0 + s.f * (hp + s.fb * Real.tanh bp)
  let buf1 := s.buf1 + s.f * (buf0 - s.buf1)
  ({ s with buf0 := buf0, buf1 := buf1 }, buf1 - s.bandpass * buf0)

/-- `Rez<F, U1>`: parameters fixed, `rez.rs:49-96`. -/
noncomputable def rez1 : Node ℝ 1 1 :=
  .ofTick RezSt RezSt.reset (fun s x => let r := s.step (x 0); (r.1, fun _ => r.2))

open Classical in
/-- Cutoff and resonance from inputs, `rez.rs:66-72`. -/
noncomputable def RezSt.follow (s : RezSt) (cutoff q : ℝ) : RezSt :=
  if cutoff ≠ s.cutoff ∨ q ≠ s.q then s.setCutoffQ cutoff q else s

/-- `Rez<F, U3>`: cutoff and resonance from inputs, `rez.rs:49-96`. -/
noncomputable def rez3 : Node ℝ 3 1 :=
  .ofTick RezSt RezSt.reset (fun s x => let r := (s.follow (x 1) (x 2)).step (x 0); (r.1, fun _ => r.2))

end Fundsp.Filter
