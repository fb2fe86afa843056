import Verif.Math.Model
import Verif.Hash.Model
import Mathlib.Analysis.SpecialFunctions.Trigonometric.Basic
import Mathlib.Analysis.SpecialFunctions.Log.Base
import Mathlib.Analysis.SpecialFunctions.Pow.Real

/-!
# Time functions, music and loudness conversions

Model of the remaining functions of `/repo/src/math.rs`, over the reals. Constants written as `f64` literals are taken at their decimal value. `exp10(x)` and
`exp2(x)` (`math.rs`, from `float.rs`) are powers of 10 and 2, `log10` is the logarithm to base 10.
-/
namespace Fundsp.Math

/-- `sin_hz`, `math.rs:461-463`. -/
noncomputable def sinHz (hz t : ℝ) : ℝ := Real.sin (t * hz * (2 * Real.pi))
/-- `cos_hz`, `math.rs:467-469`. -/
noncomputable def cosHz (hz t : ℝ) : ℝ := Real.cos (t * hz * (2 * Real.pi))
/-- `semitone_ratio`, `math.rs:520-522`. -/
noncomputable def semitoneRatio (x : ℝ) : ℝ := (2 : ℝ) ^ (x * (1 / 12))
/-- `midi_hz`, `math.rs:579-581`. -/
noncomputable def midiHz (x : ℝ) : ℝ := 440 * (2 : ℝ) ^ ((x - 69) / 12)
/-- `bpm_hz`, `math.rs:585-587`. -/
noncomputable def bpmHz (bpm : ℝ) : ℝ := bpm * (1 / 60)
/-- `db_amp`, `math.rs:293-295`. -/
noncomputable def dbAmp (db : ℝ) : ℝ := (10 : ℝ) ^ (db / 20)
/-- `amp_db`, `math.rs:299-301`. -/
noncomputable def ampDb (gain : ℝ) : ℝ := Real.logb 10 gain * 20
/-- `dissonance`, `math.rs:267-270`. -/
noncomputable def dissonance (f0 f1 : ℝ) : ℝ :=
  let q := |f0 - f1| / (0.021 * min f0 f1 + 19)
  5.531753 * (Real.exp (-0.84 * q) - Real.exp (-1.38 * q))
/-- `dissonance_max`, `math.rs:281-283`. -/
noncomputable def dissonanceMax (f : ℝ) : ℝ := 1.0193 * f + 17.4672
/-- `a_weight`, `math.rs:313-321`. -/
noncomputable def aWeight (f : ℝ) : ℝ :=
  let f2 := f ^ 2
  let c0 := (12194 : ℝ) ^ 2
  let c1 := (20.6 : ℝ) ^ 2
  let c2 := (107.7 : ℝ) ^ 2
  let c3 := (737.9 : ℝ) ^ 2
  let c4 := (1.2589048990582914 : ℝ)
  c4 * c0 * f2 * f2 / ((f2 + c1) * Real.sqrt ((f2 + c2) * (f2 + c3)) * (f2 + c0))
/-- `m_weight`, `math.rs:335-352`. -/
noncomputable def mWeight (f : ℝ) : ℝ :=
  let c0 := (1.246332637532143 * 1.0e-4 : ℝ)
  let c1 := (-4.737338981378384 * 1.0e-24 : ℝ)
  let c2 := (2.04382833606125 * 1.0e-15 : ℝ)
  let c3 := (-1.363894795463638 * 1.0e-7 : ℝ)
  let c4 := (1.306612257412824 * 1.0e-19 : ℝ)
  let c5 := (-2.118150887518656 * 1.0e-11 : ℝ)
  let c6 := (5.559488023498642 * 1.0e-4 : ℝ)
  let c7 := (8.164578311186197 : ℝ)
  let f2 := f * f
  let f4 := f2 * f2
  c7 * c0 * f / Real.sqrt ((c1 * f4 * f2 + c2 * f4 + c3 * f2 + 1) ^ 2 + (c4 * f4 * f + c5 * f2 * f + c6 * f) ^ 2)
/-- `rnd1`, `math.rs:529-536`: the top 53 bits of the mixed word as a fraction. -/
noncomputable def rnd1 (x : BitVec 64) : ℝ := ((Hash.rnd1Word x >>> 11).toNat : ℝ) * (1 / 2 ^ 53)

end Fundsp.Math
