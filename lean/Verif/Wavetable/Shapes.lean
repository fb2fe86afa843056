import Verif.Wavetable.Model
import Verif.Resynth.Model
import Mathlib.Analysis.SpecialFunctions.Complex.Arg

/-!
# The ready-made wavetables and wavetables made from a wave: model

Model of the tables at the end of `/repo/src/wavetable.rs` and of `Wavetable::from_wave`. Partial numbers are natural numbers; `u32` arithmetic on them is shown not to overflow in the properties.
The lazily initialized globals are the values they are initialized with.
-/

noncomputable section
namespace Fundsp.Wt

/-- `u32::trailing_zeros`, with 32 for zero. -/
def trailingZeros (i : Nat) : Nat := if h : i = 0 then 32 else if i % 2 = 1 then 0 else trailingZeros (i / 2) + 1
termination_by i
decreasing_by omega

/-- Phases in `saw_table`: `wavetable.rs:510`. -/
def sawPhase (i : Nat) : ℝ := if i &&& 1 = 1 then 0 else 0.5

/-- Amplitudes in `saw_table`: `wavetable.rs:511`. -/
def sawAmp (_ : ℝ) (i : Nat) : ℝ := 1 / i

/-- `saw_table`: `wavetable.rs:501-517`. The first argument bounds the rounds of the loop. -/
def sawTable (m : Nat) : Option Table := new m 20 20000 4 sawPhase sawAmp

/-- Amplitudes in `square_table`: `wavetable.rs:522-528`. -/
def squareAmp (_ : ℝ) (i : Nat) : ℝ := if i &&& 1 = 1 then 1 / i else 0

/-- `square_table`: `wavetable.rs:518-532`. -/
def squareTable (m : Nat) : Option Table := new m 20 20000 4 (fun _ => 0) squareAmp

/-- Phases in `triangle_table`: `wavetable.rs:543`. -/
def trianglePhase (i : Nat) : ℝ := if i &&& 3 = 3 then 0.5 else 0

/-- Amplitudes in `triangle_table`: `wavetable.rs:544-550`. -/
def triangleAmp (_ : ℝ) (i : Nat) : ℝ := if i &&& 1 = 1 then 1 / (i * i : Nat) else 0

/-- `triangle_table`: `wavetable.rs:534-555`. -/
def triangleTable (m : Nat) : Option Table := new m 20 20000 4 trianglePhase triangleAmp

/-- Phases in `organ_table` and `soft_saw_table`: `wavetable.rs:566-574`, `595-603`. -/
def softPhase (i : Nat) : ℝ := if i &&& 3 = 3 then 0.5 else if i &&& 1 = 1 then 0 else 0.5

/-- Amplitudes in `organ_table`: `wavetable.rs:575-579`. -/
def organAmp (_ : ℝ) (i : Nat) : ℝ :=
  let z := trailingZeros i
  let j := i >>> z
  1 / (i + j * j * j : Nat)

/-- `organ_table`: `wavetable.rs:557-584`. -/
def organTable (m : Nat) : Option Table := new m 20 20000 4 softPhase organAmp

/-- Amplitudes in `soft_saw_table`: `wavetable.rs:604`. -/
def softSawAmp (_ : ℝ) (i : Nat) : ℝ := 1 / (i * i : Nat)

/-- `soft_saw_table`: `wavetable.rs:586-609`. -/
def softSawTable (m : Nat) : Option Table := new m 20 20000 4 softPhase softSawAmp

/-- Amplitudes in `hammond_table`: `wavetable.rs:615-631`. -/
def hammondAmp (_ : ℝ) (i : Nat) : ℝ :=
  let z := trailingZeros i
  let j := i >>> z
  let f := 1 / (((z + 1) * (z + 1) : Nat) : ℝ)
  match i with
  | 1 => 1
  | 2 => 1
  | 3 => 1
  | _ =>
    match j with
    | 1 => f
    | 3 => f
    | 9 => 0.2 * f
    | _ => 0

/-- `hammond_table`: `wavetable.rs:611-635`. -/
def hammondTable (m : Nat) : Option Table := new m 20 20000 4 (fun _ => 0) hammondAmp

/-- Bin `i` of the spectrum in `from_wave`: `wavetable.rs:133-134`, the result of `real_fft` (`fft.rs:6-30`) taken as complex numbers. -/
def spectrum (wave : List ℝ) (i : Nat) : ℂ :=
  ⟨Rsy.realFft wave.length (fun n => wave.getD n 0) (2 * i), Rsy.realFft wave.length (fun n => wave.getD n 0) (2 * i + 1)⟩

/-- Phases in `from_wave`: `wavetable.rs:135-141`. -/
def wavePhase (wave : List ℝ) (i : Nat) : ℝ := if i < wave.length / 2 then (spectrum wave i).arg / (2 * Real.pi) else 0

/-- Amplitudes in `from_wave`: `wavetable.rs:142-148`. -/
def waveAmp (wave : List ℝ) (_ : ℝ) (i : Nat) : ℝ := if i < wave.length / 2 then ‖spectrum wave i‖ else 0

/-- `Wavetable::from_wave`: `wavetable.rs:132-150`, for waves whose length is a power of two between 2 and 32768; other lengths panic. -/
def fromWave (m : Nat) (minPitch maxPitch tablesPerOctave : ℝ) (wave : List ℝ) : Option Table :=
  if wave.length ∈ (List.range 15).map (fun e => 2 ^ (e + 1)) then new m minPitch maxPitch tablesPerOctave (wavePhase wave) (waveAmp wave) else none

end Fundsp.Wt
