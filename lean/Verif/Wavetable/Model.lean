import Verif.Core.Node
import Verif.Math.Model
import Verif.Chan.Model
import Mathlib.Analysis.SpecialFunctions.Complex.Circle
import Mathlib.Analysis.SpecialFunctions.Pow.Real
import Mathlib.Data.Real.Archimedean

/-!
# Wavetables: model

Model of `/repo/src/wavetable.rs` over the real numbers. Out of bounds indexing and the underflow of `len() - 3` are `none`. The inverse FFT of `microfft` is the inverse discrete Fourier
transform. `Wavetable::from_wave` is `Wavetable::new` with functions that look up the spectrum of the given wave; `new` is modelled for arbitrary functions.
-/

noncomputable section
namespace Fundsp.Wt

/-- `Wavetable`: `wavetable.rs:81-85`. Pitch and wave of every table. -/
abbrev Table := List (ℝ × List ℝ)

/-- `optimal4x44`: `wavetable.rs:24-39`. -/
def optimal4 (a0 a1 a2 a3 x : ℝ) : ℝ :=
  let z := x - 0.5
  let even1 := a2 + a1
  let odd1 := a2 - a1
  let even2 := a3 + a0
  let odd2 := a3 - a0
  let c0 := even1 * 0.4656725512077848 + even2 * 0.03432729708429672
  let c1 := odd1 * 0.5374383075356016 + odd2 * 0.1542946255730746
  let c2 := even1 * (-0.25194210134021744) + even2 * 0.2519474493593906
  let c3 := odd1 * (-0.46896069955075126) + odd2 * 0.15578800670302476
  let c4 := even1 * 0.00986988334359864 + even2 * (-0.00989340017126506)
  (((c4 * z + c3) * z + c2) * z + c1) * z + c0

/-! ## Making tables -/

/-- Inverse discrete Fourier transform, the meaning of `inverse_fft`: `fft.rs:51-100`. -/
def idft (a : List ℂ) (n : Nat) : ℂ :=
  (∑ k ∈ Finset.range a.length, a.getD k 0 * Complex.exp (2 * Real.pi * Complex.I * (k * n / a.length))) / a.length

/-- Number of partials: `wavetable.rs:53`. -/
def harmonics (pitch : ℝ) : Nat := ⌊22000 / pitch⌋₊

/-- Table length: `wavetable.rs:56-58`. -/
def waveLength (pitch : ℝ) : Nat := min (max (Chan.nextPowerOfTwo (4 * harmonics pitch)) 32) 8192

/-- Faded amplitude of partial `i`: `wavetable.rs:63-68`. -/
def faded (pitch : ℝ) (amplitude : ℝ → Nat → ℝ) (i : Nat) : ℝ :=
  amplitude pitch i * Math.smooth5 (Math.clamp01 (Math.delerp 22000 20000 (pitch * i)))

/-- The loop over partials `i, i + 1, ..` with `m` of them remaining: `wavetable.rs:62-73`. -/
def fill (pitch : ℝ) (phase : Nat → ℝ) (amplitude : ℝ → Nat → ℝ) : Nat → Nat → List ℂ → Option (List ℂ)
  | 0, _, a => some a
  | m + 1, i, a =>
    let w := faded pitch amplitude i
    if 0 < w then
      if i < a.length then fill pitch phase amplitude m (i + 1) (a.set i (w * Complex.exp (2 * Real.pi * phase i * Complex.I))) else none
    else fill pitch phase amplitude m (i + 1) a

/-- `make_wave`: `wavetable.rs:44-79`. -/
def makeWave (pitch : ℝ) (phase : Nat → ℝ) (amplitude : ℝ → Nat → ℝ) : Option (List ℝ) :=
  (fill pitch phase amplitude (harmonics pitch) 1 (List.replicate (waveLength pitch) 0)).map fun a =>
    (List.range a.length).map fun n => (idft a n).im * a.length

/-- The loop of `Wavetable::new` with a bound on the number of rounds: `wavetable.rs:107-112`. `none` if it does not finish within the bound or a wave cannot be made. -/
def newLoop (maxPitch factor : ℝ) (phase : Nat → ℝ) (amplitude : ℝ → Nat → ℝ) : Nat → ℝ → Table → Option Table
  | 0, _, _ => none
  | m + 1, pitch, t =>
    if pitch ≤ maxPitch then
      match makeWave pitch phase amplitude with
      | some wave => newLoop maxPitch factor phase amplitude m (pitch * factor) (t ++ [(pitch, wave)])
      | none => none
    else some t

/-- The largest absolute value in the tables: `wavetable.rs:106,109`. -/
def maxAmplitude (t : Table) : ℝ := t.foldl (fun acc e => e.2.foldl (fun acc x => max acc |x|) acc) 0

/-- Normalization: `wavetable.rs:113-120`. -/
def normalize (t : Table) : Table :=
  if 0 < maxAmplitude t then t.map fun e => (e.1, e.2.map (· * (1 / maxAmplitude t))) else t

/-- `Wavetable::new`: `wavetable.rs:93-122`, with a bound on the number of rounds of the loop. -/
def new (m : Nat) (minPitch maxPitch tablesPerOctave : ℝ) (phase : Nat → ℝ) (amplitude : ℝ → Nat → ℝ) : Option Table :=
  (newLoop maxPitch ((2 : ℝ) ^ (1 / tablesPerOctave)) phase amplitude m minPitch []).map normalize

/-! ## Reading -/

/-- `at`: `wavetable.rs:154-167`. `at_simd` (170-194) does the same in every lane. -/
def at' (t : Table) (i : Nat) (phase : ℝ) : Option ℝ := do
  let e ← t[i]?
  let p := e.2.length * phase
  let i1 := ⌊p⌋₊
  let w := p - i1
  let mask := e.2.length - 1
  let i0 := ((i1 + 2 ^ 64 - 1) % 2 ^ 64) &&& mask
  let i1 := i1 &&& mask
  let i2 := (i1 + 1) &&& mask
  let i3 := (i1 + 2) &&& mask
  let a0 ← e.2[i0]?
  let a1 ← e.2[i1]?
  let a2 ← e.2[i2]?
  let a3 ← e.2[i3]?
  some (optimal4 a0 a1 a2 a3 w)

/-- The binary search: `wavetable.rs:203-215`. The first argument bounds the rounds; `i1 - i0` decreases in every round. -/
def search (t : Table) (f : ℝ) : Nat → Nat → Nat → Option Nat
  | 0, i0, _ => some i0
  | m + 1, i0, i1 =>
    if i0 < i1 then
      let i := (i0 + i1) >>> 1
      match t[i]? with
      | none => none
      | some a =>
        if f < a.1 then search t f m i0 i
        else match t[i + 1]? with
          | none => none
          | some b => if f < b.1 then some i else search t f m (i + 1) i1
    else some i0

/-- The search branch of `table_index`: `wavetable.rs:201-216`. -/
def searchAll (t : Table) (f : ℝ) : Option Nat := if t.length < 3 then none else search t f (t.length - 3) 0 (t.length - 3)

/-- `table_index`: `wavetable.rs:198-218`. -/
def tableIndex (t : Table) (hint : Nat) (f : ℝ) : Option Nat :=
  match t[hint]? with
  | none => none
  | some a =>
    if a.1 ≤ f then
      match t[hint + 1]? with
      | none => none
      | some b => if f ≤ b.1 then some hint else searchAll t f
    else searchAll t f

/-- `read`: `wavetable.rs:221-235`. `read_simd` (238-252) does the same in every lane. -/
def read (t : Table) (hint : Nat) (f phase : ℝ) : Option (ℝ × Nat) := do
  let i ← tableIndex t hint f
  let a ← t[i]?
  let b ← t[i + 1]?
  let w := Math.clamp01 (Math.delerp a.1 b.1 f)
  let x ← at' t (i + 1) phase
  let y ← at' t (i + 2) phase
  some ((1 - w) * x + w * y, i)

end Fundsp.Wt
