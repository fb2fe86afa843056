import Verif.Core.Node
import Verif.Math.Model

/-! Models of `src/shared.rs` (`Shared`, `Var`, `VarFn`, `Timer`, `AtomicTable`, `AtomicSynth`) and of `Hold` in `src/noise.rs`. -/

namespace Fundsp.Shared

open Fundsp.Math

/-! ### Shared variables

An `f32` is its bit pattern (`to_bits`/`from_bits` are inverse bijections), so a shared variable is one 32-bit atomic cell and all
operations below are exact. -/

/-- Bit pattern of an `f32`. -/
abbrev F32 := BitVec 32

/-- The `AtomicU32` behind a variable; every clone of `Shared` and every `Var` made from it holds the same cell. -/
structure Cell where
  bits : BitVec 32

/-- `Shared::new`, `shared.rs:51-55`. -/
def sharedNew (v : F32) : Cell := ⟨v⟩
/-- `Shared::set_value`, `set`, `Var::set_value`, `shared.rs:65-73`, `95-98`. -/
def setValue (_ : Cell) (v : F32) : Cell := ⟨v⟩
/-- `Shared::value`, `Var::value`, `shared.rs:77-80`, `101-104`. -/
def value (c : Cell) : F32 := c.bits
/-- `Var::tick`, `shared.rs:117-120`. -/
def varTick (c : Cell) : F32 := value c
/-- `Var::process`, `shared.rs:122-125`. -/
def varProcess (c : Cell) (size : Nat) (old : Buf F32 1) : Buf F32 1 := setItems size (fun _ _ => value c) old
/-- `VarFn::tick`, `shared.rs:171-174`. -/
def varFnTick {n : Nat} (f : F32 → Frame F32 n) (c : Cell) : Frame F32 n := f (value c)
/-- `VarFn::process`, `shared.rs:176-182`. -/
def varFnProcess {n : Nat} (f : F32 → Frame F32 n) (c : Cell) (size : Nat) (old : Buf F32 n) : Buf F32 n :=
  setItems size (fun ch _ => f (value c) ch) old

/-! ### Timer -/

/-- `Timer`, `shared.rs:192-196`. `time` is modelled by a real number; `toF32` is the conversion `as f32`. -/
structure Timer where
  time : ℝ
  sampleDuration : ℝ

/-- `Timer::new`, `shared.rs:200-207`. -/
noncomputable def timerNew (toF32 : ℝ → F32) (_ : Cell) : Timer × Cell := (⟨0, 1 / 44100⟩, ⟨toF32 0⟩)
/-- `Timer::reset`, `shared.rs:215-218`. -/
noncomputable def timerReset (toF32 : ℝ → F32) (t : Timer) : Timer × Cell := ({ t with time := 0 }, ⟨toF32 0⟩)
/-- `Timer::set_sample_rate`, `shared.rs:220-222`. -/
noncomputable def timerRate (sr : ℝ) (t : Timer) : Timer := { t with sampleDuration := 1 / sr }
/-- `Timer::tick`, `shared.rs:225-229`. -/
noncomputable def timerTick (toF32 : ℝ → F32) (t : Timer) : Timer × Cell :=
  ({ t with time := t.time + t.sampleDuration }, ⟨toF32 (t.time + t.sampleDuration)⟩)
/-- `Timer::process`, `shared.rs:231-234`. -/
noncomputable def timerProcess (toF32 : ℝ → F32) (t : Timer) (size : Nat) : Timer × Cell :=
  ({ t with time := t.time + size * t.sampleDuration }, ⟨toF32 (t.time + size * t.sampleDuration)⟩)

/-! ### Atomic tables -/

/-- `AtomicTable::at`, `shared.rs:272-274`; `none` is the index panic. -/
def tableAt (t : List ℝ) (i : Nat) : Option ℝ := t[i]?

/-- `usize::wrapping_sub(1)`. -/
def wrappingPred (i : Nat) : Nat := (i + (2 ^ 64 - 1)) % 2 ^ 64

/-- `f32::to_int_unchecked::<usize>(p)`: truncation, undefined behaviour (`none`) unless the result fits. -/
noncomputable def toInt (p : ℝ) : Option Nat := if 0 ≤ p ∧ p < 2 ^ 64 then some ⌊p⌋₊ else none

/-- `AtomicTable::read_cubic`, `shared.rs:282-293`. -/
noncomputable def readCubic (t : List ℝ) (phase : ℝ) : Option ℝ :=
  let p := (t.length : ℝ) * phase
  (toInt p).bind fun i =>
  let w := p - i
  let mask := t.length - 1
  let i0 := wrappingPred i &&& mask
  let i1 := i &&& mask
  let i2 := (i1 + 1) &&& mask
  let i3 := (i1 + 2) &&& mask
  (tableAt t i0).bind fun y0 => (tableAt t i1).bind fun y1 => (tableAt t i2).bind fun y2 => (tableAt t i3).bind fun y3 =>
  some (spline y0 y1 y2 y3 w)

/-- `AtomicTable::read_linear`, `shared.rs:296-305`. -/
noncomputable def readLinear (t : List ℝ) (phase : ℝ) : Option ℝ :=
  let p := (t.length : ℝ) * phase
  (toInt p).bind fun i =>
  let w := p - i
  let mask := t.length - 1
  let i0 := i &&& mask
  let i1 := (i0 + 1) &&& mask
  (tableAt t i0).bind fun y0 => (tableAt t i1).bind fun y1 => some (lerp y0 y1 w)

/-- `AtomicTable::read_nearest`, `shared.rs:308-314`. -/
noncomputable def readNearest (t : List ℝ) (phase : ℝ) : Option ℝ :=
  let p := (t.length : ℝ) * phase
  (toInt p).bind fun i => tableAt t (i &&& (t.length - 1))

/-- `Interpolation`: `shared.rs:242-247`. -/
inductive Interpolation where
  | nearest | linear | cubic

/-- Dispatch in `AtomicSynth::tick`, `shared.rs:380-384`. -/
noncomputable def readMode (m : Interpolation) (t : List ℝ) (phase : ℝ) : Option ℝ :=
  match m with
  | .nearest => readNearest t phase
  | .linear => readLinear t phase
  | .cubic => readCubic t phase

/-- `AtomicSynth::tick`, `shared.rs:375-386`: new phase and output. -/
noncomputable def synthTick (m : Interpolation) (t : List ℝ) (dur : ℝ) (phase freq : ℝ) : ℝ × Option ℝ :=
  let p := phase + freq * dur
  let p := p - ⌊p⌋
  (p, readMode m t p)

/-! ### Sample-and-hold -/

/-- `Hold`, `noise.rs:243-251`. `rnd` is the generator state, `next` its `f64()` in [0, 1) (external crate `funutd`). -/
structure Hold (R : Type) where
  rnd : R
  t : ℝ
  nextT : ℝ
  hold : ℝ

/-- `Hold::reset`, `noise.rs:282-286`. -/
def holdReset {R : Type} (seed : R) (h : Hold R) : Hold R := { h with rnd := seed, t := 0, nextT := 0 }

/-- `Hold::tick`, `noise.rs:293-306`. -/
noncomputable def holdTick {R : Type} (next : R → R × ℝ) (dur variability : ℝ) (h : Hold R) (x f : ℝ) : Hold R × ℝ :=
  let h' : Hold R :=
    if h.nextT ≤ h.t then
      { h with
        hold := x
        rnd := (next h.rnd).1
        nextT := h.t + lerp (1 - variability) (1 + variability) (next h.rnd).2 / f }
    else h
  ({ h' with t := h'.t + dur }, h'.hold)

end Fundsp.Shared
