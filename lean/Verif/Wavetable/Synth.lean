import Verif.Wavetable.Props
import Verif.Core.Combinators
import Verif.Core.Simd

/-!
# Wavetable oscillators: model

`WaveSynth`, `PhaseSynth` and `PulseWave`, `/repo/src/wavetable.rs:254-504`, over the reals. The table `t` is shared and immutable; `rnd` is `rnd1`
(`math.rs:529-536`). Reads that would panic give zero; `C74_no_panic` shows that there are none.
-/

noncomputable section
namespace Fundsp.Wt

/-- The value and hint of `read`. -/
def readD (t : Table) (hint : Nat) (f phase : ℝ) : ℝ × Nat := (read t hint f phase).getD (0, hint)

/-- `read_simd`: `wavetable.rs:238-252`: one table for all lanes. -/
def readSimd (t : Table) (hint : Nat) (f : ℝ) (phase : Nat → ℝ) : (Nat → ℝ) × Nat :=
  (fun j => (readD t hint f (phase j)).1, (tableIndex t hint f).getD hint)

/-- `WaveSynth`: `wavetable.rs:258-273`. -/
structure WaveSt where
  phase : ℝ
  hash : Nat
  initial : Option ℝ
  hint : Nat
  sd : ℝ

namespace WaveSt

/-- `WaveSynth::new`: `wavetable.rs:279-290`. -/
def new : WaveSt := ⟨0, 0, none, 0, 1 / 44100⟩

/-- `reset`: `wavetable.rs:301-306`. -/
def reset (rnd : Nat → ℝ) (s : WaveSt) : WaveSt := { s with phase := match s.initial with | some p => p | none => rnd s.hash }

/-- `set_sample_rate`: `wavetable.rs:308-311`. -/
def setSampleRate (s : WaveSt) (sr : ℝ) : WaveSt := { s with sd := 1 / sr }

/-- `set_hash`: `wavetable.rs:313-316`. -/
def setHash (rnd : Nat → ℝ) (s : WaveSt) (h : Nat) : WaveSt := reset rnd { s with hash := h }

/-- `set`: `wavetable.rs:358-362`. -/
def setPhase (s : WaveSt) (p : ℝ) : WaveSt := { s with initial := some p }

/-- `tick`: `wavetable.rs:319-334`; `o + 1` outputs. -/
def tick (t : Table) (o : Nat) (s : WaveSt) (x : Frame ℝ 1) : WaveSt × Frame ℝ (o + 1) :=
  let frequency := x 0
  let delta := frequency * s.sd
  let phase := s.phase + delta
  let phase := phase - ⌊phase⌋
  let r := readD t s.hint |frequency| phase
  ({ s with phase := phase, hint := r.2 }, fun i => if i = 0 then r.1 else phase)

/-- Sum of the first `k` inputs in phase units, on top of `phase`. -/
def accum (phase sd : ℝ) (x : Nat → ℝ) : Nat → ℝ
  | 0 => phase
  | k + 1 => accum phase sd x k + x k * sd

/-- One round of the SIMD loop of `process`: `wavetable.rs:340-354`. Local `phase` and `table_hint` are those of the state. -/
def item (t : Table) (o : Nat) (s : WaveSt) (x : Nat → Frame ℝ 1) : WaveSt × (Nat → Frame ℝ (o + 1)) :=
  let frequency := x 0 0
  let phases := fun j => accum s.phase s.sd (fun k => x k 0) (j + 1)
  let wrapped := fun j => phases j - ⌊phases j⌋
  let r := readSimd t s.hint |frequency| wrapped
  ({ s with phase := phases 7, hint := r.2 }, fun j i => if i = 0 then r.1 j else wrapped j)

/-- `process`: `wavetable.rs:335-356`. -/
def process (t : Table) (o : Nat) (s : WaveSt) (size : Nat) (inp : Buf ℝ 1) (out : Buf ℝ (o + 1)) : WaveSt × Buf ℝ (o + 1) :=
  let r := itemLoop (item t o) inp 0 (fullSimdItems size) s out
  let s' := { r.1 with phase := r.1.phase - ⌊r.1.phase⌋ }
  tickLoop (tick t o) inp (8 * fullSimdItems size) (size - 8 * fullSimdItems size) s' r.2

end WaveSt

/-- `WaveSynth`: `wavetable.rs:292-375`. -/
def waveSynth (t : Table) (rnd : Nat → ℝ) (o : Nat) : Node ℝ 1 (o + 1) where
  σ := WaveSt
  reset := WaveSt.reset rnd
  tick := WaveSt.tick t o
  process := fun _ => WaveSt.process t o

/-- `PhaseSynth`: `wavetable.rs:381-388`. -/
structure PhaseSt where
  phase : ℝ
  ready : Bool
  hint : Nat
  sr : ℝ

namespace PhaseSt

/-- `PhaseSynth::new`: `wavetable.rs:383-391`. -/
def new : PhaseSt := ⟨0, false, 0, 44100⟩

/-- `reset`: `wavetable.rs:399-401`. -/
def reset (s : PhaseSt) : PhaseSt := { s with ready := false }

/-- `set_sample_rate`: `wavetable.rs:403-405`. -/
def setSampleRate (s : PhaseSt) (sr : ℝ) : PhaseSt := { s with sr := sr }

/-- `tick`: `wavetable.rs:408-435`. -/
def tick (t : Table) (s : PhaseSt) (x : Frame ℝ 1) : PhaseSt × Frame ℝ 1 :=
  let phase := x 0 - ⌊x 0⌋
  let delta := if s.ready then min |phase - s.phase| (min |phase - 1 - s.phase| |phase + 1 - s.phase|) else 0.5
  let r := readD t s.hint (delta * s.sr) phase
  ({ s with phase := phase, ready := true, hint := r.2 }, fun _ => r.1)

end PhaseSt

/-- `PhaseSynth`: `wavetable.rs:394-440`; `process` is the default one. -/
def phaseSynth (t : Table) : Node ℝ 1 1 := .ofTick PhaseSt PhaseSt.reset (PhaseSt.tick t)

/-- `(pass() + pass()) >> PhaseSynth`: `wavetable.rs:464`. -/
def shifted (t : Table) : Node ℝ (1 + 1) 1 := pipe (binop (· + ·) (multiPass 1) (multiPass 1)) (phaseSynth t)

/-- `WaveSynth<U2> | pass()`: `wavetable.rs:463`. -/
def carrier (t : Table) (rnd : Nat → ℝ) : Node ℝ (1 + 1) (2 + 1) := stack (waveSynth t rnd 1) (multiPass 1)

/-- `pass() | shifted`: `wavetable.rs:464`. -/
def voices (t : Table) : Node ℝ (1 + (1 + 1)) (1 + 1) := stack (multiPass 1) (shifted t)

/-- `PulseWave`: `wavetable.rs:454-504`. -/
def pulseWave (t : Table) (rnd : Nat → ℝ) : Node ℝ 2 1 :=
  pipe (j := 2) (pipe (i := 2) (j := 3) (carrier t rnd) (voices t)) (binop (· - ·) (multiPass 1) (multiPass 1))

end Fundsp.Wt
