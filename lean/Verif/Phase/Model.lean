import Verif.Osc.Model
import Verif.Noise.Model
import Verif.Noise.Props
import Verif.Wavetable.Synth
import Verif.Setting.Model

/-!
# Seeds and initial phases

The generators of `/repo/src/oscillator.rs`, `wavetable.rs` and `noise.rs` with everything that decides where they start: the pseudorandom hash given by `ping`, the
`seed` and `phase` settings, `reset`, and the builder methods `An::phase` and `An::seed` (`/repo/src/combinator.rs:263-277`). Numbers are real. The steps of the
generators are those of the models of the individual units.
-/

noncomputable section
namespace Fundsp.Phase
open Fundsp Fundsp.Setting

/-- `Parameter`: `setting.rs:16-53`, the variants that the units of this file look at. -/
inductive Par where
  | phase (p : ℝ)
  | seed (n : BitVec 64)
  | roughness (r : ℝ)
  | value (v : ℝ)
  | other

/-- What may happen to a unit. `set` carries the address of the setting. `ping` is `ping(false, ..)`, which gives every leaf its own hash: `h j` is the hash of leaf
number `j`. -/
inductive Ev (i : Nat) where
  | set (path : List Addr) (p : Par)
  | ping (h : Nat → BitVec 64)
  | rate (sr : ℝ)
  | reset
  | tick (x : Frame ℝ i)

/-- A unit with the methods above. -/
structure Gen (i o : Nat) where
  σ : Type
  set : σ → List Addr → Par → σ
  ping : σ → (Nat → BitVec 64) → σ
  rate : σ → ℝ → σ
  reset : σ → σ
  tick : σ → Frame ℝ i → σ × Frame ℝ o

variable {i j o : Nat}

/-- A sequence of calls, and the samples that came out. -/
def Gen.run (G : Gen i o) (s : G.σ) : List (Ev i) → G.σ × List (Frame ℝ o)
  | [] => (s, [])
  | .set path p :: es => G.run (G.set s path p) es
  | .ping h :: es => G.run (G.ping s h) es
  | .rate sr :: es => G.run (G.rate s sr) es
  | .reset :: es => G.run (G.reset s) es
  | .tick x :: es =>
    let r := G.run (G.tick s x).1 es
    (r.1, (G.tick s x).2 :: r.2)

/-! ## Leaves. A leaf does not look at the address of a setting. -/

/-- `set` of `Sine` (`oscillator.rs:88-92`), `Ramp` (`494-498`), `PolySaw` (`584-588`), `PolySquare` (`666-670`) and `PolyPulse` (`746-750`). -/
def oscSet (s : Osc.OscSt) (p : Par) : Osc.OscSt :=
  match p with
  | .phase p => { s with initialPhase := some p }
  | _ => s

/-- An oscillator made of the shared fields and a `tick`. -/
def oscGen (rnd : BitVec 64 → ℝ) (tick : Osc.OscSt → Frame ℝ i → Osc.OscSt × Frame ℝ o) : Gen i o where
  σ := Osc.OscSt
  set s _ p := oscSet s p
  ping s h := s.setHash rnd (h 0)
  rate s sr := s.setSampleRate sr
  reset s := s.reset rnd
  tick := tick

/-- `Sine`. -/
def sine (rnd : BitVec 64 → ℝ) : Gen 1 1 := oscGen rnd Osc.sineTick
/-- `Ramp`. -/
def ramp (rnd : BitVec 64 → ℝ) : Gen 1 1 := oscGen rnd (Osc.ramp rnd).tick
/-- `PolySaw`. -/
def polySaw (rnd : BitVec 64 → ℝ) : Gen 1 1 := oscGen rnd (Osc.polySaw rnd).tick
/-- `PolySquare`. -/
def polySquare (rnd : BitVec 64 → ℝ) : Gen 1 1 := oscGen rnd (Osc.polySquare rnd).tick
/-- `PolyPulse`. -/
def polyPulse (rnd : BitVec 64 → ℝ) : Gen 2 1 := oscGen rnd (Osc.polyPulse rnd).tick

/-- `Dsf::set`: `oscillator.rs:192-198`. -/
def dsfSet (s : Osc.DsfSt) (p : Par) : Osc.DsfSt :=
  match p with
  | .roughness r => s.setRoughness r
  | .phase p => { s with osc := { s.osc with initialPhase := some p } }
  | _ => s

/-- `Dsf`, with the given `tick`. -/
def dsfGen (rnd : BitVec 64 → ℝ) (tick : Osc.DsfSt → Frame ℝ i → Osc.DsfSt × Frame ℝ 1) : Gen i 1 where
  σ := Osc.DsfSt
  set s _ p := dsfSet s p
  ping s h := { s with osc := s.osc.setHash rnd (h 0) }
  rate s sr := { s with osc := s.osc.setSampleRate sr }
  reset s := { s with osc := s.osc.reset rnd }
  tick := tick

/-- `Dsf<U1>`. -/
def dsf1 (rnd : BitVec 64 → ℝ) : Gen 1 1 := dsfGen rnd (Osc.dsf1 rnd).tick
/-- `Dsf<U2>`. -/
def dsf2 (rnd : BitVec 64 → ℝ) : Gen 2 1 := dsfGen rnd (Osc.dsf2 rnd).tick

/-- `WaveSynth::set`: `wavetable.rs:358-362`. -/
def waveSet (s : Wt.WaveSt) (p : Par) : Wt.WaveSt :=
  match p with
  | .phase p => s.setPhase p
  | _ => s

/-- `WaveSynth`: `wavetable.rs:292-375`. -/
def wave (t : Wt.Table) (rnd : Nat → ℝ) (o : Nat) : Gen 1 (o + 1) where
  σ := Wt.WaveSt
  set s _ p := waveSet s p
  ping s h := s.setHash rnd (h 0).toNat
  rate s sr := s.setSampleRate sr
  reset s := s.reset rnd
  tick := Wt.WaveSt.tick t o

/-- State of `PulseWave`: the saw oscillator and the phase-driven one; the other parts of the composition have no state. -/
structure PulseSt where
  a : Wt.WaveSt
  b : Wt.PhaseSt

/-- `PulseWave`: `wavetable.rs:454-504`. The setting goes to the saw oscillator (`wavetable.rs:490-492`), `ping` reaches it as the first leaf; `PhaseSynth` has no hash.
The sample is `saw - saw shifted by the pulse width`, see `Wt.pulseWave`. -/
def pulse (t : Wt.Table) (rnd : Nat → ℝ) : Gen 2 1 where
  σ := PulseSt
  set s _ p := { s with a := waveSet s.a p }
  ping s h := { s with a := s.a.setHash rnd (h 0).toNat }
  rate s sr := ⟨s.a.setSampleRate sr, s.b.setSampleRate sr⟩
  reset s := ⟨s.a.reset rnd, s.b.reset⟩
  tick s x :=
    let r := Wt.WaveSt.tick t 1 s.a (fun _ => x 0)
    let q := Wt.PhaseSt.tick t s.b (fun _ => r.2 1 + x 1)
    (⟨r.1, q.1⟩, fun _ => r.2 0 - q.2 0)

/-- `Noise`: `noise.rs:188-235`. -/
def noise : Gen 0 1 where
  σ := Noise.NoiseSt
  set s _ p := match p with
    | .seed n => s.setSeed n
    | _ => s
  ping s h := s.setHash (h 0)
  rate s _ := s
  reset s := s.reset
  tick := (Noise.noise Noise.realNoise).tick

/-- `Mls`: `noise.rs:117-147`. -/
def mls : Gen 0 1 where
  σ := Noise.MlsSt
  set s _ p := match p with
    | .seed n => { s with seed := some n }
    | _ => s
  ping s h := Noise.MlsSt.reset { s with hash := h 0 }
  rate s _ := s
  reset s := s.reset
  tick := (Noise.mls Noise.realNoise).tick

/-- `Constant`: `audionode.rs:447-505`; `set` at `483-487`. -/
def dc (n : Nat) : Gen 0 n where
  σ := Frame ℝ n
  set s _ p := match p with
    | .value v => fun _ => v
    | _ => s
  ping s _ := s
  rate s _ := s
  reset s := s
  tick s _ := (s, s)

/-! ## Composition -/

/-- `Pipe`: `audionode.rs:1315-1380`. `set` at `1360-1366`; the leaves on the left are numbered by even numbers, those on the right by odd ones. -/
def pipe (A : Gen i j) (B : Gen j o) : Gen i o where
  σ := A.σ × B.σ
  set s path p := match path with
    | .left :: rest => (A.set s.1 rest p, s.2)
    | .right :: rest => (s.1, B.set s.2 rest p)
    | _ => s
  ping s h := (A.ping s.1 (fun n => h (2 * n)), B.ping s.2 (fun n => h (2 * n + 1)))
  rate s sr := (A.rate s.1 sr, B.rate s.2 sr)
  reset s := (A.reset s.1, B.reset s.2)
  tick s x :=
    let a := A.tick s.1 x
    let b := B.tick s.2 a.2
    ((a.1, b.1), b.2)

/-! ## Builder methods -/

/-- `An::phase`: `combinator.rs:263-267`. -/
def phaseBuilder (p : ℝ) : List (Ev i) := [.set [.right] (.phase p), .reset]

/-- `An::seed`: `combinator.rs:272-276`. -/
def seedBuilder (n : BitVec 64) : List (Ev i) := [.set [.left] (.seed n), .reset]

end Fundsp.Phase
