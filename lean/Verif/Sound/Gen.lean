import Verif.Env.Model
import Verif.Math.Music

/-! Sound generators: `/repo/src/gen.rs`, over the reals. The `Dna` of `funutd` answers questions: the answers are parameters, each within the range asked for. -/

noncomputable section
namespace Fundsp.Gen
open Fundsp Fundsp.Math

/-- Answers to `gen_lfo`: `gen.rs:115-138`. -/
inductive LfoDna where
  | sine (f o : ℝ)
  | noise (seed : BitVec 64) (f : ℝ)

/-- The ranges asked for: `gen.rs:121-122, 129-130`. -/
def LfoDna.Valid : LfoDna → Prop
  | .sine f o => 0.05 ≤ f ∧ f ≤ 0.5 ∧ 0 ≤ o ∧ o ≤ 1
  | .noise _ f => 0.5 ≤ f ∧ f ≤ 1

/-- The control function: `gen.rs:125, 133`. -/
def lfoControl (hash64a : BitVec 64 → BitVec 64) (rnd2 : BitVec 64 → ℝ) : LfoDna → ℝ → ℝ
  | .sine f o, t => sinHz f (t + o) * 0.5 + 0.5
  | .noise seed f, t => splineNoise hash64a rnd2 seed (t * f) * 0.5 + 0.5

/-- The unit: `gen.rs:125, 133`. -/
def lfoUnit (hash64a : BitVec 64 → BitVec 64) (rnd2 rnd : BitVec 64 → ℝ) (d : LfoDna) : Node ℝ 0 1 :=
  Env.envelope rnd (fun t => (fun _ => lfoControl hash64a rnd2 d t))

/-- The control functions of `gen_effect`: `gen.rs:157-160`. -/
def flangerControl (t : ℝ) : ℝ := lerp11 0.005 0.015 (sinHz 0.1 t)
def phaserControl (t : ℝ) : ℝ := lerp11 0 1 (sinHz 0.1 t)

/-- `gen.rs:164-171`. -/
inductive Waveform | saw | square | triangle | softSaw | organ
/-- `gen.rs:173-184`. -/
inductive ChoiceX | oscillator | pulseWave | noisySine | resonator | overdriveSine
deriving DecidableEq
/-- `gen.rs:186-193`. -/
inductive ChoiceY | amplification | vibrato | moogFilter | combFilter | fromX
deriving DecidableEq
/-- `gen.rs:195-203`. -/
inductive ChoiceZ | amplification | peakFilter | bandpassFilter | moogFilter | moogFilterZ | overdrive
deriving DecidableEq

/-- Answers to `gen_granular`: `gen.rs:216-344`; `jitterX` and `vibratoX` before the transformation. Those that are not asked for are ignored. -/
structure Dna where
  grainLength : ℝ
  envelopeFraction : ℝ
  voices : Nat
  innerRadius : ℝ
  outerRadius : ℝ
  jitterX : ℝ
  choiceX : ChoiceX
  waveform : Waveform
  choiceY : ChoiceY
  vibratoX : ℝ
  choiceZ : ChoiceZ
  bandpassQ : ℝ
  peakQ : ℝ
  stereoWidth : ℝ

/-- The ranges asked for: `gen.rs:218-344`. The choice of `Y` is among four, the one of `Z` among five alternatives. -/
structure Dna.Valid (d : Dna) : Prop where
  grainLength : 0.030 ≤ d.grainLength ∧ d.grainLength ≤ 0.100
  envelopeFraction : 0.333 ≤ d.envelopeFraction ∧ d.envelopeFraction ≤ 0.5
  voices : 12 ≤ d.voices ∧ d.voices ≤ 42
  innerRadius : 0.03 ≤ d.innerRadius ∧ d.innerRadius ≤ 0.10
  outerRadius : 0.13 ≤ d.outerRadius ∧ d.outerRadius ≤ 0.20
  jitterX : 0 ≤ d.jitterX ∧ d.jitterX ≤ 1
  choiceY : d.choiceY ≠ .fromX
  vibratoX : 0 ≤ d.vibratoX ∧ d.vibratoX ≤ 1
  choiceZ : d.choiceZ ≠ .moogFilter
  bandpassQ : 1 ≤ d.bandpassQ ∧ d.bandpassQ ≤ 4
  peakQ : 2 ≤ d.peakQ ∧ d.peakQ ≤ 5
  stereoWidth : 0.3 ≤ d.stereoWidth ∧ d.stereoWidth ≤ 0.8

/-- `choice_y`: `gen.rs:252-271`. -/
def Dna.y (d : Dna) : ChoiceY := match d.choiceX with
  | .oscillator => d.choiceY
  | _ => .fromX
/-- `vibrato_depth`: `gen.rs:273-278`. -/
def Dna.depth (d : Dna) : ℝ := match d.y with
  | .vibrato => xerp (semitoneRatio 0.2) 2 (d.vibratoX * d.vibratoX)
  | _ => semitoneRatio 0.2
/-- `choice_z`: `gen.rs:287-326`. -/
def Dna.z (d : Dna) : ChoiceZ := match d.y with
  | .moogFilter => .moogFilter
  | _ => d.choiceZ
/-- `bandpass_q`, `peak_q`: `gen.rs:328-338`. -/
def Dna.bq (d : Dna) : ℝ := if d.z = .bandpassFilter then d.bandpassQ else 1
def Dna.pq (d : Dna) : ℝ := if d.z = .peakFilter then d.peakQ else 1

/-- The source of a grain. -/
inductive Source where
  /-- `saw_hz(f)` ... -/
  | wave (w : Waveform) (f : ℝ)
  /-- `dc((f, width)) >> pulse()` -/
  | pulse (f width : ℝ)
  /-- `(white() >> lowpass_hz(bandwidth, 1.0)) * sine_hz(f)` -/
  | noisySine (bandwidth f : ℝ)
  /-- `sine_hz(f) >> shape(Tanh(hardness))` -/
  | overdrive (f hardness : ℝ)
  /-- `pink() >> resonator_hz(f, bandwidth) >> resonator_hz(f', bandwidth)` -/
  | resonator (f f' bandwidth : ℝ)

/-- What follows the source. -/
inductive Stage where
  /-- `moog_hz(f, q)` -/
  | moog (f q : ℝ)
  /-- `bandpass_hz(f, q)` -/
  | bandpass (f q : ℝ)
  /-- `peak_hz(f, q)` -/
  | peak (f q : ℝ)
  /-- `shape(Softsign(hardness))` -/
  | softsign (hardness : ℝ)
  /-- `feedback2(shape(Tanh(1.1)), delay(t))` -/
  | comb (t : ℝ)

/-- A grain: source, stages, multiplication by `amp`, and `pan` if stereo. -/
structure Grain where
  source : Source
  stages : List Stage
  amp : ℝ
  pan : Option ℝ
  length : ℝ
  envelope : ℝ

/-- Pitch of a grain: `gen.rs:348-353`; `none` is the panic of an index out of range. -/
def pitch (scale : List ℝ) (x : ℝ) : Option ℝ :=
  if scale.length > 0 then
    let d := lerp11 0 (scale.length - 0.01) x
    (scale[⌊d⌋₊]?).map fun p => midiHz (p + 0.02 * (d - round d))
  else
    some (xerp11 (midiHz 36) (midiHz 108) x)

/-- With vibrato: `gen.rs:355-367`. -/
def bent (d : Dna) (t y f : ℝ) : ℝ := match d.y with
  | .vibrato =>
    let r := max 1 (min d.depth (xerp11 (1 / d.depth) d.depth y))
    f * xerp11 r (1 / r) (sinHz 6 t)
  | _ => f

/-- Source and amplitude: `gen.rs:369-403`. -/
def source (d : Dna) (f y amp : ℝ) : Source × ℝ := match d.choiceX with
  | .oscillator => (.wave d.waveform f, amp)
  | .pulseWave => (.pulse f (1 - xerp11 0.02 0.50 y), amp)
  | .noisySine => (.noisySine (xerp11 1 200 y) f, amp * (20 / Real.sqrt (xerp11 1 200 y)))
  | .overdriveSine => (.overdrive f (0.1 + xerp11 0.1 10 y), amp / (0.1 + xerp11 0.1 10 y))
  | .resonator => (.resonator f (f + 0.5) (xerp11 2 100 y), amp * 0.5)

/-- `gen.rs:405-413`. -/
def stageY (d : Dna) (y z : ℝ) (g : List Stage × ℝ) : List Stage × ℝ := match d.y with
  | .amplification => (g.1, g.2 * xerp11 0.1 2 y)
  | .moogFilter => (g.1 ++ [.moog (xerp11 200 20000 y) (lerp11 0.25 0.65 z)], g.2)
  | _ => g

/-- `gen.rs:415-435`. -/
def stageZ (d : Dna) (z : ℝ) (g : List Stage × ℝ) : List Stage × ℝ := match d.z with
  | .amplification => (g.1, g.2 * xerp11 0.1 2 z)
  | .bandpassFilter => (g.1 ++ [.bandpass (xerp11 100 10000 z) d.bq], g.2)
  | .peakFilter => (g.1 ++ [.peak (xerp11 100 10000 z) d.pq], g.2 * 0.5)
  | .moogFilterZ => (g.1 ++ [.moog (xerp11 200 20000 z) 0.6], g.2)
  | .overdrive => (g.1 ++ [.softsign (0.1 + xerp11 0.1 10 z)], g.2 / (0.1 + xerp11 0.1 10 z))
  | .moogFilter => g

/-- `gen.rs:437-440`. -/
def stageComb (d : Dna) (y : ℝ) (g : List Stage × ℝ) : List Stage × ℝ :=
  if d.y = .combFilter then (g.1 ++ [.comb (xerp11 0.001 0.020 y)], g.2 * 0.5) else g

/-- `create_grain`: `gen.rs:346-453`. -/
def createGrain (channels : Nat) (scale : List ℝ) (d : Dna) (t v x y z : ℝ) : Option Grain :=
  (pitch scale x).map fun f =>
    let f := bent d t y f
    let s := source d f y (0.1 / Real.sqrt d.voices)
    let g := stageComb d y (stageZ d z (stageY d y z ([], s.2)))
    { source := s.1, stages := g.1, amp := g.2,
      pan := if channels = 2 then some (v * d.stereoWidth) else none,
      length := d.grainLength, envelope := d.grainLength * d.envelopeFraction }

/-- `gen_granular`: `gen.rs:204-467`; `none` is the panic of the assertion. The result is the grain function. -/
def genGranular (channels : Nat) (scale : List ℝ) (d : Dna) : Option (ℝ → ℝ → ℝ → ℝ → ℝ → Option Grain) :=
  if channels = 1 ∨ channels = 2 then some (createGrain channels scale d) else none

end Fundsp.Gen
