import Verif.Core.Expr
import Verif.Env.Model
import Verif.Osc.Model
import Verif.Pan.Model
import Verif.Dyn.Model
import Verif.Math.Music
import Mathlib.Algebra.Order.Round

/-! Ready-made sounds: `/repo/src/sound.rs`, over the reals. `rnd` is `rnd1` (`math.rs:529-536`). Initial phases and hashes are parameters (C92). -/

noncomputable section
namespace Fundsp.Sound
open Fundsp Fundsp.Math

/-- Nodes of one Rust type whose closures have captured different values `a`: as group members, they are one node with `a` in the state. -/
def captured {A : Type} {α : Type} {i o : Nat} (X : A → Node α i o) : Node α i o where
  σ := Σ a, (X a).σ
  reset s := ⟨s.1, (X s.1).reset s.2⟩
  tick s x := (⟨s.1, ((X s.1).tick s.2 x).1⟩, ((X s.1).tick s.2 x).2)
  process g s size inp out := (⟨s.1, ((X s.1).process g s.2 size inp out).1⟩, ((X s.1).process g s.2 size inp out).2)

/-! ## Risset glissando -/

/-- Rust's `x % m` for `x ≥ 0`, `m > 0`. -/
def remainder (x m : ℝ) : ℝ := x - m * ⌊x / m⌋

/-- `sound.rs:12`. -/
def rissetPhase (i : Nat) (t : ℝ) : ℝ := remainder (t * 0.1 + i * 10 / 40) 10 / 10

/-- The control function of voice `i`: `sound.rs:10-16`. Channel 0 is the amplitude, channel 1 the frequency. -/
def rissetControl (rnd : BitVec 64 → ℝ) (up : Bool) (i : Nat) (t : ℝ) : Frame ℝ 2 :=
  let f01 : ℝ × ℝ := if up then (20, 20480) else (20480, 20)
  let phase := rissetPhase i t
  let f := lerp (-1) 1 (rnd (BitVec.ofNat 64 i)) + xerp f01.1 f01.2 phase
  let a := smooth3 (sinHz 0.5 phase) / aWeight f
  ![a, f]

/-- `lfo(control) >> pass() * sine()`: `sound.rs:10-17`. -/
def rissetVoice (rnd : BitVec 64 → ℝ) (up : Bool) (i : Nat) : Node ℝ 0 1 :=
  pipe (Env.envelope rnd (rissetControl rnd up i)) (binop (i := 1) (j := 1) (fun a b => a * b) (multiPass 1) (Osc.sine rnd))

/-- `risset_glissando`: `sound.rs:8-19`. `lfo` samples its control function every 2 ms (`prelude.rs`). -/
def risset (rnd : BitVec 64 → ℝ) (up : Bool) : Node ℝ (0 * 40) 2 :=
  pipe (multiStack 40 (captured (rissetVoice rnd up))) (Expr.mulScalar (reduce (i := 1) (fun a b => a + b) 39 Pan.panner1) 0.1)

/-- The initial state: envelope, oscillator with phase `phase i`, panners at `lerp(-0.5, 0.5, x)`. -/
def rissetNew (rnd : BitVec 64 → ℝ) (up : Bool) (sr : ℝ) (hash : Nat → BitVec 64) (phase : Nat → ℝ) : (risset rnd up).σ :=
  (fun i : Fin 40 => ⟨i.1, (Env.newSt (rissetControl rnd up i.1) 0.002 sr (hash i.1), ((), ⟨phase i.1, 1 / sr, hash i.1, none⟩))⟩,
    fun i : Fin 40 => Pan.PanSt.ofPan (lerp (-0.5) 0.5 (Expr.frac 40 i.1)))

/-! ## Bass drum -/

/-- Pitch of the sweep: `sound.rs:73-74`. -/
def bassPitch (pitch0 pitch1 t : ℝ) : ℝ := xerp pitch0 pitch1 (clamp01 (t * 50)) - 10 * t

/-- `bassdrum`: `sound.rs:68-79`. -/
def bassdrum (rnd : BitVec 64 → ℝ) (pitch0 pitch1 : ℝ) : Node ℝ 0 1 :=
  pipe (binop (i := 0) (j := 0) (fun a b => a * b)
    (pipe (Env.envelope rnd (fun t => (fun _ => bassPitch pitch0 pitch1 t : Frame ℝ 1))) (Osc.sine rnd))
    (Env.envelope rnd (fun t => (fun _ => Real.exp (-t * 9) : Frame ℝ 1)))) Dyn.declick

/-- The initial state of the bass drum. -/
def bassdrumNew (rnd : BitVec 64 → ℝ) (sharpness pitch0 pitch1 sr : ℝ) (hash : Fin 3 → BitVec 64) (phase : ℝ) : (bassdrum rnd pitch0 pitch1).σ :=
  (((Env.newSt (fun t => (fun _ => bassPitch pitch0 pitch1 t)) 0.002 sr (hash 0), (⟨phase, 1 / sr, hash 1, none⟩ : Osc.OscSt)),
    Env.newSt (fun t => (fun _ => Real.exp (-t * 9))) 0.002 sr (hash 2)), (⟨0, xerp 0.002 0.00002 sharpness, 1 / sr⟩ : Dyn.DecSt))

/-! ## Snare drum and cymbal -/

/-- The cutoff of the snare drum: `sound.rs:114`. -/
def snareCutoff (t : ℝ) : Frame ℝ 1 := fun _ => xerp 15000 1000 t

/-- The cutoff of the cymbal: `sound.rs:136`. -/
def cymbalCutoff (t : ℝ) : Frame ℝ 1 := fun _ => xerp 20000 2000 (clamp01 t)

/-! ## Pebbles -/

/-- One pair of partials: `sound.rs:47-60`; `c` is `dt * speed * 0.001`. Both updates use the ratio computed first. -/
def pebblePair (c : ℝ) (d : Nat → ℝ) (i j : Nat) : Nat → ℝ :=
  if d j > d i then d
  else
    let ratio := d i / d j
    let goal : ℝ := max 1 (round ratio : ℝ)
    if goal - ratio < 0 then
      let d := Function.update d i (d i - d i * c * (0.1 + ratio - goal))
      Function.update d j (d j + d j * c * (0.1 + ratio - goal))
    else
      let d := Function.update d i (d i + d i * c * (0.1 + goal - ratio))
      Function.update d j (d j - d j * c * (0.1 + goal - ratio))

/-- All pairs: `sound.rs:45-62`. -/
def gravity (n : Nat) (c : ℝ) (d : Nat → ℝ) : Nat → ℝ :=
  (List.range n).foldl (fun d i => (List.range n).foldl (fun d j => pebblePair c d i j) d) d

/-- One update: returns the frequencies written to the oscillators and the new state of the closure: `sound.rs:31-63`. -/
def pebbleUpdate (n : Nat) (c : ℝ) (d : Nat → ℝ) : (Nat → ℝ) × (Nat → ℝ) :=
  let w := Function.update d 0 110
  (w, gravity n c w)

/-- Update number `k`, where `c k` is `dt * speed * 0.001` (`dt` is zero in the first update, then the time between updates, `system.rs:59-79`): the frequencies written and
the new state of the closure. At time zero the closure reads the frequencies `d0` of the constants. -/
def pebbles (n : Nat) (c : Nat → ℝ) (d0 : Nat → ℝ) : Nat → (Nat → ℝ) × (Nat → ℝ)
  | 0 => pebbleUpdate n (c 0) d0
  | k + 1 => pebbleUpdate n (c (k + 1)) (pebbles n c d0 k).2

/-- Resetting the graph after update `k` (`system.rs:47-51`): time is zero again, so the next update reads the constants, which keep what was written. -/
def pebblesReset (n : Nat) (c : Nat → ℝ) (d0 : Nat → ℝ) (k : Nat) (c' : Nat → ℝ) : Nat → (Nat → ℝ) × (Nat → ℝ) :=
  pebbles n c' (pebbles n c d0 k).1

end Fundsp.Sound
