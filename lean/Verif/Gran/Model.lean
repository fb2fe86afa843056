import Verif.Seq.Model
import Mathlib.Analysis.SpecialFunctions.Trigonometric.Basic

/-!
# Granular synthesizer: model

`/repo/src/granular.rs`, over the reals. The texture, the generator function and the random number generator (crate `funutd`) are arbitrary functions,
as are the units of the grains, which are states of one arbitrary node. Failed assertions are errors. The loop that spawns the grains of a voice does
not terminate for every generator; it gets a bound on its rounds and running out of rounds is an error of its own, see `C80_total` and `C80_violation_endless`.
-/

noncomputable section
namespace Fundsp.Gran
open Fundsp.Seq

/-- Parameters of the synthesizer, `granular.rs:24-46`, and of the crates it uses. -/
structure Cfg (R U : Type) where
  voices : Nat
  beatLength : ℝ
  beatsPerCycle : ℝ
  inner : ℝ
  outer : ℝ
  jitter : ℝ
  texture : ℝ × ℝ × ℝ → ℝ × ℝ × ℝ
  generator : ℝ → ℝ → ℝ → ℝ → ℝ → ℝ → ℝ × ℝ × U
  /-- `Rnd::from_u64`. -/
  seed : Nat → R
  /-- `Rnd::f32`. -/
  f32 : R → ℝ × R
  /-- `Rnd::u64`. -/
  u64 : R → Nat × R
  /-- `ping(false, AttoHash::new(h))`. -/
  ping : Nat → U → U

/-- `voices` and `rnd`: `granular.rs:30, 45`. -/
structure Voices (R : Type) where
  next : Nat → ℝ
  rnd : R

/-- A grain as it is handed to the sequencer. -/
structure Grain (U : Type) where
  voice : Nat
  start : ℝ
  len : ℝ
  env : ℝ
  unit : U

/-- How a call can fail to return: a panic, or a loop without end. -/
inductive Stop where
  | panic
  | endless

variable {R U : Type}

/-- `voice_d`: `granular.rs:113-117, 134-138`. -/
def voiceD (c : Cfg R U) (voice : Nat) : ℝ := if c.voices = 1 then 0.5 else voice / (c.voices - 1 : Nat)

/-- `helix_position`: `granular.rs:104-127`. -/
def helix (c : Cfg R U) (voice : Nat) (time : ℝ) (r : R) : (ℝ × ℝ × ℝ) × R :=
  let cycleLength := c.beatLength * c.beatsPerCycle
  let cycle : ℝ := ⌊time / cycleLength⌋
  let cycleStart := cycle * cycleLength
  let cycleD := (time - cycleStart) / cycleLength
  let z := cycleD * 1
  let beat := cycleD * c.beatsPerCycle
  let radius := c.inner + (c.outer - c.inner) * voiceD c voice
  let x := Real.cos (beat * (2 * Real.pi)) * radius
  let y := Real.sin (beat * (2 * Real.pi)) * radius
  let a := c.f32 r
  let b := c.f32 a.2
  let d := c.f32 b.2
  ((x + (a.1 * 2 - 1) * c.jitter, y + (b.1 * 2 - 1) * c.jitter, z + (d.1 * 2 - 1) * c.jitter), d.2)

/-- `clamp(-1.0, 1.0)`. -/
def clamp11 (x : ℝ) : ℝ := max (-1) (min x 1)

/-- The call of the generator: `granular.rs:132-146`. -/
def request (c : Cfg R U) (voice : Nat) (t : ℝ) (r : R) : (ℝ × ℝ × U) × R :=
  let p := helix c voice t r
  let v := c.texture p.1
  (c.generator t (t / c.beatLength) (voiceD c voice * 2 - 1) (clamp11 v.1) (clamp11 v.2.1) (clamp11 v.2.2), p.2)

open Classical in
/-- `instantiate`: `granular.rs:128-167`. -/
def instantiate (c : Cfg R U) (voice : Nat) (s : Voices R) : Except Stop (Voices R × Grain U) :=
  let t := s.next voice
  let q := request c voice t s.rnd
  let len := q.1.1
  let env := q.1.2.1
  if ¬ 0 ≤ env then .error .panic
  else if ¬ env < len then .error .panic
  else if t = 0 ∧ voice ≠ 0 then .error .panic
  else
    let next := if t = 0 then fun i => if 1 ≤ i ∧ i < c.voices then (len - env) * i / c.voices else s.next i else s.next
    let next := Function.update next voice (t + len - env)
    let h := c.u64 q.2
    .ok (⟨next, h.2⟩, ⟨voice, t, len, env, c.ping h.1 q.1.2.2⟩)

open Classical in
/-- The loop over grains of one voice: `granular.rs:176-178`. -/
def voiceLoop (c : Cfg R U) (before : ℝ) (voice : Nat) : Nat → Voices R → Except Stop (Voices R × List (Grain U))
  | 0, s => if s.next voice < before then .error .endless else .ok (s, [])
  | fuel + 1, s =>
    if s.next voice < before then
      match instantiate c voice s with
      | .error e => .error e
      | .ok (s', g) =>
        match voiceLoop c before voice fuel s' with
        | .error e => .error e
        | .ok (s'', gs) => .ok (s'', g :: gs)
    else .ok (s, [])

/-- The loop over voices: `granular.rs:174-180`. -/
def voicesLoop (c : Cfg R U) (before : ℝ) (fuel : Nat) : List Nat → Voices R → Except Stop (Voices R × List (Grain U))
  | [], s => .ok (s, [])
  | v :: vs, s =>
    match voiceLoop c before v fuel s with
    | .error e => .error e
    | .ok (s', gs) =>
      match voicesLoop c before fuel vs s' with
      | .error e => .error e
      | .ok (s'', gs') => .ok (s'', gs ++ gs')

/-- `instantiate_voices`: `granular.rs:170-176`. -/
def instantiateVoices (c : Cfg R U) (fuel : Nat) (before : ℝ) (s : Voices R) : Except Stop (Voices R × List (Grain U)) :=
  voicesLoop c before fuel (List.range c.voices) s

/-- The event made by `push_duration`: `granular.rs:163-170`, `sequencer.rs:406-423`. -/
def Grain.event (g : Grain U) (id : Nat) : Ev ℝ U :=
  { unit := g.unit, start := g.start, stop := some (g.start + g.len), ease := .power, fadeIn := g.env, fadeOut := g.env, id := id }

/-- `Granular`: `granular.rs:27-46`. `ids` is the next fresh event identifier. -/
structure St (R U : Type) where
  voices : Voices R
  seq : Sq ℝ U
  sr : ℝ
  time : ℝ
  rndSeed : Nat
  ids : Nat

/-- Number events from `ids` on. -/
def events (ids : Nat) : List (Grain U) → List (Ev ℝ U)
  | [] => []
  | g :: gs => g.event ids :: events (ids + 1) gs

/-- `new` with the sample rate set at once, `granular.rs:70-101, 197-200`; `seed` is `texture_seed` or the latest hash. -/
def St.new (c : Cfg R U) (sr : ℝ) (seed ids : Nat) : St R U :=
  { voices := ⟨fun _ => 0, c.seed seed⟩, seq := Sq.new false sr, sr := sr, time := 0, rndSeed := seed, ids := ids }

/-- `set_hash`: `granular.rs:214-217`. -/
def St.setHash (c : Cfg R U) (s : St R U) (h : Nat) : St R U := { s with rndSeed := h, voices := { s.voices with rnd := c.seed h } }

/-- `reset`: `granular.rs:183-190`. Only the first `c.voices` entries of `next` have a meaning. -/
def St.reset (c : Cfg R U) (reset : U → U) (s : St R U) : St R U :=
  { s with voices := ⟨fun _ => 0, c.seed s.rndSeed⟩, seq := s.seq.reset reset, time := 0 }

/-- The common part of `tick` and `process`: advance the time, spawn grains, push them: `granular.rs:203-204, 209-210`. -/
def St.spawn (c : Cfg R U) (fuel : Nat) (setRate : ℝ → U → U) (samples : ℝ) (s : St R U) : Except Stop (St R U × List (Grain U)) :=
  let time := s.time + samples / s.sr
  match instantiateVoices c fuel time s.voices with
  | .error e => .error e
  | .ok (v, gs) =>
    .ok ({ s with voices := v, time := time, seq := (events s.ids gs).foldl (Sq.push setRate) s.seq, ids := s.ids + gs.length }, gs)

variable {n : Nat}

/-- Calls. -/
inductive Op (n : Nat) where
  | tick
  | block (size : Nat) (out buf : Buf ℝ n) (g : Garb ℝ) (inp : Buf ℝ 0)

/-- Number of samples rendered by a call. -/
def Op.samples : Op n → Nat
  | .tick => 1
  | .block size .. => size

/-- `tick` and `process`: `granular.rs:202-212`. The grains spawned are recorded. -/
def St.step (X : Node ℝ 0 n) (H : Heap ℝ X.σ) (ease : Fade → ℝ → ℝ) (setRate : ℝ → X.σ → X.σ) (c : Cfg R X.σ) (fuel : Nat) (s : St R X.σ) (o : Op n) :
    Except Stop (St R X.σ × List (Grain X.σ) × List (Frame ℝ n)) :=
  match s.spawn c fuel setRate o.samples with
  | .error e => .error e
  | .ok (s, gs) =>
    match o with
    | .tick => let r := s.seq.tick X H ease; .ok ({ s with seq := r.1 }, gs, [r.2])
    | .block size out buf g inp =>
      let r := s.seq.process X H ease g inp buf size out
      .ok ({ s with seq := r.1 }, gs, (List.range size).map r.2.frame)

/-- Any number of calls: grains spawned and frames output. -/
def St.run (X : Node ℝ 0 n) (H : Heap ℝ X.σ) (ease : Fade → ℝ → ℝ) (setRate : ℝ → X.σ → X.σ) (c : Cfg R X.σ) (fuel : Nat) :
    List (Op n) → St R X.σ → Except Stop (St R X.σ × List (Grain X.σ) × List (Frame ℝ n))
  | [], s => .ok (s, [], [])
  | o :: os, s =>
    match s.step X H ease setRate c fuel o with
    | .error e => .error e
    | .ok (s, gs, fs) =>
      match St.run X H ease setRate c fuel os s with
      | .error e => .error e
      | .ok (s, gs', fs') => .ok (s, gs ++ gs', fs ++ fs')

end Fundsp.Gran
