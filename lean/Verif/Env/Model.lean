import Verif.Core.Simd
import Verif.Math.Model
import Mathlib.Algebra.Order.Floor.Ring
import Mathlib.Logic.Function.Iterate

/-!
# Envelopes: model

Model of `Envelope` and `EnvelopeIn` (`/repo/src/envelope.rs`) and of `adsr_live` (`/repo/src/adsr.rs`), over the reals. `rnd1` (`math.rs:529-536`) is the parameter
`rnd`. The control function of `Envelope` is a function of time; the one of `EnvelopeIn` is a closure with a state `S` of its own.
-/

noncomputable section
namespace Fundsp.Env

open Fundsp.Math (lerp delerp clamp01)

/-- Fields of `Envelope`, `envelope.rs:24-47`, and `EnvelopeIn`, `envelope.rs:194-217`; `clo` is the state of the closure. -/
structure EnvSt (o : Nat) (S : Type) where
  t : ℝ
  t0 : ℝ
  t1 : ℝ
  thash : BitVec 64
  v0 : Frame ℝ o
  v1 : Frame ℝ o
  v : Frame ℝ o
  vd : Frame ℝ o
  interval : ℝ
  dt : ℝ
  hash : BitVec 64
  clo : S

variable {i o : Nat} {S : Type}

/-- `next_interval`: `envelope.rs:83-88`. -/
def EnvSt.nextInterval (rnd : BitVec 64 → ℝ) (s : EnvSt o S) : ℝ := lerp 0.75 1.25 (rnd s.thash) * s.interval

/-- The part of `next_segment` that follows setting `t_0` and `value_0`: `envelope.rs:83-99`, `envelope.rs:261-277`. -/
def EnvSt.segment (rnd : BitVec 64 → ℝ) (env : S → ℝ → S × Frame ℝ o) (s : EnvSt o S) : EnvSt o S :=
  let nextInterval := s.nextInterval rnd
  let t1 := s.t0 + nextInterval
  let r := env s.clo t1
  let u := delerp s.t0 t1 s.t
  let samples := nextInterval / s.dt
  { s with
    t1 := t1
    clo := r.1
    v1 := r.2
    thash := s.thash * 6364136223846793005#64 + 1#64
    v := fun c => lerp (s.v0 c) (r.2 c) u
    vd := fun c => (r.2 c - s.v0 c) / samples }

/-- `next_segment` of `Envelope`: `envelope.rs:79-100`. -/
def next (rnd : BitVec 64 → ℝ) (env : ℝ → Frame ℝ o) (s : EnvSt o Unit) : EnvSt o Unit :=
  { s with t0 := s.t1, v0 := s.v1 }.segment rnd (fun _ t => ((), env t))

/-- `next_segment` of `EnvelopeIn`: `envelope.rs:251-278`. -/
def nextIn (rnd : BitVec 64 → ℝ) (env : S → ℝ → Frame ℝ i → S × Frame ℝ o) (x : Frame ℝ i) (s : EnvSt o S) : EnvSt o S :=
  if s.t0 = 0 ∧ s.t1 = 0 then
    { s with clo := (env s.clo s.t0 x).1, v0 := (env s.clo s.t0 x).2 }.segment rnd (fun c t => env c t x)
  else
    { s with t0 := s.t1, v0 := s.v1 }.segment rnd (fun c t => env c t x)

/-- `if self.t >= self.t_1 { self.next_segment(..) }` with `nx` the segment change: `envelope.rs:130-132`. -/
def EnvSt.norm (nx : EnvSt o S → EnvSt o S) (s : EnvSt o S) : EnvSt o S := if s.t1 ≤ s.t then nx s else s

/-- `value += &value_d; t += sample_duration`: `envelope.rs:134-135`. -/
def EnvSt.step (s : EnvSt o S) : EnvSt o S := { s with v := fun c => s.v c + s.vd c, t := s.t + s.dt }

/-- `tick`: `envelope.rs:128-137`, `envelope.rs:304-313`. -/
def envTick (nx : Frame ℝ i → EnvSt o S → EnvSt o S) (s : EnvSt o S) (x : Frame ℝ i) : EnvSt o S × Frame ℝ o :=
  ((s.norm (nx x)).step, (s.norm (nx x)).v)

/-- `((t_1 - t) / sample_duration).ceil().to_i64() as usize`: `envelope.rs:145-146`. The first conversion saturates; in the second
one a negative number wraps around. -/
def EnvSt.samplesLeft (s : EnvSt o S) : Nat := (max (-2 ^ 63) (min (2 ^ 63 - 1) ⌈(s.t1 - s.t) / s.dt⌉) % 2 ^ 64).toNat

/-- The `while` loop of `process`: `envelope.rs:143-162`, `envelope.rs:322-341`. The inner loop adds `value_d` once per sample. `eager` is true for
`Envelope`, which moves to the next segment also when the block ends with the segment. Returns nothing when out of fuel. -/
def envLoop (eager : Bool) (nx : Frame ℝ i → EnvSt o S → EnvSt o S) (size : Nat) (inp : Buf ℝ i) :
    Nat → Nat → EnvSt o S → Buf ℝ o → Option (EnvSt o S × Buf ℝ o)
  | 0, _, _, _ => none
  | fuel + 1, k, s, out =>
    if k < size then
      let n := min (size - k) s.samplesLeft
      let out' : Buf ℝ o := fun c j => if k ≤ j ∧ j < k + n then (fun y => y + s.vd c)^[j - k] (s.v c) else out c j
      let s' : EnvSt o S := { s with v := fun c => (fun y => y + s.vd c)^[n] (s.v c), t := s.t + n * s.dt }
      let s'' := if n = s.samplesLeft ∧ (eager = true ∨ k + n < size) then nx (inp.frame (k + n)) s' else s'
      envLoop eager nx size inp fuel (k + n) s'' out'
    else some (s, out)

open Classical in
/-- The `while` loop run to its end. A loop that never ends is modelled as leaving everything as it was; under the hypotheses of the theorems it ends. -/
def envRun (eager : Bool) (nx : Frame ℝ i → EnvSt o S → EnvSt o S) (size : Nat) (inp : Buf ℝ i) (s : EnvSt o S) (out : Buf ℝ o) : EnvSt o S × Buf ℝ o :=
  if h : ∃ fuel r, envLoop eager nx size inp fuel 0 s out = some r then h.choose_spec.choose else (s, out)

/-- `Envelope::process`: `envelope.rs:139-163`. -/
def envProcess (nx : EnvSt o S → EnvSt o S) (s : EnvSt o S) (size : Nat) (out : Buf ℝ o) : EnvSt o S × Buf ℝ o :=
  envRun true (fun (_ : Frame ℝ 0) => nx) size (fun c => c.elim0) (s.norm nx) out

/-- `EnvelopeIn::process`: `envelope.rs:315-342`. -/
def envInProcess (nx : Frame ℝ i → EnvSt o S → EnvSt o S) (s : EnvSt o S) (size : Nat) (inp : Buf ℝ i) (out : Buf ℝ o) : EnvSt o S × Buf ℝ o :=
  if size = 0 then (s, out) else envRun false nx size inp (s.norm (nx (inp.frame 0))) out

/-- `Envelope::reset`: `envelope.rs:114-122`. -/
def reset (env : ℝ → Frame ℝ o) (s : EnvSt o Unit) : EnvSt o Unit :=
  { s with t := 0, t0 := 0, t1 := 0, thash := s.hash, v0 := env 0, v1 := env 0 }

/-- `EnvelopeIn::reset`: `envelope.rs:293-298`. The state of the closure is kept. -/
def resetIn (s : EnvSt o S) : EnvSt o S := { s with t := 0, t0 := 0, t1 := 0, thash := s.hash }

/-- `Envelope` as a node. -/
def envelope (rnd : BitVec 64 → ℝ) (env : ℝ → Frame ℝ o) : Node ℝ 0 o where
  σ := EnvSt o Unit
  reset := reset env
  tick := envTick (fun _ => next rnd env)
  process _ s size _ out := envProcess (next rnd env) s size out

/-- `EnvelopeIn` as a node. -/
def envelopeIn (rnd : BitVec 64 → ℝ) (env : S → ℝ → Frame ℝ i → S × Frame ℝ o) : Node ℝ i o where
  σ := EnvSt o S
  reset := resetIn
  tick := envTick (nextIn rnd env)
  process _ s size inp out := envInProcess (nextIn rnd env) s size inp out

/-- State after `Envelope::new(interval, env)` and `set_sample_rate(sr)`: `envelope.rs:58-77`, `envelope.rs:124-126`. -/
def newSt (env : ℝ → Frame ℝ o) (interval sr : ℝ) (hash : BitVec 64) : EnvSt o Unit :=
  reset env ⟨0, 0, 0, 0, 0, 0, 0, 0, interval, 1 / sr, hash, ()⟩

/-- State after `EnvelopeIn::new` and `set_sample_rate`: `envelope.rs:229-249, 300-302`. -/
def newInSt (interval sr : ℝ) (hash : BitVec 64) (c : S) : EnvSt o S :=
  resetIn ⟨0, 0, 0, 0, 0, 0, 0, 0, interval, 1 / sr, hash, c⟩

/-! ## `adsr_live` -/

/-- `ads`: `adsr.rs:54-65`. -/
def ads (attack decay sustain time : ℝ) : ℝ :=
  if time < attack then lerp 0 1 (time / attack)
  else if time - attack < decay then lerp 1 sustain ((time - attack) / decay)
  else sustain

/-- The two shared variables of `adsr_live`: `adsr.rs:28-33`. -/
structure AdsrSt where
  attackStart : ℝ
  releaseStart : ℝ

/-- Initial values: `adsr.rs:28-31`. -/
def AdsrSt.new : AdsrSt := ⟨0, -1⟩

/-- Update of the shared variables: `adsr.rs:35-40`. -/
def AdsrSt.update (c : AdsrSt) (time control : ℝ) : AdsrSt :=
  if 0 ≤ c.releaseStart ∧ 0 < control then ⟨time, -1⟩
  else if c.releaseStart < 0 ∧ control ≤ 0 then ⟨c.attackStart, time⟩
  else c

/-- Value: `adsr.rs:41-50`. -/
def AdsrSt.value (attack decay sustain release : ℝ) (c : AdsrSt) (time : ℝ) : ℝ :=
  if c.releaseStart < 0 then ads attack decay sustain (time - c.attackStart)
  else ads attack decay sustain (time - c.attackStart) * clamp01 (delerp (c.releaseStart + release) c.releaseStart time)

/-- The closure of `adsr_live`: `adsr.rs:34-51`. -/
def adsrEnv (attack decay sustain release : ℝ) : AdsrSt → ℝ → Frame ℝ 1 → AdsrSt × Frame ℝ 1 :=
  fun c time x => (c.update time (x 0), fun _ => (c.update time (x 0)).value attack decay sustain release time)

/-- `adsr_live(attack, decay, sustain, release)`: `adsr.rs:22-52`; the interval of `envelope2` is 2 ms (`prelude.rs:632-633`). -/
def adsrLive (rnd : BitVec 64 → ℝ) (attack decay sustain release : ℝ) : Node ℝ 1 1 :=
  envelopeIn rnd (adsrEnv attack decay sustain release)

/-- A fresh `adsr_live` at a sample rate. -/
def adsrNew (sr : ℝ) (hash : BitVec 64) : EnvSt 1 AdsrSt := newInSt 0.002 sr hash AdsrSt.new

end Fundsp.Env
