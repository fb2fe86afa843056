import Verif.Effect.Model
import Verif.Env.Model

/-!
# `reverb2_stereo`: model

`/repo/src/prelude.rs:1744-1822`, over the reals: a feedback delay network of 32 lines whose lengths are modulated by noise, with an allpass and a user
given loop filter in each line. `filter.clone()` is the loop filter `F` with initial state `f`. Hashes of the lines, and the hash functions of the external
crate, are arbitrary.
-/

noncomputable section
namespace Fundsp.Effect
open Fundsp.Delay Fundsp.Filter Fundsp.Pan Fundsp.Env

/-- One out of a family of nodes. `stacki` (`prelude.rs:1430-1444`) makes a stack of nodes of a single type that differ in the values their closures and
constants have captured; here these are indexed by `ι`, and the index is part of the state. -/
def oneOf {ι : Type} {i o : Nat} (X : ι → Node ℝ i o) : Node ℝ i o where
  σ := Σ j, (X j).σ
  reset s := ⟨s.1, (X s.1).reset s.2⟩
  tick s x := (⟨s.1, ((X s.1).tick s.2 x).1⟩, ((X s.1).tick s.2 x).2)
  process g s size inp out := (⟨s.1, ((X s.1).process g s.2 size inp out).1⟩, ((X s.1).process g s.2 size inp out).2)

/-- `DEFAULT_SR`: `lib.rs:42`. -/
def defaultSr : ℝ := 44100

/-- Schroeder allpass delays: `prelude.rs:1775-1779`. -/
def allpassTable : List Nat := [
  11, 13, 17, 23, 31, 41, 53, 71, 97, 113, 131, 163, 193, 223, 241, 269, 293, 311, 337, 359,
  397, 421, 449, 479, 503, 523, 557, 571, 601, 631, 653, 677, 709, 733, 757, 787, 809, 827,
  857, 877, 911, 929, 953, 977, 1009]

/-- `delay_min`: `prelude.rs:1772, 1781`. -/
def delayMin (room : ℝ) : ℝ := 0.010 + Math.clamp 10 30 room * 0.003

/-- `delay_max`: `prelude.rs:1782`. -/
def delayMax (room : ℝ) : ℝ := max (delayMin room * 2) (delayMin room + 0.002 * 31)

/-- `delay_d`: `prelude.rs:1783`. -/
def delayStep (room : ℝ) : ℝ := (delayMax room - delayMin room) / 32

/-- `a`: `prelude.rs:1786`. -/
def loopGain2 (room time : ℝ) : ℝ := ((10 : ℝ) ^ ((-60 : ℝ) / 20)) ^ (0.5 * delayMin room / time)

/-- `coeff`: `prelude.rs:1789`. -/
def diffuse (diffusion : ℝ) : ℝ := Math.lerp 0.5 0.9 diffusion

/-- `j`: `prelude.rs:1793`. -/
def lineOrder (i : Nat) : Nat := if i < 16 then i * 2 else (31 - i) * 2 + 1

/-- `allpass_delay` in seconds: `prelude.rs:1794`. -/
def allpassDelay (i : Nat) : ℝ := (allpassTable.getD (lineOrder i) 0 : ℝ) / defaultSr

/-- `d`: `prelude.rs:1795`. -/
def lineDelay (room : ℝ) (i : Nat) : ℝ := delayMin room + lineOrder i * delayStep room - allpassDelay i

/-- `dv`: `prelude.rs:1796`. -/
def lineVar : ℝ := 0.001

/-- The control function of the modulation: `prelude.rs:1800-1806`; `noise i` is `spline_noise(i, ..)`. -/
def lineMod (noise : Nat → ℝ → ℝ) (room speed : ℝ) (i : Nat) (t : ℝ) : Frame ℝ 1 :=
  fun _ => Math.lerp11 (lineDelay room i - lineVar) (lineDelay room i + lineVar) (noise i (t * speed * 0.5))

/-- The operations of `TapLinear` over the reals: `delay.rs:453-469`. -/
def realLin (minD maxD sr : ℝ) : TapOps ℝ where
  zero := 0
  add := (· + ·)
  pos x := Math.clamp minD maxD x * sr
  fl x := ⌊x⌋₊
  frac x := x - ⌊x⌋₊
  spl := Math.spline
  lrp a b t := Math.lerp a b t

/-- Values captured by the lines. `sr` is the sample rate, `rnd` the random function of envelopes, `hash64a` and `rnd2` the functions that
noise is made of. -/
structure Rev2 where
  sr : ℝ
  room : ℝ
  time : ℝ
  diffusion : ℝ
  speed : ℝ
  rnd : BitVec 64 → ℝ
  hash64a : BitVec 64 → BitVec 64
  rnd2 : BitVec 64 → ℝ

/-- `spline_noise(i, ..)`: `prelude.rs:1804`. -/
def Rev2.noise (R : Rev2) (i : Nat) : ℝ → ℝ := Math.splineNoise R.hash64a R.rnd2 (BitVec.ofNat 64 i)

/-- The loop filter with gain, and the delay time: `prelude.rs:1799-1806`. -/
def line2In (R : Rev2) (F : Node ℝ 1 1) (i : Nat) : Node ℝ 1 2 :=
  stack (i := 1) (j := 0) (o := 1) (p := 1) (binop (i := 1) (j := 0) (· * ·) F (constant 1)) (envelope R.rnd (lineMod R.noise R.room R.speed i))

/-- One line: `prelude.rs:1799-1808`. -/
def line2 (R : Rev2) (F : Node ℝ 1 1) (i : Nat) : Node ℝ 1 1 :=
  pipe (j := 1) (pipe (j := 2) (line2In R F i) (linNode (realLin (lineDelay R.room i - lineVar) (lineDelay R.room i + lineVar) R.sr) 1)) (allnestNode (delayNode 0) 0)

/-- A new allpass with a delay of `t` seconds inside. -/
def allpassNew (sr eta t : ℝ) : AllNestSt (delayNode (0 : ℝ)) := ⟨delaySetup 0 (samplesOf sr t), eta, 0⟩

/-- A new line; `hash` is the hash of its envelope. -/
def line2New (R : Rev2) (F : Node ℝ 1 1) (f : F.σ) (hash : BitVec 64) (i : Nat) : (line2 R F i).σ :=
  ((((f, fun _ => loopGain2 R.room R.time), newSt (lineMod R.noise R.room R.speed i) 0.01 R.sr hash), linSetup 0 ⌈(lineDelay R.room i + lineVar) * R.sr⌉₊),
    allpassNew R.sr (diffuse R.diffusion) (allpassDelay i - 1 / defaultSr))

/-- A pre-diffuser: `prelude.rs:1812-1816`. -/
def prepass : Node ℝ 1 1 := pipe (allnestNode (delayNode 0) 0) (allnestNode (delayNode 0) 0)

/-- A new pre-diffuser with the delay times `t` and `t'`. -/
def prepassNew (sr t t' : ℝ) : prepass.σ := (allpassNew sr 0.618 t, allpassNew sr 0.618 t')

/-- `reverb2_stereo`: `prelude.rs:1765-1822`. -/
def reverb2 (R : Rev2) (F : Node ℝ 1 1) : Node ℝ 2 2 :=
  pipe (j := 32) (pipe (j := 32) (pipe (j := 2) (stack (i := 1) (j := 1) (o := 1) (p := 1) prepass prepass) (multiSplit 2 16)) (fdn 5 32 (oneOf (line2 R F))))
    (unop (· * (1 / 8)) (panSum 31))

/-- The lines of a new reverb. -/
def lines2New (R : Rev2) (F : Node ℝ 1 1) (f : F.σ) (hash : Nat → BitVec 64) (i : Fin 32) : (oneOf (line2 R F)).σ := ⟨i.1, line2New R F f (hash i.1) i.1⟩

/-- A new reverb. -/
def reverb2New (R : Rev2) (F : Node ℝ 1 1) (f : F.σ) (hash : Nat → BitVec 64) : (reverb2 R F).σ :=
  ((((prepassNew R.sr (224 / defaultSr) (340 / defaultSr), prepassNew R.sr (247 / defaultSr) (366 / defaultSr)), ()),
    (lines2New R F f hash, fun _ => 0)), panSumNew 31)

end Fundsp.Effect
