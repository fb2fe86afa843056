import Verif.Core.Simd
import Verif.Noise.Mls

/-!
# Noise generators: model

Model of `Mls` and `Noise`, `/repo/src/noise.rs:98-230`. `u32` and `u64` values of `Noise` are bit vectors with wrapping arithmetic. Conversion to samples
(`as f32`) and the sample arithmetic are uninterpreted (`NoiseArith`) in the structural theorems.
-/

namespace Fundsp.Noise

/-- Sample arithmetic: `x as f32`, multiplication and subtraction, with the constants `1.0`, `2.0` and `NOISE_Z`. -/
structure NoiseArith (α : Type) where
  ofNat : Nat → α
  mul : α → α → α
  sub : α → α → α
  one : α
  two : α
  z : α

/-- `MUL_X`: `noise.rs:150`. -/
def mulX : BitVec 32 := 0x45d9f3b#32

/-- `hash32x`: `noise.rs:154-158`. -/
def hash32x (x : BitVec 32) : BitVec 32 :=
  let x := (x ^^^ (x >>> 16)) * mulX
  let x := (x ^^^ (x >>> 16)) * mulX
  (x ^^^ (x >>> 16)) * mulX

/-- `Noise`: `noise.rs:174-178`. -/
structure NoiseSt where
  state : BitVec 32
  seed : Option (BitVec 64)
  hash : BitVec 64

/-- `Noise::new`: `noise.rs:181-183`, all fields default. -/
def NoiseSt.new : NoiseSt := ⟨0, none, 0⟩

/-- `(hash ^ (hash >> 32)) as u32`. -/
def fold64 (h : BitVec 64) : BitVec 32 := (h ^^^ (h >>> 32)).setWidth 32

/-- `Noise::reset`: `noise.rs:193-196`. -/
def NoiseSt.reset (s : NoiseSt) : NoiseSt := { s with state := fold64 (s.seed.getD s.hash) }

/-- `Noise::set` with a seed parameter: `noise.rs:221-225`. -/
def NoiseSt.setSeed (s : NoiseSt) (seed : BitVec 64) : NoiseSt := { s with seed := some seed }

/-- `Noise::set_hash`: `noise.rs:227-230`. -/
def NoiseSt.setHash (s : NoiseSt) (hash : BitVec 64) : NoiseSt := { s with hash := hash }.reset

/-- The sample made from a state: `noise.rs:201` and `noise.rs:212-215`. -/
def sample {α : Type} (A : NoiseArith α) (x : BitVec 32) : α := A.sub (A.mul (A.ofNat ((hash32x x) >>> 8).toNat) A.z) A.one

/-- The loop of `process`: `noise.rs:206-217`. Lanes hold `state + 1 .. state + 8`; every item adds 8 to each lane. -/
def noiseItems {α : Type} (A : NoiseArith α) (x : BitVec 32) (size : Nat) (inp : Buf α 0) (out : Buf α 1) : Buf α 1 :=
  (itemLoop (fun (lanes : Nat → BitVec 32) _ => (fun k => lanes k + 8, fun k _ => sample A (lanes k))) inp 0 (simdItems size)
      (fun k => x + BitVec.ofNat 32 (k + 1)) out).2

/-- `Noise` as a node: `tick` `noise.rs:199-203`, `process` `noise.rs:205-219`. -/
def noise {α : Type} (A : NoiseArith α) : Node α 0 1 where
  σ := NoiseSt
  reset := NoiseSt.reset
  tick s _ := ({ s with state := s.state + 1 }, fun _ => sample A (s.state + 1))
  process _ s size inp out :=
    ({ s with state := s.state + BitVec.ofNat 32 size }, noiseItems A s.state size inp out)

/-- `Mls`: `noise.rs:101-105`. -/
structure MlsSt where
  mls : MlsState
  seed : Option (BitVec 64)
  hash : BitVec 64

/-- `Mls::reset`: `noise.rs:122-125`. The assertion of `new_with_seed` holds for every state made by a constructor (`C49_reset`); where it does not, the model
keeps the state. -/
def MlsSt.reset (s : MlsSt) : MlsSt :=
  { s with mls := (MlsState.newWithSeed s.mls.n (fold64 (s.seed.getD s.hash)).toNat).getD s.mls }

/-- `Mls` as a node: `noise.rs:117-147`; blocks use the default `process`. -/
def mls {α : Type} (A : NoiseArith α) : Node α 0 1 :=
  Node.ofTick MlsSt MlsSt.reset
    (fun s _ => ({ s with mls := s.mls.next }, fun _ => A.sub (A.mul (A.ofNat s.mls.value) A.two) A.one))

end Fundsp.Noise
