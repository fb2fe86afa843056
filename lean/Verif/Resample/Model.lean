import Verif.Core.Node
import Verif.Math.Model
import Mathlib.Algebra.BigOperators.Group.Finset.Basic
import Mathlib.Algebra.Order.Floor.Semiring
import Mathlib.Data.Real.Archimedean

/-!
# Variable speed resampling and oversampling: model

Model of `Resampler` (`/repo/src/resample.rs`) and `Oversampler` (`/repo/src/oversample.rs`) over the real numbers, with an arbitrary inner node. Rings of 128 samples
are functions of the index. Setting the sample rate, pinging and allocation are not modelled.
-/

noncomputable section
namespace Fundsp.Rs

/-- Ring buffers of all channels. -/
abbrev Rings (n : Nat) := Fin n → Nat → ℝ

/-- `for channel in .. { v[channel][j] = x[channel] }`. -/
def Rings.write {n : Nat} (v : Rings n) (j : Nat) (x : Frame ℝ n) : Rings n := fun c k => if k = j then x c else v c k

/-! ## Resampler -/

/-- `Resampler`: `resample.rs:9-18`. -/
structure ResSt (σ : Type) (o : Nat) where
  x : σ
  buffer : Rings o
  consumer : ℝ
  producer : Nat

variable {i o : Nat}

/-- The `while` loop of `tick` with the given number of rounds: `resample.rs:78-84`. -/
def produce (X : Node ℝ 0 o) : Nat → ResSt X.σ o → ResSt X.σ o
  | 0, s => s
  | m + 1, s =>
    let r := X.tick s.x (fun _ => 0)
    produce X m ⟨r.1, s.buffer.write (s.producer &&& 0x7f) r.2, s.consumer, s.producer + 1⟩

/-- `tick`: `resample.rs:73-95`. The loop runs while `consumer_i + 2 >= producer`. -/
def resTick (X : Node ℝ 0 o) (s : ResSt X.σ o) (input : Frame ℝ 1) : ResSt X.σ o × Frame ℝ o :=
  let consumer := s.consumer + max 0 (input 0)
  let d := consumer - ⌊consumer⌋
  let ci := ⌊consumer - d⌋₊
  let s := produce X (ci + 3 - s.producer) ⟨s.x, s.buffer, consumer, s.producer⟩
  (s, fun c => Math.spline (s.buffer c ((ci + 0x7f) &&& 0x7f)) (s.buffer c (ci &&& 0x7f)) (s.buffer c ((ci + 1) &&& 0x7f)) (s.buffer c ((ci + 2) &&& 0x7f)) d)

/-- `reset`: `resample.rs:63-68`. The buffer is kept. -/
def resReset (X : Node ℝ 0 o) (s : ResSt X.σ o) : ResSt X.σ o := ⟨X.reset s.x, s.buffer, 1, 0⟩

/-- `Resampler::new`: `resample.rs:27-37`, for the given state of the inner node. -/
def resNew (X : Node ℝ 0 o) (x : X.σ) : ResSt X.σ o := ⟨x, fun _ _ => 0, 1, 0⟩

/-- The node: input is the speed. -/
def resampler (X : Node ℝ 0 o) : Node ℝ 1 o := Node.ofTick (ResSt X.σ o) (resReset X) (resTick X)

/-! ## Oversampler -/

/-- `tick_even`: `oversample.rs:154-162`. `h` are the 43 taps. -/
def tickEven (h : Nat → ℝ) (v : Nat → ℝ) (j : Nat) : ℝ := (∑ k ∈ Finset.range 22, v ((j + 0x80 - 43 + k * 2) &&& 0x7f) * h (k * 2)) * 2

/-- `tick_odd`: `oversample.rs:164-172`. -/
def tickOdd (h : Nat → ℝ) (v : Nat → ℝ) (j : Nat) : ℝ := (∑ k ∈ Finset.range 21, v ((j + 0x80 - 43 + k * 2 + 1) &&& 0x7f) * h (k * 2 + 1)) * 2

/-- `tick`: `oversample.rs:174-182`. -/
def tickAll (h : Nat → ℝ) (v : Nat → ℝ) (j : Nat) : ℝ := ∑ k ∈ Finset.range 43, v ((j + 0x80 - 43 + k) &&& 0x7f) * h k

/-- `Oversampler`: `oversample.rs:184-197`. -/
structure OverSt (σ : Type) (i o : Nat) where
  x : σ
  inv : Rings i
  outv : Rings o
  j : Nat

/-- `tick`: `oversample.rs:255-280`. -/
def overTick (h : Nat → ℝ) (X : Node ℝ i o) (s : OverSt X.σ i o) (input : Frame ℝ i) : OverSt X.σ i o × Frame ℝ o :=
  let inv := s.inv.write s.j input
  let r := X.tick s.x (fun c => tickEven h (inv c) (s.j + 1))
  let outv := s.outv.write s.j r.2
  let j := (s.j + 1) &&& 0x7f
  let inv := inv.write j (fun _ => 0)
  let q := X.tick r.1 (fun c => tickOdd h (inv c) (j + 1))
  let outv := outv.write j q.2
  (⟨q.1, inv, outv, (j + 1) &&& 0x7f⟩, fun c => tickAll h (outv c) j)

/-- `reset`: `oversample.rs:244-248`. The index is kept. -/
def overReset (X : Node ℝ i o) (s : OverSt X.σ i o) : OverSt X.σ i o := ⟨X.reset s.x, fun _ _ => 0, fun _ _ => 0, s.j⟩

/-- `Oversampler::new`: `oversample.rs:208-219`. -/
def overNew (X : Node ℝ i o) (x : X.σ) : OverSt X.σ i o := ⟨x, fun _ _ => 0, fun _ _ => 0, 0⟩

/-- The node. -/
def oversampler (h : Nat → ℝ) (X : Node ℝ i o) : Node ℝ i o := Node.ofTick (OverSt X.σ i o) (overReset X) (overTick h X)

end Fundsp.Rs
