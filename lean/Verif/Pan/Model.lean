import Verif.Core.Simd
import Verif.Math.Model

/-!
# Panning and mixing: model

Model of `/repo/src/pan.rs` over the reals.
-/

noncomputable section
namespace Fundsp.Pan

open Fundsp.Math (clamp11)

/-- `pan_weights`: `pan.rs:14-17`. -/
def panWeights (value : ℝ) : ℝ × ℝ :=
  let angle := (clamp11 value + 1) * (Real.pi * 0.25)
  (Real.cos angle, Real.sin angle)

/-- `Panner`: `pan.rs:26-30`. -/
structure PanSt where
  left : ℝ
  right : ℝ

/-- `Panner::new` and `set_pan`: `pan.rs:33-46`. -/
def PanSt.ofPan (value : ℝ) : PanSt := ⟨(panWeights value).1, (panWeights value).2⟩

/-- `Panner<U1>`: `tick` `pan.rs:55-61`, `process` `pan.rs:64-68`. `reset` is the empty default. -/
def panner1 : Node ℝ 1 2 where
  σ := PanSt
  reset := id
  tick s x := (s, ![s.left * x 0, s.right * x 0])
  process _ s size inp out := (s, setItems size (fun c k => if c = 0 then inp 0 k * s.left else inp 0 k * s.right) out)

/-- `Panner<U2>`: `tick` `pan.rs:55-61`, `process` `pan.rs:69-74`. -/
def panner2 : Node ℝ 2 2 where
  σ := PanSt
  reset := id
  tick _ x := (PanSt.ofPan (x 1), ![(PanSt.ofPan (x 1)).left * x 0, (PanSt.ofPan (x 1)).right * x 0])
  process _ s size inp out :=
    tickLoop (fun (_ : PanSt) x => (PanSt.ofPan (x 1), ![x 0 * (PanSt.ofPan (x 1)).left, x 0 * (PanSt.ofPan (x 1)).right])) inp 0 size s out

/-- Row of `Mixer::tick`: `pan.rs:124-130`. -/
def mixRow {m : Nat} (row input : Frame ℝ m) : ℝ := (List.finRange m).foldl (fun value j => value + input j * row j) 0

/-- `Mixer<M, N>`: `pan.rs:92-131`; blocks use the default `process`. The state is the matrix. -/
def mixer (m n : Nat) : Node ℝ m n :=
  Node.ofTick (Frame (Frame ℝ m) n) id (fun s x => (s, fun i => mixRow (s i) x))

end Fundsp.Pan
