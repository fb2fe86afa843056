import Verif.Core.Simd
import Verif.Math.Model
import Mathlib.Analysis.SpecialFunctions.Pow.Real
import Mathlib.Analysis.SpecialFunctions.Sqrt

/-! Model of `src/shape.rs`: the `Shape` trait, its implementations and the `Shaper` node. Samples are real numbers in the concrete
shapes and arbitrary in the trait and node. -/

namespace Fundsp.Shape

/-- Trait `Shape`, `shape.rs:11-33`. `simd` receives and returns the eight lanes of an item. -/
structure Shape (α : Type) where
  σ : Type
  shape : σ → α → σ × α
  simd : σ → (Nat → α) → σ × (Nat → α)
  reset : σ → σ
  setRate : σ → ℝ → σ

/-- The lanes of an item in order through a stateful function: `core::array::from_fn` calls its closure with increasing index.
`shape.rs:16-19`. -/
def lanes {α σ : Type} (f : σ → α → σ × α) (x : Nat → α) : Nat → σ → σ × (Nat → α)
  | 0, s => (s, fun _ => x 0)
  | n + 1, s =>
    let r := lanes f x n s
    let q := f r.1 (x n)
    (q.1, fun k => if k = n then q.2 else r.2 k)

/-- A shape with the provided `simd`, `shape.rs:16-19`. -/
def Shape.scalar {α : Type} (σ : Type) (shape : σ → α → σ × α) (reset : σ → σ) (setRate : σ → ℝ → σ) : Shape α where
  σ := σ
  shape := shape
  simd s x := lanes shape x 8 s
  reset := reset
  setRate := setRate

/-- A memoryless shape with separate sample and item functions; `reset` and `set_sample_rate` are the provided empty functions,
`shape.rs:30-32`. -/
def Shape.pure {α : Type} (f g : α → α) : Shape α where
  σ := Unit
  shape _ x := ((), f x)
  simd _ x := ((), fun k => g (x k))
  reset s := s
  setRate s _ := s

/-- `ShapeFn`, `shape.rs:37-44`, and `Tanh`, `shape.rs:83-88`, use the provided `simd`. -/
def shapeFn {α : Type} (f : α → α) : Shape α := Shape.scalar Unit (fun _ x => ((), f x)) id (fun s _ => s)
/-- `Clip`, `shape.rs:50-59`: `clamp` when ticking, `fast_max` then `fast_min` in items. -/
noncomputable def clipS (h : ℝ) : Shape ℝ := Shape.pure (Math.clip h) (fun x => min (max (x * h) (-1)) 1)
/-- `ClipTo`, `shape.rs:65-76`. -/
noncomputable def clipToS (lo hi : ℝ) : Shape ℝ := Shape.pure (Math.clipTo lo hi) (fun x => min (max x lo) hi)
/-- `Tanh`, `shape.rs:83-88`. -/
noncomputable def tanhS (h : ℝ) : Shape ℝ := shapeFn (Math.tanhShape h)
/-- `Atan`, `shape.rs:97-106`. -/
noncomputable def atanS (h : ℝ) : Shape ℝ := Shape.pure (Math.atanShape h) (fun x => Real.arctan (x * (h * Real.pi * 0.5)) * (2 / Real.pi))
/-- `Softsign`, `shape.rs:113-122`. -/
noncomputable def softsignS (h : ℝ) : Shape ℝ := Shape.pure (Math.softsignShape h) (Math.softsignSimd h)
/-- `Crush`, `shape.rs:128-137`: `f32::round` when ticking (halves away from zero), `F32x::round` in items (halves to even). -/
noncomputable def crushS (round roundSimd : ℝ → ℤ) (h : ℝ) : Shape ℝ := Shape.pure (Math.crush round h) (Math.crush roundSimd h)
/-- `SoftCrush`, `shape.rs:143-156`. -/
noncomputable def softCrushS (h : ℝ) : Shape ℝ := Shape.pure (Math.softCrush h) (Math.softCrush h)

/-- State of `Adaptive`, `shape.rs:164-173`, with the state of the inner shape. -/
structure AdaptiveSt (τ : Type) where
  inner : τ
  timescale : ℝ
  smoothing : ℝ
  state : ℝ

/-- `Adaptive::set_sample_rate`, `shape.rs:199-202`. -/
noncomputable def AdaptiveSt.setRate (S : Shape ℝ) (s : AdaptiveSt S.σ) (sr : ℝ) : AdaptiveSt S.σ :=
  { s with smoothing := (0.5 : ℝ) ^ (1 / (s.timescale * sr)), inner := S.setRate s.inner sr }

/-- `Adaptive::new`, `shape.rs:176-185`; the default sample rate is 44100 Hz. -/
noncomputable def adaptiveNew (S : Shape ℝ) (timescale : ℝ) (inner : S.σ) : AdaptiveSt S.σ :=
  AdaptiveSt.setRate S { inner := inner, timescale := timescale, smoothing := 0, state := 0 } 44100

/-- `Adaptive`, `shape.rs:188-203`; `simd` is the provided one. -/
noncomputable def adaptive (S : Shape ℝ) : Shape ℝ :=
  Shape.scalar (AdaptiveSt S.σ)
    (fun s x =>
      let state := s.smoothing * s.state + (1 - s.smoothing) * (1.0e-6 + x * x)
      let r := S.shape s.inner (x / Real.sqrt state)
      ({ s with state := state, inner := r.1 }, r.2))
    (fun s => { s with state := 1.0e-3, inner := S.reset s.inner })
    (AdaptiveSt.setRate S)

/-- `Shaper`, `shape.rs:219-242`: full items through `simd`, the remainder by ticking. -/
def shaperNode {α : Type} (S : Shape α) : Node α 1 1 where
  σ := S.σ
  reset := S.reset
  tick s x := let r := S.shape s (x 0); (r.1, fun _ => r.2)
  process := simdProcess (fun s x => let r := S.simd s (fun k => x k 0); (r.1, fun k _ => r.2 k))
    (fun s x => let r := S.shape s (x 0); (r.1, fun _ => r.2))

/-- `Shaper::new`, `shape.rs:212-216`: sets the sample rate of the shape to the default. -/
def shaperNew {α : Type} (S : Shape α) (s : S.σ) : S.σ := S.setRate s 44100

end Fundsp.Shape
