import Mathlib.Analysis.SpecialFunctions.Trigonometric.Basic
import Mathlib.Analysis.SpecialFunctions.Trigonometric.Arctan
import Mathlib.Analysis.SpecialFunctions.Log.Basic
import Mathlib.Analysis.SpecialFunctions.Sqrt
import Mathlib.Algebra.Order.Floor.Defs

/-! Model of the numeric helpers of `src/math.rs` and of the memoryless shapers of `src/shape.rs`, over the reals.
Rounding of `f32`/`f64` is not modelled. -/

noncomputable section
namespace Fundsp.Math

/-- `clamp`, `math.rs:130`: `x.max(x0).min(x1)`. -/
def clamp (x0 x1 x : ℝ) : ℝ := min (max x x0) x1
/-- `clamp01`, `math.rs:136`. -/
def clamp01 (x : ℝ) : ℝ := min (max x 0) 1
/-- `clamp11`, `math.rs:142`. -/
def clamp11 (x : ℝ) : ℝ := min (max x (-1)) 1

/-- `lerp`, `math.rs:169-190`: `a * (1 - t) + b * t`. -/
def lerp (a b t : ℝ) : ℝ := a * (1 - t) + b * t
/-- `lerp11`, `math.rs:204-206`. -/
def lerp11 (a b t : ℝ) : ℝ := lerp a b (t * (1 / 2) + 1 / 2)
/-- `delerp`, `math.rs:218-220`. -/
def delerp (a b x : ℝ) : ℝ := (x - a) / (b - a)
/-- `delerp11`, `math.rs:232-234`. -/
def delerp11 (a b x : ℝ) : ℝ := (x - a) / (b - a) * 2 - 1
/-- `xerp`, `math.rs:238-240`. -/
def xerp (a b t : ℝ) : ℝ := Real.exp (lerp (Real.log a) (Real.log b) t)
/-- `xerp11`, `math.rs:244-246`. -/
def xerp11 (a b t : ℝ) : ℝ := Real.exp (lerp (Real.log a) (Real.log b) (t * (1 / 2) + 1 / 2))
/-- `dexerp`, `math.rs:251-253`. -/
def dexerp (a b x : ℝ) : ℝ := Real.log (x / a) / Real.log (b / a)
/-- `dexerp11`, `math.rs:258-260`. -/
def dexerp11 (a b x : ℝ) : ℝ := Real.log (x / a) / Real.log (b / a) * 2 - 1

/-- `spline`, `math.rs:359-365`. -/
def spline (y0 y1 y2 y3 x : ℝ) : ℝ :=
  y1 + x * (1 / 2) * (y2 - y0 + x * (2 * y0 - 5 * y1 + 4 * y2 - y3 + x * (3 * (y1 - y2) + y3 - y0)))

/-- `f32::signum`: 1 on positive zero (a difference of equal floats is `+0.0`). -/
def signum (x : ℝ) : ℝ := if 0 ≤ x then 1 else -1

/-- `spline_mono`, `math.rs:371-382`. -/
def splineMono (y0 y1 y2 y3 x : ℝ) : ℝ :=
  let d0 := y1 - y0
  let d1 := y2 - y1
  let d2 := y3 - y2
  let d1d := (signum d0 + signum d1) * min (d0 + d1) (min |d0| |d1|)
  let d2d := (signum d1 + signum d2) * min (d1 + d2) (min |d1| |d2|)
  x * x * x * (2 * y1 - 2 * y2 + d1d + d2d) + x * x * (-3 * y1 + 3 * y2 - 2 * d1d - d2d) + x * d1d + y1

/-- `softsign`, `math.rs:385`. -/
def softsign (x : ℝ) : ℝ := x / (1 + |x|)
/-- `softexp`, `math.rs:393`. -/
def softexp (x : ℝ) : ℝ :=
  let p := max x 0
  p * p + p + 1 / (1 + p - x)
/-- `softmix`, `math.rs:402`. -/
def softmix (x y bias : ℝ) : ℝ :=
  let xw := softexp (x * bias)
  let yw := softexp (y * bias)
  (x * xw + y * yw) / (xw + yw + 1e-10)

/-- `smooth3`, `math.rs:411`. -/
def smooth3 (x : ℝ) : ℝ := (3 - 2 * x) * x * x
/-- `smooth5`, `math.rs:417`. -/
def smooth5 (x : ℝ) : ℝ := ((x * 6 - 15) * x + 10) * x * x * x
/-- `smooth7`, `math.rs:423`. -/
def smooth7 (x : ℝ) : ℝ :=
  let x2 := x * x
  x2 * x2 * (35 - 84 * x + (70 - 20 * x) * x2)
/-- `smooth9`, `math.rs:430`. -/
def smooth9 (x : ℝ) : ℝ :=
  let x2 := x * x
  ((((70 * x - 315) * x + 540) * x - 420) * x + 126) * x2 * x2 * x
/-- `uparc`, `math.rs:440`. -/
def uparc (x : ℝ) : ℝ := 1 - Real.sqrt (max 0 (1 - x * x))
/-- `downarc`, `math.rs:446`. -/
def downarc (x : ℝ) : ℝ := Real.sqrt (max 0 ((2 - x) * x))
/-- `sine_ease`, `math.rs:452-458`. -/
def sineEase (x : ℝ) : ℝ :=
  let x := x * (Real.pi * 0.5)
  16 * x * (Real.pi - x) / (5 * Real.pi * Real.pi - 4 * x * (Real.pi - x))

/-- `sqr_hz`, `math.rs:483-491`. -/
def sqrHz (hz t : ℝ) : ℝ :=
  let x := t * hz
  let x := x - ⌊x⌋
  if x < 1 / 2 then 1 else -1
/-- `tri_hz`, `math.rs:505-509`. -/
def triHz (hz t : ℝ) : ℝ :=
  let x := t * hz - 1 / 4
  let x := x - ⌊x⌋
  |x - 1 / 2| * 4 - 1

/-! ## Coherent noise

`funutd::hash::hash64a`, `hash64g` and `funutd::Rnd` belong to another crate; they appear as arbitrary functions. -/

/-- `AttoHash::hash`, `math.rs:609-618`, as a state transformer on 64-bit words. -/
def attoHash (state data : BitVec 64) : BitVec 64 := ((state.rotateLeft 5) ^^^ data) * 0x517cc1b727220a95#64
/-- `AttoHash::hash11`, `math.rs:626-630`: `(x >> 10) as f64 / 2^53 - 1` with `x = hash64a(state)`. -/
def hash11 (hash64a : BitVec 64 → BitVec 64) (state : BitVec 64) : ℝ := ((hash64a state).toNat / 1024 : ℕ) / 2 ^ 53 - 1
/-- `get_point` in `ease_noise`/`spline_noise`, `math.rs:677`, `697`; the cell index is cast to `u64`. -/
def getPoint (hash64a : BitVec 64 → BitVec 64) (seed : BitVec 64) (i : ℤ) : ℝ :=
  hash11 hash64a (attoHash seed (BitVec.ofInt 64 i))
/-- `ease_noise`, `math.rs:672-687`, with an easing function for rising and one for falling segments
(`SegmentInterpolator`, `math.rs:634-661`). -/
def easeNoise (hash64a : BitVec 64 → BitVec 64) (rise fall : ℝ → ℝ) (seed : BitVec 64) (x : ℝ) : ℝ :=
  let fx := ⌊x⌋
  let dx := x - fx
  let y1 := getPoint hash64a seed fx
  let y2 := getPoint hash64a seed (fx + 1)
  if y1 ≤ y2 then lerp y1 y2 (rise dx) else lerp y1 y2 (fall dx)
/-- `spline_noise`, `math.rs:691-711`; `rnd2` is an arbitrary offset. -/
def splineNoise (hash64a : BitVec 64 → BitVec 64) (rnd2 : BitVec 64 → ℝ) (seed : BitVec 64) (x : ℝ) : ℝ :=
  let x := x + rnd2 seed
  let fx := ⌊x⌋
  let dx := x - fx
  spline (getPoint hash64a seed (fx - 1)) (getPoint hash64a seed fx) (getPoint hash64a seed (fx + 1))
    (getPoint hash64a seed (fx + 2)) dx * (1 / 1.25)

/-- Loop of `fractal_noise`/`fractal_ease_noise`, `math.rs:716-732`, `738-760`: `rnds` are the successive
`(rnd.f32(), rnd.u64())` draws, `octave seed x` the noise of one octave. -/
def fractalLoop (octave : BitVec 64 → ℝ → ℝ) (roughness x : ℝ) :
    List (ℝ × BitVec 64) → (weight total freq result : ℝ) → ℝ × ℝ
  | [], _, total, _, result => (result, total)
  | (o, s) :: rnds, w, total, freq, result =>
    fractalLoop octave roughness x rnds (w * roughness) (total + w) (freq * 2) (result + w * octave s (x * freq + o))
/-- The result is divided by the total weight: `math.rs:731`, `759`. -/
def fractal (octave : BitVec 64 → ℝ → ℝ) (rnds : List (ℝ × BitVec 64)) (roughness x : ℝ) : ℝ :=
  (fractalLoop octave roughness x rnds 1 0 1 0).1 / (fractalLoop octave roughness x rnds 1 0 1 0).2

/-! ## Shapers -/

/-- `Clip::shape`, `shape.rs:53`. -/
def clip (h x : ℝ) : ℝ := min (max (x * h) (-1)) 1
/-- `ClipTo::shape`, `shape.rs:70` (`f32::clamp`, which panics unless `lo ≤ hi`). -/
def clipTo (lo hi x : ℝ) : ℝ := min (max x lo) hi
/-- `Tanh::shape`, `shape.rs:88`. -/
def tanhShape (h x : ℝ) : ℝ := Real.tanh (x * h)
/-- `Atan::shape`, `shape.rs:100`. -/
def atanShape (h x : ℝ) : ℝ := Real.arctan (x * (h * Real.pi * 0.5)) * (2 / Real.pi)
/-- `Softsign::shape`, `shape.rs:116`. -/
def softsignShape (h x : ℝ) : ℝ := softsign (x * h)
/-- `Softsign::simd`, `shape.rs:120`. -/
def softsignSimd (h x : ℝ) : ℝ := x * h / (1 + |x| * h)
/-- `SoftCrush::shape`, `shape.rs:145-149`. -/
def softCrush (h x : ℝ) : ℝ := (⌊x * h⌋ + smooth9 (x * h - ⌊x * h⌋)) / h
/-- `Crush::shape`, `shape.rs:133`, with any rounding to a nearest integer. -/
def crush (round : ℝ → ℤ) (h x : ℝ) : ℝ := round (x * h) / h

end Fundsp.Math
