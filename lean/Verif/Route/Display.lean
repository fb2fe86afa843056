import Verif.Route.Complete
import Mathlib.Analysis.SpecialFunctions.Log.Base
import Mathlib.Algebra.Order.Monoid.WithTop
import Mathlib.Algebra.Order.Archimedean.Real.Basic

/-! `AudioUnit::display`: the graph of the response and the other lines, as values; the text they are printed as is left out. -/

namespace Fundsp.Route

/-- What `display` asks of a unit: the numbers of inputs and outputs, the response of output 0 at a frequency, latency and footprint. -/
structure Asked where
  inputs : Nat
  outputs : Nat
  response : ℝ → Option ℂ
  latency : Option ℝ
  footprint : Nat

/-- The frequencies of the columns: `/repo/src/audiounit.rs:280-286`. -/
def displayFreqs : List Nat :=
  [10, 20, 30, 40, 50, 60, 70, 80, 90, 100, 120, 140, 160, 180, 200, 250, 300, 350, 400, 450, 500, 600, 700, 800, 900, 1000, 1200, 1400, 1600, 1800, 2000, 2500,
   3000, 3500, 4000, 4500, 5000, 6000, 7000, 8000, 9000, 10000, 12000, 14000, 16000, 18000, 20000, 22000]

/-- `response_db`: `/repo/src/audiounit.rs:217-220`, `amp_db`: `/repo/src/math.rs:299-301`. `⊥` is minus infinity. -/
noncomputable def levelOf (r : ℂ) : WithBot ℝ := if ‖r‖ = 0 then ⊥ else ((Real.logb 10 ‖r‖ * 20 : ℝ) : WithBot ℝ)

/-- `abs(acc.0 - x.0) <= epsilon_db`: `/repo/src/audiounit.rs:293, 296`. The difference of minus infinity and a number is infinite, that of minus infinity and
itself is not a number. -/
def near : WithBot ℝ → WithBot ℝ → Prop
  | some a, some b => |a - b| ≤ 1 / 100
  | _, _ => False

open Classical in
/-- One round of the fold: `/repo/src/audiounit.rs:295-303`. -/
noncomputable def peakStep (acc : WithBot ℝ × Option Nat) (x : WithBot ℝ × Nat) : WithBot ℝ × Option Nat :=
  if near acc.1 x.1 then (max acc.1 x.1, none) else if x.1 < acc.1 then acc else (x.1, some x.2)

/-- `max_r`: `/repo/src/audiounit.rs:294-304`. -/
noncomputable def peak (l : List (WithBot ℝ × Nat)) : WithBot ℝ × Option Nat := l.foldl peakStep (⊥, none)

/-- `max_db`: `/repo/src/audiounit.rs:305`. -/
noncomputable def maxDb (p : WithBot ℝ) : WithBot ℤ := p.map fun p => ⌈p / 10⌉ * 10

/-- The `while` loop down a column that has the given characters: `/repo/src/audiounit.rs:311-315`. -/
def fill : Nat → Char → List Char → List Char
  | _, _, [] => []
  | 0, c, _ :: xs => c :: fill 0 '*' xs
  | j + 1, c, x :: xs => x :: fill j c xs

/-- A column of the empty graph: `/repo/src/audiounit.rs:262-276`. -/
def background : List Char := (List.range 13).map fun j => if j % 2 = 0 then '-' else ' '

/-- One column: `/repo/src/audiounit.rs:307-316`. If the peak is minus infinity then the row is not a number, which is cast to row 0, and the comparison is false.
If only the level is minus infinity then the row is infinite. -/
noncomputable def column (m : WithBot ℤ) (r : WithBot ℝ) : List Char :=
  match m, r with
  | none, _ => fill 0 '.' background
  | some _, none => background
  | some m, some r =>
    let row : ℝ := ((m : ℤ) - r) / 5
    fill ⌈row⌉.toNat (if row - ⌊row⌋ ≤ 1 / 2 then '*' else '.') background

/-- What is printed beside every other row: `/repo/src/audiounit.rs:319-322`. Minus infinity is cast to the least 64-bit number. -/
def label : WithBot ℤ → Nat → Option Int
  | none, row => if row % 2 = 0 then some (-2 ^ 63) else none
  | some m, row => if row % 2 = 0 then some (m - row * 5) else none

/-- The graph and the line below it. -/
structure Graph where
  column : Nat → List Char
  label : Nat → Option Int
  peak : WithBot ℝ
  peakAt : Option Nat

structure Display where
  graph : Option Graph
  inputs : Nat
  outputs : Nat
  latency : ℝ
  footprint : Nat

/-- The levels of the columns, `none` if `unwrap` panics: `/repo/src/audiounit.rs:288-291`. -/
noncomputable def levels (u : Asked) : Option (List (WithBot ℝ × Nat)) :=
  displayFreqs.mapM fun f : Nat => (u.response (f : ℝ)).map fun r => (levelOf r, f)

/-- The graph of these levels. -/
noncomputable def graphOf (r : List (WithBot ℝ × Nat)) : Graph :=
  { column := fun i => column (maxDb (peak r).1) ((r[i]?.map Prod.fst).getD ⊥), label := label (maxDb (peak r).1), peak := (peak r).1, peakAt := (peak r).2 }

/-- `AudioUnit::display`: `/repo/src/audiounit.rs:258-362`. `none` is a panic. -/
noncomputable def display (u : Asked) : Option Display :=
  if 0 < u.inputs ∧ 0 < u.outputs ∧ (u.response 440).isSome then
    (levels u).map fun r => ⟨some (graphOf r), u.inputs, u.outputs, u.latency.getD 0, u.footprint⟩
  else some ⟨none, u.inputs, u.outputs, u.latency.getD 0, u.footprint⟩

/-- The ticks and the text of the axis below the graph, from the first column on: `/repo/src/audiounit.rs:328-339`. -/
def axisTicks : String := "|   |    |    |     |    |    |     |    |    |"
def axisText : String := "10  50   100  200   500  1k   2k    5k   10k  20k Hz"

end Fundsp.Route
