import Verif.Core.Props
import Verif.Filter.Response

/-! Signal flow analysis: `/repo/src/signal.rs` and the `route` functions of `/repo/src/audionode.rs`, over the reals.
A `SignalFrame` is a list of signals; indexing out of bounds is a panic in the code and gives `unknown` here (it does not happen when
frames have the lengths required by the units). -/

namespace Fundsp.Route

/-- `Signal`: `signal.rs:10-21`. -/
inductive Sig
  | unknown
  | value (v : ℝ)
  | latency (l : ℝ)
  | response (r : ℂ) (l : ℝ)

noncomputable section
namespace Sig

/-- `Signal::filter`: `signal.rs:26-32`. -/
def filter (s : Sig) (lat : ℝ) (f : ℂ → ℂ) : Sig :=
  match s with
  | latency l => latency (l + lat)
  | response r l => response (f r) (l + lat)
  | _ => unknown

/-- `Signal::distort`: `signal.rs:37-43`. -/
def distort (s : Sig) (lat : ℝ) : Sig :=
  match s with
  | latency l => latency (l + lat)
  | response _ l => latency (l + lat)
  | _ => unknown

/-- `Signal::delay`: `signal.rs:46-52`. -/
def delay (s : Sig) (lat : ℝ) : Sig :=
  match s with
  | latency l => latency (l + lat)
  | response r l => response r (l + lat)
  | x => x

/-- `Signal::scale`: `signal.rs:55-61`. -/
def scale (s : Sig) (factor : ℝ) : Sig :=
  match s with
  | value x => value (x * factor)
  | response r l => response (r * factor) l
  | x => x

/-- `Signal::combine_nonlinear`: `signal.rs:66-73`. -/
def combineNonlinear (s other : Sig) (lat : ℝ) : Sig :=
  match s.distort 0, other.distort 0 with
  | latency lx, latency ly => latency (min lx ly + lat)
  | latency lx, _ => latency (lx + lat)
  | _, latency ly => latency (ly + lat)
  | _, _ => unknown

/-- `Signal::combine_linear`: `signal.rs:78-109`. -/
def combineLinear (s other : Sig) (lat : ℝ) (val : ℝ → ℝ → ℝ) (resp : ℂ → ℂ → ℂ) : Sig :=
  match s, other with
  | value vx, value vy => value (val vx vy)
  | latency lx, latency ly => latency (min lx ly + lat)
  | response rx lx, response ry ly => response (resp rx ry) (min lx ly + lat)
  | response rx lx, value _ => response (resp rx 0) (lx + lat)
  | value _, response ry ly => response (resp 0 ry) (ly + lat)
  | response _ lx, latency ly => latency (min lx ly + lat)
  | latency lx, response _ ly => latency (min lx ly + lat)
  | latency lx, _ => latency (lx + lat)
  | response _ lx, _ => latency (lx + lat)
  | _, latency ly => latency (ly + lat)
  | _, response _ ly => latency (ly + lat)
  | _, _ => unknown

/-- `FrameAdd::route`, `FrameSub::route`, `FrameMul::route`: `audionode.rs:736-738, 768-770, 800-819`. -/
def add (x y : Sig) : Sig := x.combineLinear y 0 (· + ·) (· + ·)
/-- `FrameSub::route`: `audionode.rs:768-770`. -/
def sub (x y : Sig) : Sig := x.combineLinear y 0 (· - ·) (· - ·)
/-- `FrameMul::route`: `audionode.rs:800-819`. -/
def mul (x y : Sig) : Sig :=
  match x, y with
  | value vx, value vy => value (vx * vy)
  | latency lx, latency ly => latency (min lx ly)
  | response _ lx, response _ ly => latency (min lx ly)
  | response _ lx, latency ly => latency (min lx ly)
  | latency lx, response _ ly => latency (min lx ly)
  | response rx lx, value vy => response (rx * vy) lx
  | value vx, response ry ly => response (ry * vx) ly
  | latency lx, _ => latency lx
  | response _ lx, _ => latency lx
  | _, latency ly => latency ly
  | _, response _ ly => latency ly
  | _, _ => unknown

/-- `FrameNeg::route`: `audionode.rs:1002-1008`. -/
def neg (x : Sig) : Sig :=
  match x with
  | value v => value (-v)
  | response r l => response (-r) l
  | s => s
/-- `FrameAddScalar::route`: `audionode.rs:1072-1077`. -/
def addScalar (c : ℝ) (x : Sig) : Sig :=
  match x with
  | value v => value (v + c)
  | s => s
/-- `FrameNegAddScalar::route`: `audionode.rs:1113-1119`. -/
def negAddScalar (c : ℝ) (x : Sig) : Sig :=
  match x with
  | value v => value (-v + c)
  | response r l => response (-r) l
  | s => s
/-- `FrameMulScalar::route`: `audionode.rs:1155-1161`. -/
def mulScalar (c : ℝ) (x : Sig) : Sig :=
  match x with
  | response r l => response (r * c) l
  | value v => value (v * c)
  | s => s

end Sig

/-- `SignalFrame`: `signal.rs:114-157`. -/
abbrev SFrame := List Sig
/-- `SignalFrame::at`. -/
def SFrame.at (f : SFrame) (i : Nat) : Sig := f.getD i .unknown
/-- A frame given channel by channel. -/
def chans (n : Nat) (f : Nat → Sig) : SFrame := (List.range n).map f
/-- `SignalFrame::copy(source, i, n)`: `signal.rs:125-129`. -/
def SFrame.copy (f : SFrame) (i n : Nat) : SFrame := chans n (fun k => f.at (i + k))

/-! ### `Routing::route`, `signal.rs:177-225` -/

/-- `Routing::Arbitrary(latency)`. -/
def routeArbitrary (lat : ℝ) (outputs : Nat) (input : SFrame) : SFrame :=
  match input with
  | [] => chans outputs (fun _ => .unknown)
  | x :: xs => chans outputs (fun _ => xs.foldl (fun c y => c.combineNonlinear y lat) (x.distort lat))
/-- `Routing::Split`. -/
def routeSplit (outputs : Nat) (input : SFrame) : SFrame :=
  if input.length = 0 then chans outputs (fun _ => .unknown) else chans outputs (fun i => input.at (i % input.length))
/-- `Routing::Join`. -/
def routeJoin (outputs : Nat) (input : SFrame) : SFrame :=
  if input.length = 0 then chans outputs (fun _ => .unknown)
  else
    let bundle := input.length / outputs
    chans outputs (fun i =>
      ((List.range (bundle - 1)).foldl (fun c j => c.combineLinear (input.at (i + (j + 1) * outputs)) 0 (· + ·) (· + ·)) (input.at i)).scale
        ((outputs : ℝ) / (input.length : ℝ)))
/-- `Routing::Reverse`. -/
def routeReverse (outputs : Nat) (input : SFrame) : SFrame :=
  if input.length = 0 then chans outputs (fun _ => .unknown) else chans outputs (fun i => input.at (input.length - 1 - i))
/-- `Routing::Generator(latency)`. Note that the test for an empty input comes first. -/
def routeGenerator (lat : ℝ) (outputs : Nat) (input : SFrame) : SFrame :=
  if input.length = 0 then chans outputs (fun _ => .unknown) else chans outputs (fun _ => .latency lat)

/-! ### Units with routes -/

/-- The analysis side of a unit: the states it may be in and its `route` at the analyzed frequency. -/
structure Rt {i o : Nat} (N : Node ℝ i o) where
  ok : N.σ → Prop
  route : SFrame → SFrame

variable {i j o p : Nat}

/-- A filter with one input that multiplies the response by `H`: the pattern `input.at(0).filter(latency, |r| r * H)` of `filter.rs`,
`fir.rs`, `biquad.rs`, `svf.rs`, `delay.rs`. -/
def Rt.filter (N : Node ℝ 1 1) (ok : N.σ → Prop) (lat : ℝ) (H : ℂ) : Rt N := ⟨ok, fun s => [(s.at 0).filter lat (fun r => r * H)]⟩
/-- A unit with conservative routing, e.g. `Map` (`audionode.rs:1277`), `Feedback` (`feedback.rs:148`), `AllNest`. -/
def Rt.arbitrary (N : Node ℝ i o) (lat : ℝ) : Rt N := ⟨fun _ => True, routeArbitrary lat o⟩
/-- A generator, e.g. `Impulse` (`audionode.rs:2519`), noise and oscillators. -/
def Rt.generator (N : Node ℝ i o) (lat : ℝ) : Rt N := ⟨fun _ => True, routeGenerator lat o⟩
/-- The default `route`: `audionode.rs:166-171`. -/
def Rt.unknown (N : Node ℝ i o) : Rt N := ⟨fun _ => True, fun _ => chans o (fun _ => .unknown)⟩
/-- A unit that distorts its first input, e.g. `Shaper`, `Moog`, `Tap`, `Meter`. -/
def Rt.distort (N : Node ℝ (i + 1) 1) (lat : ℝ) : Rt N := ⟨fun _ => True, fun s => [(s.at 0).distort lat]⟩
/-- A unit that delays its inputs and, in the words of the source, pretends not to alter them: `Limiter`, `dynamics.rs:223-230`. -/
def Rt.delay (N : Node ℝ o o) (lat : ℝ) : Rt N := ⟨fun _ => True, fun s => chans o (fun c => (s.at c).delay lat)⟩
/-- `MultiPass`, `Pass`: `audionode.rs:372, 403`. -/
def Rt.multiPass (n : Nat) : Rt (multiPass n : Node ℝ n n) := ⟨fun _ => True, fun s => s⟩
/-- `Sink`: `audionode.rs:431`. -/
def Rt.sink (n : Nat) : Rt (sink n : Node ℝ n 0) := ⟨fun _ => True, fun _ => []⟩
/-- `Constant`: `audionode.rs:489-495`. -/
def Rt.constant (n : Nat) (v : Frame ℝ n) : Rt (constant n : Node ℝ 0 n) :=
  ⟨fun s => s = v, fun _ => chans n (fun c => if h : c < n then .value (v ⟨c, h⟩) else .unknown)⟩
/-- `Split`, `MultiSplit`: `audionode.rs:537, 583`. -/
def Rt.split (n : Nat) : Rt (split n : Node ℝ 1 n) := ⟨fun _ => True, routeSplit n⟩
/-- `MultiSplit`: `audionode.rs:583`. -/
def Rt.multiSplit (m n : Nat) : Rt (multiSplit m n : Node ℝ m (m * n)) := ⟨fun _ => True, routeSplit (m * n)⟩
/-- `Join`, `MultiJoin`: `audionode.rs:633, 692`. -/
def Rt.join (n : Nat) : Rt (join n (fieldAvg ℝ (n + 1))) := ⟨fun _ => True, routeJoin 1⟩
/-- `MultiJoin`: `audionode.rs:692`. -/
def Rt.multiJoin (m n : Nat) : Rt (multiJoin m n (fieldAvg ℝ (n + 1))) := ⟨fun _ => True, routeJoin m⟩
/-- `Reverse`: `audionode.rs:2483`. -/
def Rt.reverse (n : Nat) : Rt (reverse n : Node ℝ n n) := ⟨fun _ => True, routeReverse n⟩

/-- `Pipe`: `audionode.rs:1377-1379`. -/
def Rt.pipe {X : Node ℝ i j} {Y : Node ℝ j o} (r : Rt X) (q : Rt Y) : Rt (pipe X Y) :=
  ⟨fun s => r.ok s.1 ∧ q.ok s.2, fun s => q.route (r.route s)⟩
/-- `Stack`: `audionode.rs:1493-1506`. -/
def Rt.stack {X : Node ℝ i o} {Y : Node ℝ j p} (r : Rt X) (q : Rt Y) : Rt (stack X Y) :=
  ⟨fun s => r.ok s.1 ∧ q.ok s.2, fun s =>
    let sx := r.route (s.copy 0 i)
    let sy := q.route (s.copy i j)
    chans (o + p) (fun c => if c < o then sx.at c else sy.at (c - o))⟩
/-- `Branch`: `audionode.rs:1617-1625`. -/
def Rt.branch {X : Node ℝ i o} {Y : Node ℝ i p} (r : Rt X) (q : Rt Y) : Rt (branch X Y) :=
  ⟨fun s => r.ok s.1 ∧ q.ok s.2, fun s =>
    let sx := r.route s
    let sy := q.route s
    chans (o + p) (fun c => if c < o then sx.at c else sy.at (c - o))⟩
/-- `Bus`: `audionode.rs:1730-1742`. -/
def Rt.bus {X Y : Node ℝ i o} (r : Rt X) (q : Rt Y) : Rt (bus (· + ·) X Y) :=
  ⟨fun s => r.ok s.1 ∧ q.ok s.2, fun s =>
    let sx := r.route s
    let sy := q.route s
    chans o (fun c => (sx.at c).add (sy.at c))⟩
/-- `Thru`: `audionode.rs:1824-1831`. -/
def Rt.thru {X : Node ℝ i o} (r : Rt X) : Rt (thru X) :=
  ⟨r.ok, fun s => let sx := r.route s; chans i (fun c => if c < o then sx.at c else s.at c)⟩
/-- `Binop`: `audionode.rs:948-961`. -/
def Rt.binop (op : ℝ → ℝ → ℝ) (f : Sig → Sig → Sig) {X : Node ℝ i o} {Y : Node ℝ j o} (r : Rt X) (q : Rt Y) : Rt (binop op X Y) :=
  ⟨fun s => r.ok s.1 ∧ q.ok s.2, fun s =>
    let sx := r.route (s.copy 0 i)
    let sy := q.route (s.copy i j)
    chans o (fun c => f (sx.at c) (sy.at c))⟩
/-- `Unop`: `audionode.rs:1228-1234`. -/
def Rt.unop (op : ℝ → ℝ) (f : Sig → Sig) {X : Node ℝ i o} (r : Rt X) : Rt (unop op X) :=
  ⟨r.ok, fun s => let sx := r.route s; chans o (fun c => f (sx.at c))⟩

/-! Nodes built from several nodes of one type, each with its own parameters. -/

/-- `MultiBus`: `audionode.rs:1926-1943`. -/
def Rt.multiBus {X : Node ℝ i o} {n : Nat} (r : Fin (n + 1) → Rt X) : Rt (multiBus (· + ·) 0 n X) :=
  ⟨fun s => ∀ k, (r k).ok (s k), fun s => chans o (fun c => Fin.foldl n (fun acc k => acc.add (((r k.succ).route s).at c)) (((r 0).route s).at c))⟩
/-- `MultiBranch`: `audionode.rs:2322-2335`. -/
def Rt.multiBranch {X : Node ℝ i o} {n : Nat} (r : Fin n → Rt X) : Rt (multiBranch n X) :=
  ⟨fun s => ∀ k, (r k).ok (s k), fun s => chans (o * n) (fun c => if h : c < o * n then ((r (nodeOf ⟨c, h⟩)).route s).at (chanOf ⟨c, h⟩) else .unknown)⟩
/-- `MultiStack`: `audionode.rs:2062-2078`. The first node is given the whole input frame. -/
def Rt.multiStack {X : Node ℝ i o} {n : Nat} (r : Fin n → Rt X) : Rt (multiStack n X) :=
  ⟨fun s => ∀ k, (r k).ok (s k), fun s =>
    chans (o * n) (fun c => if h : c < o * n then
      ((r (nodeOf ⟨c, h⟩)).route (if (nodeOf ⟨c, h⟩).1 = 0 then s else s.copy ((nodeOf ⟨c, h⟩).1 * i) i)).at (chanOf ⟨c, h⟩) else .unknown)⟩
/-- `Reduce`: `audionode.rs:2204-2216`. The first node is given the whole input frame. -/
def Rt.reduce (op : ℝ → ℝ → ℝ) (f : Sig → Sig → Sig) {X : Node ℝ i o} {n : Nat} (r : Fin (n + 1) → Rt X) : Rt (reduce op n X) :=
  ⟨fun s => ∀ k, (r k).ok (s k), fun s =>
    chans o (fun c => Fin.foldl n (fun acc k => f acc (((r k.succ).route (s.copy ((k.1 + 1) * i) i)).at c)) (((r 0).route s).at c))⟩
/-- `Chain`: `audionode.rs:2446-2452`. -/
def Rt.chain {X : Node ℝ i i} {n : Nat} (r : Fin (n + 1) → Rt X) : Rt (chain n X) :=
  ⟨fun s => ∀ k, (r k).ok (s k), fun s => Fin.foldl n (fun acc k => (r k.succ).route acc) ((r 0).route s)⟩

/-! ### What the user sees -/

/-- `AudioUnit::response`: `audiounit.rs:194-205`. -/
def Rt.response {N : Node ℝ i o} (r : Rt N) (output : Nat) : Option ℂ :=
  match (r.route (chans i (fun _ => .response 1 0))).at output with
  | .response rx _ => some rx
  | _ => none

/-- One round of the loop of `AudioUnit::latency`. -/
def latencyStep (acc : Option ℝ) (s : Sig) : Option ℝ :=
  match acc, s with
  | none, .latency x => some x
  | some r, .latency x => some (min r x)
  | acc, _ => acc

/-- The loop of `AudioUnit::latency`: `audiounit.rs:246-253`. -/
def minLatency (f : SFrame) : Option ℝ := f.foldl latencyStep none

/-- `AudioUnit::latency`: `audiounit.rs:234-255`. -/
def Rt.latency {N : Node ℝ i o} (r : Rt N) : Option ℝ :=
  if o = 0 then none else minLatency (r.route (chans i (fun _ => .latency 0)))

end

end Fundsp.Route
