import Verif.Core.Expr
import Verif.Hash.Model
import Verif.Osc.Model

/-! The expressions of `/repo/README.md:1570-1586` (Equivalent Expressions), as written there. Operator precedence is that of Rust: unary, `*`, `+ -`, `>>`, `&`, `^`, `|`. -/

namespace Fundsp.Equiv
open Fundsp Fundsp.Expr

variable {α : Type}

/-- `mul(c)` as a node with one input; `prelude.rs:418-426`. Its state is `((), c)`. -/
def mul1 [Mul α] : Node α 1 1 := mulOp 1

/-- `(pass() ^ mul(2.0)) >> x + y`. -/
def split1 [Add α] [Mul α] (X Y : Node α 1 1) : Node α 1 1 :=
  pipe (branch (multiPass 1) mul1) (binop (fun a b => a + b) X Y : Node α (1 + 1) 1)
/-- `x & mul(2.0) >> y`. -/
def bus1 [Add α] [Mul α] (X Y : Node α 1 1) : Node α 1 1 := bus (fun a b => a + b) X (pipe mul1 Y)

/-- `--sink()-a^sink()&---sink()*b`. -/
def sinks [Add α] [Mul α] [Neg α] (a b : α) : Node α 1 0 :=
  branch (subScalar (neg (neg (sink 1))) a) (bus (fun x y => x + y) (sink 1) (mulScalar (neg (neg (neg (sink 1)))) b))

/-- `constant(a) | dc(b)`. -/
def twoDc : Node α 0 2 := stack (constant 1) (constant 1)

/-- `sink() | x` for a generator. -/
def sinkLeft (X : Node α 0 1) : Node α 1 1 := stack (sink 1) X
/-- `x | sink()` for a generator. -/
def sinkRight (X : Node α 0 1) : Node α 1 1 := stack X (sink 1)

/-- `(x ^ (sink() | pass())) >> y`. -/
def bypass (X Y : Node α 2 1) : Node α 2 1 := pipe (branch X (stack (sink 1) (multiPass 1) : Node α 2 1)) Y
/-- `!x >> y`. -/
def bypassThru (X Y : Node α 2 1) : Node α 2 1 := pipe (thru X) Y

/-- `!(x | y)` for generators. -/
def thruStack (X Y : Node α 0 1) : Node α 0 0 := thru (stack X Y)
/-- `!x` for a generator. -/
def thruOne (X : Node α 0 1) : Node α 0 0 := thru X

/-! ## Construction of the first pair: where the two oscillators start -/

/-- `new` of a combinator: the components are in place, the structure is hashed starting from the ID, and the result is distributed; `audionode.rs:845-848` (Binop),
`1299-1302` (Pipe), `1529-1532` (Branch), `1650-1653` (Bus). -/
def construct (id : BitVec 64) (children : List Hash.Comp) : Hash.Comp :=
  let c := Hash.Comp.node id children
  (c.ping false (c.ping true id).2).1

/-- `sine()`: `oscillator.rs:50`, before it is part of anything. -/
def sineLeaf : Hash.Comp := .leaf 21 0
/-- `mul(2.0)`: `MultiPass` (ID 0, `audionode.rs:357`) times `Constant` (ID 2, `audionode.rs:465`), a `Binop` (ID 3). -/
def mulTree : Hash.Comp := construct 3 [.leaf 0 0, .leaf 2 0]
/-- `(pass() ^ mul(2.0)) >> sine() + sine()`: `Pass` is 48, `Branch` 8, `Pipe` 6. -/
def splitTree : Hash.Comp := construct 6 [construct 8 [.leaf 48 0, mulTree], construct 3 [sineLeaf, sineLeaf]]
/-- `sine() & mul(2.0) >> sine()`: `Bus` is 10. -/
def busTree : Hash.Comp := construct 10 [sineLeaf, construct 6 [mulTree, sineLeaf]]

mutual
/-- Hashes given to the leaves with the ID of `Sine`, in order. -/
def sineHashes : Hash.Comp → List (BitVec 64)
  | .leaf id h => if id = 21 then [h] else []
  | .node _ cs => sineHashesL cs
/-- The same for a list of components. -/
def sineHashesL : List Hash.Comp → List (BitVec 64)
  | [] => []
  | c :: cs => sineHashes c ++ sineHashesL cs
end

/-- `rnd1`: `math.rs:529-536`; exact, since the integer has 53 bits. -/
noncomputable def rnd1 (x : BitVec 64) : ℝ := ((Hash.rnd1Word x) >>> 11).toNat * (1 / 2 ^ 53)

/-- A sine oscillator after `new` and `set_hash`. -/
noncomputable def sineSt (h : BitVec 64) : Osc.OscSt := (Osc.OscSt.new rnd1).setHash rnd1 h

/-- The state of `split1` made of two oscillators with the hashes that `splitTree` gives them; the constant is 2. -/
noncomputable def splitState (h : List (BitVec 64)) : (split1 (Osc.sine rnd1) (Osc.sine rnd1)).σ :=
  (((), ((), fun _ => (2 : ℝ))), ((sineSt (h.getD 0 0) : Osc.OscSt), (sineSt (h.getD 1 0) : Osc.OscSt)))
/-- The state of `bus1`. -/
noncomputable def busState (h : List (BitVec 64)) : (bus1 (Osc.sine rnd1) (Osc.sine rnd1)).σ :=
  ((sineSt (h.getD 0 0) : Osc.OscSt), (((), fun _ => (2 : ℝ)), (sineSt (h.getD 1 0) : Osc.OscSt)))

end Fundsp.Equiv
