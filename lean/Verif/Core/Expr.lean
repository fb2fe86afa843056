import Verif.Core.Combinators
import Mathlib.Data.Rat.Defs
import Mathlib.Algebra.Field.Rat

/-! Graph expressions: operators with constants, generated groups of nodes, and sample access.
`/repo/src/combinator.rs:301-500`, `/repo/src/prelude.rs:392-426, 1367-1660`, `/repo/src/audionode.rs:208-267`,
`/repo/src/audiounit.rs:108-184`. -/

namespace Fundsp.Expr
open Fundsp

variable {α : Type}

/-! ## Operators with constants -/

/-- `-x`, `combinator.rs:301-311`; `FrameNeg`, `audionode.rs:977-1010`. -/
def neg [Neg α] {i o} (X : Node α i o) : Node α i o := unop (fun a => -a) X

/-- `x + c`, `combinator.rs:424-435`; `FrameAddScalar`, `audionode.rs:1041-1080`. -/
def addScalar [Add α] {i o} (X : Node α i o) (c : α) : Node α i o := unop (fun a => a + c) X

/-- `c + x`, `combinator.rs:437-448`. -/
def scalarAdd [Add α] {i o} (c : α) (X : Node α i o) : Node α i o := unop (fun a => a + c) X

/-- `x - c`, `combinator.rs:450-461`: `FrameAddScalar` with `-c`. -/
def subScalar [Add α] [Neg α] {i o} (X : Node α i o) (c : α) : Node α i o := unop (fun a => a + -c) X

/-- `c - x`, `combinator.rs:463-474`; `FrameNegAddScalar`, `audionode.rs:1082-1122`. -/
def scalarSub [Add α] [Neg α] {i o} (c : α) (X : Node α i o) : Node α i o := unop (fun a => -a + c) X

/-- `x * c`, `combinator.rs:476-487`; `FrameMulScalar`, `audionode.rs:1124-1162`. -/
def mulScalar [Mul α] {i o} (X : Node α i o) (c : α) : Node α i o := unop (fun a => a * c) X

/-- `c * x`, `combinator.rs:489-500`. -/
def scalarMul [Mul α] {i o} (c : α) (X : Node α i o) : Node α i o := unop (fun a => a * c) X

/-- `add(c)`, `prelude.rs:392-400`: `MultiPass + dc(c)`. The node; its state is `((), c)`. -/
def addOp [Add α] (n : Nat) : Node α (n + 0) n := binop (fun a b => a + b) (multiPass n) (constant n)
/-- `sub(c)`, `prelude.rs:405-413`. -/
def subOp [Sub α] (n : Nat) : Node α (n + 0) n := binop (fun a b => a - b) (multiPass n) (constant n)
/-- `mul(c)`, `prelude.rs:418-426`. -/
def mulOp [Mul α] (n : Nat) : Node α (n + 0) n := binop (fun a b => a * b) (multiPass n) (constant n)

/-! ## Generated groups -/

/-- Argument given to a fractional generator for node `i` of `n`; `prelude.rs:1401-1405, 1463-1467, 1523-1527,
1594-1598, 1649-1653`: `if N > 1 { i as f64 / (N - 1) as f64 } else { 0.5 }`. Rationals, no rounding. -/
def frac (n i : Nat) : Rat := if n > 1 then (i : Rat) / ((n - 1 : Nat) : Rat) else 1 / 2

/-- Initial state of the `n` nodes of an indexed group (`Frame::generate(|i| f(i as u64).0)`), followed by the
pseudorandom hash `rehash i` which the constructor of the group gives to node `i` (`ping`, see C21). -/
def indexed {S : Type} (n : Nat) (rehash : Nat → S → S) (f : Nat → S) : Fin n → S := fun i => rehash i.1 (f i.1)

/-- Initial state of the `n` nodes of a fractional group. -/
def fractional {S : Type} (n : Nat) (rehash : Nat → S → S) (f : Rat → S) : Fin n → S :=
  fun i => rehash i.1 (f (frac n i.1))

/-! ## Sample access -/

/-- `AudioNode::get_mono`, `audionode.rs:208-219`; a failing assertion is `none`. `half` divides by two. -/
def getMono [Add α] (half : α → α) {i o} (zero : α) (X : Node α i o) (s : X.σ) : Option (X.σ × α) :=
  if h : i = 0 ∧ (o = 1 ∨ o = 2) then
    let r := X.tick s (fun _ => zero)
    if h1 : o = 1 then some (r.1, r.2 ⟨0, by omega⟩)
    else some (r.1, half (r.2 ⟨0, by omega⟩ + r.2 ⟨1, by omega⟩))
  else none

/-- `AudioNode::get_stereo`, `audionode.rs:232-239`. -/
def getStereo {i o} (zero : α) (X : Node α i o) (s : X.σ) : Option (X.σ × α × α) :=
  if h : i = 0 ∧ (o = 1 ∨ o = 2) then
    let r := X.tick s (fun _ => zero)
    some (r.1, r.2 ⟨0, by omega⟩, r.2 ⟨if o > 1 then 1 else 0, by split <;> omega⟩)
  else none

/-- `AudioNode::filter_mono`, `audionode.rs:249-254`. -/
def filterMono {i o} (X : Node α i o) (s : X.σ) (x : α) : Option (X.σ × α) :=
  if h : i = 1 ∧ o = 1 then
    let r := X.tick s (fun _ => x)
    some (r.1, r.2 ⟨0, by omega⟩)
  else none

/-- `AudioNode::filter_stereo`, `audionode.rs:264-269`. -/
def filterStereo {i o} (X : Node α i o) (s : X.σ) (x y : α) : Option (X.σ × α × α) :=
  if h : i = 2 ∧ o = 2 then
    let r := X.tick s (fun c => if c.1 = 0 then x else y)
    some (r.1, r.2 ⟨0, by omega⟩, r.2 ⟨1, by omega⟩)
  else none

/-- `AudioUnit::get_mono`, `audiounit.rs:108-123`: works on the unit behind the `AudioUnit` interface, whose `tick`
takes and fills slices. The number of inputs is checked in debug builds only (`debug`); without the check the unit
is ticked with an empty slice, which panics in a unit that has inputs, so both are `none`. -/
def unitGetMono [Add α] (half : α → α) (zero : α) {i o} (X : Node α i o) (s : X.σ) : Option (X.σ × α) :=
  if i = 0 then
    if h1 : o = 1 then
      let r := X.tick s (fun _ => zero)
      some (r.1, r.2 ⟨0, by omega⟩)
    else if h2 : o = 2 then
      let r := X.tick s (fun _ => zero)
      some (r.1, half (r.2 ⟨0, by omega⟩ + r.2 ⟨1, by omega⟩))
    else none
  else none

/-- `AudioUnit::get_stereo`, `audiounit.rs:136-151`. -/
def unitGetStereo (zero : α) {i o} (X : Node α i o) (s : X.σ) : Option (X.σ × α × α) :=
  if i = 0 then
    if h1 : o = 1 then
      let r := X.tick s (fun _ => zero)
      some (r.1, r.2 ⟨0, by omega⟩, r.2 ⟨0, by omega⟩)
    else if h2 : o = 2 then
      let r := X.tick s (fun _ => zero)
      some (r.1, r.2 ⟨0, by omega⟩, r.2 ⟨1, by omega⟩)
    else none
  else none

/-- Repeated calls of an access function: call `k` is given argument `x k`; the results of the first `n` calls. -/
def calls {S A B : Type} (f : S → A → Option (S × B)) (x : Nat → A) (s : S) : Nat → Option (S × List B)
  | 0 => some (s, [])
  | n + 1 => (calls f x s n).bind fun p => (f p.1 (x n)).map fun q => (q.1, p.2 ++ [q.2])

end Fundsp.Expr
