import Verif.Core.Node
import Mathlib.Logic.Function.Basic

/-! The setting system: `/repo/src/setting.rs`, the `set` methods of the structural nodes in `/repo/src/audionode.rs`, of the wrappers in
`/repo/src/audiounit.rs` and `combinator.rs`, and of `Net` (`/repo/src/net.rs:1357-1365`, without frontend).

The graph is modelled as a tree of structural nodes over leaf components. `L` is the type of leaf components with their parameters, `P` the type
of `Parameter`s. -/

namespace Fundsp.Setting

/-- `Address`: `setting.rs:57-69`. -/
inductive Addr where
  | null
  | left
  | right
  | index (i : Nat)
  | node (id : Nat)
deriving DecidableEq, Repr

/-- `Setting`: `setting.rs:73-77`. -/
structure Setting (P : Type) where
  param : P
  address : List Addr

variable {P L : Type}

/-- `Setting::index`, `node`, `left`, `right`: `setting.rs:187-206`. `ArrayVec::push` panics when the four places are taken. -/
def Setting.push (s : Setting P) (a : Addr) : Option (Setting P) :=
  if s.address.length < 4 then some { s with address := s.address ++ [a] } else none

/-- `Setting::direction`: `setting.rs:212-218`. -/
def Setting.direction (s : Setting P) : Addr := s.address.headD .null

/-- `Setting::peel`: `setting.rs:220-225`. -/
def Setting.peel (s : Setting P) : Setting P := { s with address := s.address.drop 1 }

/-- Combinators of two components. -/
inductive Bin where
  | binop | pipe | stack | branch | bus

/-- Components around one component that hand on settings. -/
inductive Un where
  | unop | thru | an | unit | bigBlock | blockRate

/-- Combinators of many components. -/
inductive Multi where
  | multiBus | multiStack | reduce | multiBranch | chain

/-- Components without a `set` of their own around other components: `Feedback`, `Feedback2`, `Oversampler`, `Resampler` and so on. The default
`set` (`audionode.rs:124`) does nothing. -/
inductive Tree (L : Type) where
  | leaf (l : L)
  | bin (k : Bin) (x y : Tree L)
  | un (k : Un) (x : Tree L)
  | multi (k : Multi) (n : Nat) (x : Fin n → Tree L)
  | net (n : Nat) (index : Nat → Option (Fin n)) (x : Fin n → Tree L)
  | closed (n : Nat) (x : Fin n → Tree L)

/-- `match setting.direction()` of the binary nodes: whether `x` (`true`) or `y` (`false`) is addressed.
`audionode.rs:930-936`, `1360-1366`, `1481-1487`, `1604-1610`, `1718-1724`. -/
def Bin.dir : Bin → Addr → Option Bool
  | .binop, .left => some true
  | .binop, .right => some false
  | .pipe, .left => some true
  | .pipe, .right => some false
  | .stack, .left => some true
  | .stack, .right => some false
  | .branch, .left => some true
  | .branch, .right => some false
  | .bus, .left => some true
  | .bus, .right => some false
  | _, _ => none

/-- Setting passed on by the unary nodes: `audionode.rs:1216-1218` (`Unop`), `1816-1818` (`Thru`), `combinator.rs:215-217` and
`audiounit.rs:389-391` (`An`), `audiounit.rs:463-465` (`Unit`), `536-538` (`BigBlockAdapter`), `627-629` (`BlockRateAdapter`). -/
def Un.pass : Un → Setting P → Setting P
  | .unop, s => s
  | .thru, s => s
  | .an, s => s
  | .unit, s => s
  | .bigBlock, s => s
  | .blockRate, s => s

/-- `if let Address::Index(index) = setting.direction()`: `audionode.rs:1912-1916`, `2048-2052`, `2190-2194`, `2308-2312`, `2426-2430`. -/
def Multi.dir : Multi → Addr → Option Nat
  | .multiBus, .index i => some i
  | .multiStack, .index i => some i
  | .reduce, .index i => some i
  | .multiBranch, .index i => some i
  | .chain, .index i => some i
  | _, _ => none

/-- `set`. `none` is a panic (array index out of range). `leafSet` is the `set` method of the leaf components. -/
def Tree.set (leafSet : L → Setting P → L) : Tree L → Setting P → Option (Tree L)
  | .leaf l, s => some (.leaf (leafSet l s))
  | .bin k x y, s =>
    match k.dir s.direction with
    | some true => (x.set leafSet s.peel).map fun x' => .bin k x' y
    | some false => (y.set leafSet s.peel).map fun y' => .bin k x y'
    | none => some (.bin k x y)
  | .un k x, s => (x.set leafSet (k.pass s)).map fun x' => .un k x'
  | .multi k n x, s =>
    match k.dir s.direction with
    | some i =>
      if h : i < n then ((x ⟨i, h⟩).set leafSet s.peel).map fun x' => .multi k n (Function.update x ⟨i, h⟩ x') else none
    | none => some (.multi k n x)
  | .net n index x, s =>
    match s.direction with
    | .node id =>
      match index id with
      | some i => ((x i).set leafSet s.peel).map fun x' => .net n index (Function.update x i x')
      | none => some (.net n index x)
    | _ => some (.net n index x)
  | .closed n x, _ => some (.closed n x)

/-! ### Listener -/

/-- `SettingListener`: `setting.rs:243-246`; the node and the settings waiting in its channel, oldest first. -/
structure Listener (σ P : Type) where
  x : σ
  queue : List (Setting P)

/-- The `set` of `SettingListener` is the default one, `audionode.rs:124`: it ignores the setting. The implementation of `AudioNode` for
`SettingListener` (`setting.rs:283-317`) does not define `set`. -/
def Listener.set {σ : Type} (l : Listener σ P) (_ : Setting P) : Listener σ P := l

/-- `receive_settings`: `setting.rs:276-280`. -/
def Listener.receive {σ : Type} (l : Listener σ P) : Listener σ P :=
  l.queue.foldl (fun l s => l.set s) { l with queue := [] }

/-- `SettingSender::try_send`: `setting.rs:237-239`; the channel holds 64 settings. -/
def Listener.send {σ : Type} (l : Listener σ P) (s : Setting P) : Option (Listener σ P) :=
  if l.queue.length < 64 then some { l with queue := l.queue ++ [s] } else none

/-- `SettingListener::reset`, `tick`, `process`: `setting.rs:288-307`. -/
def listenerNode {α : Type} (P : Type) {i o : Nat} (X : Node α i o) : Node α i o where
  σ := Listener X.σ P
  reset l := let l := l.receive; { l with x := X.reset l.x }
  tick l x :=
    let l := l.receive
    let r := X.tick l.x x
    ({ l with x := r.1 }, r.2)
  process g l size inp out :=
    let l := l.receive
    let r := X.process g l.x size inp out
    ({ l with x := r.1 }, r.2)

end Fundsp.Setting
