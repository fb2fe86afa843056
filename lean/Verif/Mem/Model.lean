import Mathlib.Algebra.BigOperators.Fin
import Mathlib.Algebra.Order.BigOperators.Group.Finset
import Mathlib.Data.Rat.Floor

/-! Model of when the units ask the allocator for memory: `AudioNode::allocate`, `AudioUnit::allocate` and the growing vectors of
`/repo/src/dynamics.rs`, `/repo/src/oscillator.rs` and `/repo/src/net.rs`.

Only lengths and capacities are modelled, as sample values have no influence on them. Rates and times are rationals. Memory obtained in
constructors and in `set_sample_rate` (delay lines, the reducer of the limiter) is not counted: those calls are not made on the audio thread. -/

namespace Fundsp.Mem

/-- `Vec`: its length, its capacity and how many times it has asked the allocator for memory. -/
structure VecMem where
  len : Nat
  cap : Nat
  asked : Nat

/-- `Vec::new()` asks for nothing. -/
def VecMem.new : VecMem := ⟨0, 0, 0⟩

/-- How `Vec` grows: the new capacity, given the length, the old capacity and the number of items to make room for. Documented in the
standard library: "capacity will be greater than or equal to `self.len() + additional`". -/
structure Grow where
  size : Nat → Nat → Nat → Nat
  enough : ∀ len cap more, len + more ≤ size len cap more

/-- The growth of the standard library, `RawVec::grow_amortized`, for items of 2 to 1024 bytes. -/
def Grow.std : Grow := ⟨fun len cap more => max 4 (max (2 * cap) (len + more)), fun _ _ _ => by omega⟩

/-- `Vec::reserve`. -/
def VecMem.reserve (g : Grow) (v : VecMem) (more : Nat) : VecMem :=
  if v.len + more ≤ v.cap then v else { v with cap := g.size v.len v.cap more, asked := v.asked + 1 }

/-- `Vec::push`. -/
def VecMem.push (g : Grow) (v : VecMem) : VecMem :=
  let w := v.reserve g 1
  { w with len := w.len + 1 }

/-- `Vec::clear`. -/
def VecMem.clear (v : VecMem) : VecMem := { v with len := 0 }

/-- `Vec::resize`. -/
def VecMem.resize (g : Grow) (v : VecMem) (n : Nat) : VecMem :=
  if n ≤ v.len then { v with len := n } else
    let w := v.reserve g (n - v.len)
    { w with len := n }

/-- Nodes and units that contain one other unit. The number `tag` tells instances apart whose number of inner samples depends on the input
(`Resampler`) or on their position in a block (`BlockRateAdapter`). -/
inductive One where
  | unop | thru | an | unit | bigBlock | nest | feedback | feedbackUnit | system | pulse | listen | over
  | blockRate (tag : Nat)
  | resample (tag : Nat)

/-- Nodes that contain two other nodes. -/
inductive Two where
  | binop | pipe | stack | branch | bus | feedback2

/-- Nodes that contain any number of other nodes. -/
inductive Many where
  | multibus | multistack | reduce | multibranch | chain

/-- Units as far as memory is concerned. -/
inductive Tree where
  /-- Units that do not use the heap, or only in constructors and `set_sample_rate`. -/
  | plain
  /-- `Limiter`: sample rate, lookahead and `buffer`, `dynamics.rs:124-136`. -/
  | limiter (sr look : ℚ) (buf : VecMem)
  /-- `Pluck`: sample rate, frequency, `initialized` and `line`, `oscillator.rs:215-225`. -/
  | pluck (sr freq : ℚ) (init : Bool) (line : VecMem)
  | one (k : One) (x : Tree)
  | two (k : Two) (x y : Tree)
  | many (k : Many) (n : Nat) (x : Fin n → Tree)
  /-- `Net` with the units of its vertices. Whether `order` is known, and how many times vectors for it were made, `net.rs:842-846`. -/
  | net (ordered : Bool) (asked n : Nat) (x : Fin n → Tree)

/-- `Limiter::buffer_length`: `dynamics.rs:151-153`. -/
def limLen (sr look : ℚ) : Nat := max 1 ⌊sr * look + 1 / 2⌋.toNat

/-- Length of the line in `initialize_line`: `oscillator.rs:243-253`. -/
def lineLen (sr freq : ℚ) : Nat := ⌊sr / freq - 1 - 1 / 5⌋.toNat

/-- How many times a tree has asked for memory. -/
def Tree.asked : Tree → Nat
  | plain => 0
  | limiter _ _ b => b.asked
  | pluck _ _ _ l => l.asked
  | one _ x => x.asked
  | two _ x y => x.asked + y.asked
  | many _ _ x => ∑ i, (x i).asked
  | net _ a _ x => a + ∑ i, (x i).asked

/-- One sample of the limiter: `dynamics.rs:199-221`. -/
def limTick (g : Grow) (length : Nat) (b : VecMem) : VecMem := if b.len < length then b.push g else b

/-- `set_hash` through `ping`. Only `Pluck` reacts, `oscillator.rs:303-306`. -/
def Tree.hash : Tree → Tree
  | plain => plain
  | limiter sr look b => limiter sr look b
  | pluck sr f _ l => pluck sr f false l
  | one k x => one k x.hash
  | two k x y => two k x.hash y.hash
  | many k n x => many k n fun i => (x i).hash
  | net o a n x => net o a n fun i => (x i).hash

/-- Samples played by the inner unit of a node that plays `n` samples; `w` is what resamplers and block rate adapters happen to need. -/
def One.inner (w : Nat → Nat → Nat) (n : Nat) : One → Nat
  | .over => 2 * n
  | .blockRate tag => w tag n
  | .resample tag => w tag n
  | _ => n

/-- Playing `n` samples with any division into ticks and blocks, after a `ping` if `h`. A net orders its nodes first if necessary,
`net.rs:1189-1191, net.rs:1227-1229`, which pings all nodes, `net.rs:840-841`. -/
def Tree.playAfter (g : Grow) (w : Nat → Nat → Nat) : Bool → Nat → Tree → Tree
  | _, _, plain => plain
  | _, n, limiter sr look b => limiter sr look ((limTick g (limLen sr look))^[n] b)
  | h, n, pluck sr f init l =>
    if n = 0 ∨ (init && !h) then pluck sr f (init && !h) l else pluck sr f true (l.resize g (lineLen sr f))
  | h, n, one k x => one k (x.playAfter g w h (k.inner w n))
  | h, n, two k x y => two k (x.playAfter g w h n) (y.playAfter g w h n)
  | h, n, many k m x => many k m fun i => (x i).playAfter g w h n
  | h, n, net o a m x =>
    if n = 0 ∨ o then net o a m fun i => (x i).playAfter g w h n else net true (a + 1) m fun i => (x i).playAfter g w true n

/-- Playing `n` samples. -/
def Tree.play (g : Grow) (w : Nat → Nat → Nat) (n : Nat) (t : Tree) : Tree := t.playAfter g w false n

/-- `reset`: `dynamics.rs:182-184`, `oscillator.rs:274-277`, `net.rs:1334-1347`, where nodes are ordered, and thereby pinged. -/
def Tree.reset : Tree → Tree
  | plain => plain
  | limiter sr look b => limiter sr look b.clear
  | pluck sr f _ l => pluck sr f false l
  | one k x => one k x.reset
  | two k x y => two k x.reset y.reset
  | many k n x => many k n fun i => (x i).reset
  | net o a n x => if o then net true a n fun i => (x i).reset else net true (a + 1) n fun i => (x i).reset.hash

/-- `set_sample_rate`: `dynamics.rs:186-196`, `oscillator.rs:279-285`. Oversampled nodes run at twice the rate,
`oversample.rs:250-253`. A net passes only new rates on and then orders its nodes, `net.rs:1315-1331`; here the rate is taken to be new. -/
def Tree.setRate : ℚ → Tree → Tree
  | _, plain => plain
  | r, limiter _ look b => limiter r look b.clear
  | r, pluck sr f init l => if sr = r then pluck sr f init l else pluck r f false l
  | r, one k x =>
    match k with
    | .over => one .over (x.setRate (2 * r))
    | k => one k (x.setRate r)
  | r, two k x y => two k (x.setRate r) (y.setRate r)
  | r, many k n x => many k n fun i => (x i).setRate r
  | r, net o a n x => if o then net true a n fun i => (x i).setRate r else net true (a + 1) n fun i => ((x i).setRate r).hash

/-- `allocate`, after a `ping` if `h`. The default does nothing (`audionode.rs:158-160`, also for `SettingListener` in `setting.rs:283-317`);
`dynamics.rs:232-237`; `oscillator.rs:312-316`; the other nodes pass the call on, except that `Feedback2` leaves out its second node,
`feedback.rs:268-270`; `net.rs:1417-1424`, where nodes are ordered, and thereby pinged, first. -/
def Tree.allocateAfter (g : Grow) : Bool → Tree → Tree
  | _, plain => plain
  | _, limiter sr look b => limiter sr look (if b.cap < limLen sr look then b.reserve g (limLen sr look - b.cap) else b)
  | h, pluck sr f init l => if init && !h then pluck sr f init l else pluck sr f true (l.resize g (lineLen sr f))
  | h, one k x =>
    match k with
    | .listen => one .listen (if h then x.hash else x)
    | k => one k (x.allocateAfter g h)
  | h, two k x y =>
    match k with
    | .feedback2 => two .feedback2 (x.allocateAfter g h) (if h then y.hash else y)
    | k => two k (x.allocateAfter g h) (y.allocateAfter g h)
  | h, many k n x => many k n fun i => (x i).allocateAfter g h
  | h, net o a n x => net true (if o then a else a + 1) n fun i => (x i).allocateAfter g (h || !o)

/-- `allocate`. -/
def Tree.allocate (g : Grow) (t : Tree) : Tree := t.allocateAfter g false

/-- Calls made on the audio thread. -/
inductive Call where
  | play (n : Nat) (w : Nat → Nat → Nat)
  | reset
  | hash

/-- One call. -/
def Tree.call (g : Grow) (t : Tree) : Call → Tree
  | .play n w => t.play g w n
  | .reset => t.reset
  | .hash => t.hash

/-- Calls in order. -/
def Tree.calls (g : Grow) (t : Tree) (l : List Call) : Tree := l.foldl (Tree.call g) t

end Fundsp.Mem
