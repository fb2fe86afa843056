import Verif.Core.Node

/-!
# Static combinators of `/repo/src/audionode.rs`

Each definition models one node type: its state, `reset`, `tick` and `process`. Node types whose fields are
other nodes take those as parameters. `ping`, `route`, `set`, `allocate` are modelled elsewhere or not at all.
-/

namespace Fundsp
variable {α : Type}

/-- `input[..X::Inputs]` / `input.subset(0, n)`. -/
def Frame.takeL {i j} (x : Frame α (i + j)) : Frame α i := fun c => x (Fin.castAdd j c)
/-- `input[X::Inputs..]` / `input.subset(X::Inputs, m)`. -/
def Frame.takeR {i j} (x : Frame α (i + j)) : Frame α j := fun c => x (Fin.natAdd i c)
/-- `Frame::generate(|i| if i < X::Outputs { output_x[i] } else { output_y[i - X::Outputs] })`. -/
def Frame.join {i j} (x : Frame α i) (y : Frame α j) : Frame α (i + j) :=
  fun c => if h : c.1 < i then x ⟨c.1, h⟩ else y ⟨c.1 - i, by have := c.2; omega⟩

def Buf.subL {i j} (b : Buf α (i + j)) : Buf α i := fun c => b (Fin.castAdd j c)
def Buf.subR {i j} (b : Buf α (i + j)) : Buf α j := fun c => b (Fin.natAdd i c)
/-- Writing through two disjoint `BufferMut::subset` views. -/
def Buf.join {i j} (x : Buf α i) (y : Buf α j) : Buf α (i + j) :=
  fun c => if h : c.1 < i then x ⟨c.1, h⟩ else y ⟨c.1 - i, by have := c.2; omega⟩

/-- `MultiPass` (`audionode.rs:343-378`) and `Pass` (`380-412`, `n = 1`). -/
def multiPass (n : Nat) : Node α n n where
  σ := Unit
  reset := id
  tick := fun s x => (s, x)
  process := fun _ s size inp out => (s, setItems size inp out)

/-- `Sink`, `audionode.rs:414-445`. -/
def sink (n : Nat) : Node α n 0 where
  σ := Unit
  reset := id
  tick := fun s _ => (s, fun c => c.elim0)
  process := fun _ s _ _ out => (s, out)

/-- `Constant`, `audionode.rs:447-505`. -/
def constant (n : Nat) : Node α 0 n where
  σ := Frame α n
  reset := id
  tick := fun s _ => (s, s)
  process := fun _ s size _ out => (s, setItems size (fun c _ => s c) out)

/-- `Split`, `audionode.rs:507-550`. -/
def split (n : Nat) : Node α 1 n where
  σ := Unit
  reset := id
  tick := fun s x => (s, fun _ => x 0)
  process := fun _ s size inp out => (s, setItems size (fun _ k => inp 0 k) out)

/-- `MultiSplit<M, N>`, `audionode.rs:552-596`. Channel `c` of the output is input `c % M`. -/
def multiSplit (m n : Nat) : Node α m (m * n) where
  σ := Unit
  reset := id
  tick := fun s x => (s, fun c => x ⟨c.1 % m, Nat.mod_lt _ (Nat.pos_of_mul_pos_right (Nat.lt_of_le_of_lt (Nat.zero_le _) c.2))⟩)
  process := fun _ s size inp out =>
    (s, setItems size (fun c => inp ⟨c.1 % m, Nat.mod_lt _ (Nat.pos_of_mul_pos_right (Nat.lt_of_le_of_lt (Nat.zero_le _) c.2))⟩) out)

/-- Operations used by the averaging nodes. `z` is `1.0 / N`. -/
structure AvgOps (α : Type) (n : Nat) where
  add : α → α → α
  mul : α → α → α
  divN : α → α
  z : α

/-- `Join<N>`, `audionode.rs:598-647`, for `N = n + 1` (`N = 0` panics on `input[0]`).
`tick` sums and divides by `N`; `process` multiplies each channel by `z = 1/N` and accumulates. -/
def join (n : Nat) (ops : AvgOps α (n + 1)) : Node α (n + 1) 1 where
  σ := Unit
  reset := id
  tick := fun s x => (s, fun _ => ops.divN (Fin.foldl n (fun acc i => ops.add acc (x i.succ)) (x 0)))
  process := fun _ s size inp out =>
    (s, Fin.foldl n
      (fun acc i => setItems size (fun c k => ops.add (acc c k) (ops.mul (inp i.succ k) ops.z)) acc)
      (setItems size (fun _ k => ops.mul (inp 0 k) ops.z) out))

/-- Channel `j + i * M` of an `M * (n+1)`-channel frame. -/
def multiIdx {m n : Nat} (j : Fin m) (i : Nat) (hi : i < n) : Fin (m * n) :=
  ⟨j.1 + i * m, by
    have h : (i + 1) * m ≤ n * m := Nat.mul_le_mul_right m hi
    rw [Nat.add_mul, Nat.one_mul] at h; rw [Nat.mul_comm m n]; have := j.2; omega⟩

/-- `MultiJoin<M, N>`, `audionode.rs:649-707`, for `N = n + 1`. The loop of `process` over channels
`M .. M*N` is grouped by branch `i` (channel `j + i*M` is added to output `j`). -/
def multiJoin (m n : Nat) (ops : AvgOps α (n + 1)) : Node α (m * (n + 1)) m where
  σ := Unit
  reset := id
  tick := fun s x => (s, fun j => ops.divN (Fin.foldl n
    (fun acc i => ops.add acc (x (multiIdx j (i.1 + 1) (by omega)))) (x (multiIdx j 0 (by omega)))))
  process := fun _ s size inp out =>
    (s, Fin.foldl n
      (fun acc i => setItems size
        (fun j k => ops.add (acc j k) (ops.mul (inp (multiIdx j (i.1 + 1) (by omega)) k) ops.z)) acc)
      (setItems size (fun j k => ops.mul (inp (multiIdx j 0 (by omega)) k) ops.z) out))

/-- `Reverse`, `audionode.rs:2455-2486`. -/
def reverse (n : Nat) : Node α n n where
  σ := Unit
  reset := id
  tick := fun s x => (s, fun c => x ⟨n - 1 - c.1, by omega⟩)
  process := fun _ s size inp out => (s, setItems size (fun c => inp ⟨n - 1 - c.1, by omega⟩) out)

/-- `Impulse`, `audionode.rs:2488-2522` (state: next value; uses the default `process`). -/
def impulse (n : Nat) (one zero : α) : Node α 0 n :=
  Node.ofTick α (fun _ => one) (fun s _ => (zero, fun _ => s))

/-- `Map`, `audionode.rs:1237-1280` (default `process`; `f` is a pure function `Fn`). -/
def mapNode {i o} (f : Frame α i → Frame α o) : Node α i o :=
  Node.ofTick Unit id (fun s x => (s, f x))

/-- `Binop`, `audionode.rs:876-928`. `op` is the lane-wise operation of `FrameAdd`, `FrameSub` or `FrameMul`
(`audionode.rs:709-820`), whose `frame` and `binop` are the same operation on each channel. -/
def binop {i j o} (op : α → α → α) (X : Node α i o) (Y : Node α j o) : Node α (i + j) o where
  σ := X.σ × Y.σ
  reset := fun s => (X.reset s.1, Y.reset s.2)
  tick := fun s x =>
    let a := X.tick s.1 x.takeL
    let b := Y.tick s.2 x.takeR
    ((a.1, b.1), fun c => op (a.2 c) (b.2 c))
  process := fun g s size inp out =>
    let a := X.process g.left s.1 size inp.subL (g.buf o)
    let b := Y.process g.right s.2 size inp.subR out
    ((a.1, b.1), setItems size (fun c k => op (a.2 c k) (b.2 c k)) b.2)

/-- `Unop`, `audionode.rs:1184-1214`; `op` is the lane-wise operation of `FrameNeg`, `FrameId`,
`FrameAddScalar`, `FrameNegAddScalar` or `FrameMulScalar` (`audionode.rs:987-1162`). -/
def unop {i o} (op : α → α) (X : Node α i o) : Node α i o where
  σ := X.σ
  reset := X.reset
  tick := fun s x => let a := X.tick s x; (a.1, fun c => op (a.2 c))
  process := fun g s size inp out =>
    let a := X.process g s size inp out
    (a.1, setItems size (fun c k => op (a.2 c k)) a.2)

/-- `Pipe`, `audionode.rs:1330-1358`. -/
def pipe {i j o} (X : Node α i j) (Y : Node α j o) : Node α i o where
  σ := X.σ × Y.σ
  reset := fun s => (X.reset s.1, Y.reset s.2)
  tick := fun s x =>
    let a := X.tick s.1 x
    let b := Y.tick s.2 a.2
    ((a.1, b.1), b.2)
  process := fun g s size inp out =>
    let a := X.process g.left s.1 size inp (g.buf j)
    let b := Y.process g.right s.2 size a.2 out
    ((a.1, b.1), b.2)

/-- `Stack`, `audionode.rs:1430-1479`. -/
def stack {i j o p} (X : Node α i o) (Y : Node α j p) : Node α (i + j) (o + p) where
  σ := X.σ × Y.σ
  reset := fun s => (X.reset s.1, Y.reset s.2)
  tick := fun s x =>
    let a := X.tick s.1 x.takeL
    let b := Y.tick s.2 x.takeR
    ((a.1, b.1), Frame.join a.2 b.2)
  process := fun g s size inp out =>
    let a := X.process g.left s.1 size inp.subL out.subL
    let b := Y.process g.right s.2 size inp.subR out.subR
    ((a.1, b.1), Buf.join a.2 b.2)

/-- `Branch`, `audionode.rs:1560-1602`. -/
def branch {i o p} (X : Node α i o) (Y : Node α i p) : Node α i (o + p) where
  σ := X.σ × Y.σ
  reset := fun s => (X.reset s.1, Y.reset s.2)
  tick := fun s x =>
    let a := X.tick s.1 x
    let b := Y.tick s.2 x
    ((a.1, b.1), Frame.join a.2 b.2)
  process := fun g s size inp out =>
    let a := X.process g.left s.1 size inp out.subL
    let b := Y.process g.right s.2 size inp out.subR
    ((a.1, b.1), Buf.join a.2 b.2)

/-- `Bus`, `audionode.rs:1681-1716`. -/
def bus {i o} (add : α → α → α) (X Y : Node α i o) : Node α i o where
  σ := X.σ × Y.σ
  reset := fun s => (X.reset s.1, Y.reset s.2)
  tick := fun s x =>
    let a := X.tick s.1 x
    let b := Y.tick s.2 x
    ((a.1, b.1), fun c => add (a.2 c) (b.2 c))
  process := fun g s size inp out =>
    let a := X.process g.left s.1 size inp out
    let b := Y.process g.right s.2 size inp (g.buf o)
    ((a.1, b.1), setItems size (fun c k => add (a.2 c k) (b.2 c k)) a.2)

/-- First `o` channels of a buffer with at least `o` channels: `output.subset(0, X::Outputs)`. -/
def Buf.first {i} (o : Nat) (h : o ≤ i) (b : Buf α i) : Buf α o := fun c => b ⟨c.1, by omega⟩

/-- `Thru`, `audionode.rs:1766-1814`. Note that `process` returns at once when the node has no inputs
(line 1791), without running `x`. -/
def thru {i o} (X : Node α i o) : Node α i i where
  σ := X.σ
  reset := X.reset
  tick := fun s x =>
    let a := X.tick s x
    (a.1, fun c => if h : c.1 < o then a.2 ⟨c.1, h⟩ else x c)
  process := fun g s size inp out =>
    if i = 0 then (s, out)
    else if h : i < o then
      let a := X.process g.left s size inp (g.buf o)
      (a.1, setItems size (fun c => a.2 ⟨c.1, by omega⟩) out)
    else
      let a := X.process g.left s size inp (Buf.first o (by omega) out)
      (a.1, fun c => if h : c.1 < o then a.2 ⟨c.1, h⟩
                     else fun k => if k < 8 * simdItems size then inp c k else out c k)

/-! ## Nodes built from `N` nodes of one type

The `N` nodes have one type `X`, hence one `Node` record, but each has its own state (which includes its
parameters): `Fin N → X.σ`. -/

/-- `MultiBus<N, X>`, `audionode.rs:1873-1910`, for `N = n + 1` (`N = 0` panics in `process` on `self.x[0]`).
`tick` folds from a zero frame, `process` starts from the output of the first node. -/
def multiBus {i o} (add : α → α → α) (zero : α) (n : Nat) (X : Node α i o) : Node α i o where
  σ := Fin (n + 1) → X.σ
  reset := fun s k => X.reset (s k)
  tick := fun s x =>
    (fun k => (X.tick (s k) x).1,
     Fin.foldl (n + 1) (fun acc k c => add (acc c) ((X.tick (s k) x).2 c)) (fun _ => zero))
  process := fun g s size inp out =>
    let first := X.process (g.nth 0) (s 0) size inp out
    let r := fun k : Fin n => X.process (g.nth (k.1 + 1)) (s k.succ) size inp (g.buf o)
    (Fin.cases first.1 (fun k => (r k).1),
     Fin.foldl n (fun acc k => setItems size (fun c j => add (acc c j) ((r k).2 c j)) acc) first.2)

/-- `&input[i * X::Inputs .. (i + 1) * X::Inputs]`. -/
def Frame.slice {i n : Nat} (x : Frame α (i * n)) (k : Fin n) : Frame α i := fun c => x (multiIdx c k.1 k.2)
/-- `input.subset(i * X::Inputs, X::Inputs)`. -/
def Buf.slice {i n : Nat} (x : Buf α (i * n)) (k : Fin n) : Buf α i := fun c => x (multiIdx c k.1 k.2)

/-- Node number of output channel `c` when each node has `o` outputs. -/
def nodeOf {o n : Nat} (c : Fin (o * n)) : Fin n :=
  ⟨c.1 / o, by
    have h := c.2
    have ho : 0 < o := Nat.pos_of_mul_pos_right (Nat.lt_of_le_of_lt (Nat.zero_le _) h)
    exact (Nat.div_lt_iff_lt_mul ho).2 (Nat.lt_of_lt_of_eq h (Nat.mul_comm _ _))⟩
/-- Channel of that node. -/
def chanOf {o n : Nat} (c : Fin (o * n)) : Fin o :=
  ⟨c.1 % o, Nat.mod_lt _ (Nat.pos_of_mul_pos_right (Nat.lt_of_le_of_lt (Nat.zero_le _) c.2))⟩

/-- `MultiStack<N, X>`, `audionode.rs:1999-2046`. The loop over the nodes writes disjoint output ranges and each
node reads only its own inputs, so it is given pointwise. -/
def multiStack {i o} (n : Nat) (X : Node α i o) : Node α (i * n) (o * n) where
  σ := Fin n → X.σ
  reset := fun s k => X.reset (s k)
  tick := fun s x =>
    (fun k => (X.tick (s k) (x.slice k)).1,
     fun c => (X.tick (s (nodeOf c)) (x.slice (nodeOf c))).2 (chanOf c))
  process := fun g s size inp out =>
    let r := fun k : Fin n => X.process (g.nth k.1) (s k) size (inp.slice k) (out.slice k)
    (fun k => (r k).1, fun c => (r (nodeOf c)).2 (chanOf c))

/-- `MultiBranch<N, X>`, `audionode.rs:2264-2306`. -/
def multiBranch {i o} (n : Nat) (X : Node α i o) : Node α i (o * n) where
  σ := Fin n → X.σ
  reset := fun s k => X.reset (s k)
  tick := fun s x =>
    (fun k => (X.tick (s k) x).1, fun c => (X.tick (s (nodeOf c)) x).2 (chanOf c))
  process := fun g s size inp out =>
    let r := fun k : Fin n => X.process (g.nth k.1) (s k) size inp (out.slice k)
    (fun k => (r k).1, fun c => (r (nodeOf c)).2 (chanOf c))

/-- `Reduce<N, X, B>`, `audionode.rs:2131-2188`, for `N = n + 1`. -/
def reduce {i o} (op : α → α → α) (n : Nat) (X : Node α i o) : Node α (i * (n + 1)) o where
  σ := Fin (n + 1) → X.σ
  reset := fun s k => X.reset (s k)
  tick := fun s x =>
    (fun k => (X.tick (s k) (x.slice k)).1,
     Fin.foldl n (fun acc k c => op (acc c) ((X.tick (s k.succ) (x.slice k.succ)).2 c))
       (X.tick (s 0) (x.slice 0)).2)
  process := fun g s size inp out =>
    let first := X.process (g.nth 0) (s 0) size (inp.slice 0) out
    let r := fun k : Fin n => X.process (g.nth (k.1 + 1)) (s k.succ) size (inp.slice k.succ) (g.buf o)
    (Fin.cases first.1 (fun k => (r k).1),
     Fin.foldl n (fun acc k => setItems size (fun c j => op (acc c j) ((r k).2 c j)) acc) first.2)

/-- Tick part of `Chain`: `output = x[0].tick(input)`, then `output = x[i].tick(output)` for the others
(`audionode.rs:2402-2408`). -/
def chainTick {i} (X : Node α i i) : (n : Nat) → (Fin n → X.σ) → Frame α i → (Fin n → X.σ) × Frame α i
  | 0, s, x => (s, x)
  | n + 1, s, x =>
    let a := X.tick (s 0) x
    let b := chainTick X n (fun k => s k.succ) a.2
    (Fin.cases a.1 b.1, b.2)

/-- Block part of `Chain`, `audionode.rs:2410-2424`: nodes `idx, idx+1, ..` of `n` nodes remain; data is in
`cur`, the two buffers `(buffer, output)` are used alternately such that the last node writes `output`.
`toOut` tells whether the next node writes to `output`. -/
def chainProcess {i} (X : Node α i i) (size : Nat) : (n : Nat) → (idx : Nat) → Garb α → (Fin n → X.σ) →
    (cur buffer output : Buf α i) → (Fin n → X.σ) × Buf α i × Buf α i
  | 0, _, _, s, _, buffer, output => (s, buffer, output)
  | n + 1, idx, g, s, cur, buffer, output =>
    -- `N ^ i` is odd exactly when the number of nodes from here on, `n + 1 = N - i`, is odd
    if (n + 1) % 2 = 1 then
      let a := X.process (g.nth idx) (s 0) size cur output
      let b := chainProcess X size n (idx + 1) g (fun k => s k.succ) a.2 buffer a.2
      (Fin.cases a.1 b.1, b.2)
    else
      let a := X.process (g.nth idx) (s 0) size cur buffer
      let b := chainProcess X size n (idx + 1) g (fun k => s k.succ) a.2 a.2 output
      (Fin.cases a.1 b.1, b.2)

/-- `Chain<N, X>`, `audionode.rs:2382-2424`, for `N = n + 1` (`N = 0` panics on `self.x[0]`). -/
def chain {i} (n : Nat) (X : Node α i i) : Node α i i where
  σ := Fin (n + 1) → X.σ
  reset := fun s k => X.reset (s k)
  tick := fun s x => chainTick X (n + 1) s x
  process := fun g s size inp out =>
    let r := chainProcess X size (n + 1) 0 g s inp (g.buf i) out
    (r.1, r.2.2)

end Fundsp
