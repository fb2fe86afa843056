/-!
# Audio nodes: per-sample and block processing

Model of the `AudioNode` trait (`/repo/src/audionode.rs:36-341`), restricted to `reset`, `tick` and `process`.

* `Frame α n` models `Frame<f32, N>` with an arbitrary sample type `α`.
* `Buf α n` models the sample contents of a `BufferRef`/`BufferMut` with `n` channels (`/repo/src/buffer.rs`):
  sample `k` of channel `c`. Only samples `k < 64` exist in the code; the model only ever writes there when `size ≤ 64`.
* `Garb α` models the unspecified contents of `BufferArray::uninitialized()` scratch buffers
  (`/repo/src/buffer.rs`, used e.g. in `audionode.rs:907,1355,1708`): an arbitrary supply of sample values.
-/

namespace Fundsp

/-- `Frame<f32, N>`; `/repo/src/lib.rs`, `numeric_array`. -/
abbrev Frame (α : Type) (n : Nat) := Fin n → α

/-- Contents of an `n`-channel buffer; `/repo/src/buffer.rs`. -/
abbrev Buf (α : Type) (n : Nat) := Fin n → Nat → α

/-- Arbitrary data found in uninitialized scratch buffers: request number, channel, sample. -/
abbrev Garb (α : Type) := Nat → Nat → Nat → α

/-- Supplies for two sub-processes and a scratch buffer of our own. -/
def Garb.left {α} (g : Garb α) : Garb α := fun n => g (3 * n)
def Garb.right {α} (g : Garb α) : Garb α := fun n => g (3 * n + 1)
def Garb.buf {α} (g : Garb α) (n : Nat) : Buf α n := fun c k => g 2 c k
/-- Supply for the `i`-th of several sub-processes. -/
def Garb.nth {α} (g : Garb α) (i : Nat) : Garb α := fun n => g (2 ^ i * (2 * n + 1) + 2)

/-- `simd_items`, `/repo/src/lib.rs:77-79`. -/
def simdItems (samples : Nat) : Nat := (samples + 7) >>> 3
/-- `full_simd_items`, `/repo/src/lib.rs:83-85`. -/
def fullSimdItems (samples : Nat) : Nat := samples >>> 3

/-- `for i in 0..simd_items(size) { output.set(channel, i, v) }` on every channel: all samples of the first
`simd_items(size)` eight-sample items are overwritten, the rest of the buffer is kept. -/
def setItems {α n} (size : Nat) (new old : Buf α n) : Buf α n :=
  fun c k => if k < 8 * simdItems size then new c k else old c k

/-- `output.set_f32(channel, i, x)` for all channels. -/
def setSample {α n} (i : Nat) (x : Frame α n) (b : Buf α n) : Buf α n :=
  fun c k => if k = i then x c else b c k

/-- Frame of the samples at time `k`. -/
def Buf.frame {α n} (b : Buf α n) (k : Nat) : Frame α n := fun c => b c k

/-- Data part of an `AudioNode`. `/repo/src/audionode.rs:36-130`. -/
structure Node (α : Type) (i o : Nat) where
  /-- all fields of the node, parameters included -/
  σ : Type
  /-- `AudioNode::reset` -/
  reset : σ → σ
  /-- `AudioNode::tick` -/
  tick : σ → Frame α i → σ × Frame α o
  /-- `AudioNode::process(size, input, output)`; the old contents of `output` are an argument. -/
  process : Garb α → σ → Nat → Buf α i → Buf α o → σ × Buf α o

/-- The loop shared by the default `process` (`audionode.rs:79-99`) and `process_remainder`
(`audionode.rs:104-121`): ticks samples `start .. start + count`. -/
def tickLoop {α i o} {σ : Type} (tick : σ → Frame α i → σ × Frame α o) (inp : Buf α i) :
    Nat → Nat → σ → Buf α o → σ × Buf α o
  | _, 0, s, out => (s, out)
  | start, count + 1, s, out =>
    let r := tick s (inp.frame start)
    tickLoop tick inp (start + 1) count r.1 (setSample start r.2 out)

/-- Default `process`, `audionode.rs:79-99`. -/
def defaultProcess {α i o} {σ : Type} (tick : σ → Frame α i → σ × Frame α o) :
    Garb α → σ → Nat → Buf α i → Buf α o → σ × Buf α o :=
  fun _ s size inp out => tickLoop tick inp 0 size s out

/-- A node that only implements `tick` and `reset`. -/
def Node.ofTick {α i o} (σ : Type) (reset : σ → σ) (tick : σ → Frame α i → σ × Frame α o) : Node α i o :=
  { σ := σ, reset := reset, tick := tick, process := defaultProcess tick }

/-! ## Specification side: Mealy machines -/

/-- A sample-by-sample machine; the specification of a node. -/
structure Mealy (α : Type) (i o : Nat) where
  S : Type
  step : S → Frame α i → S × Frame α o

/-- State before sample `k` when fed the stream `w`. -/
def Mealy.st {α i o} (M : Mealy α i o) (m : M.S) (w : Nat → Frame α i) : Nat → M.S
  | 0 => m
  | k + 1 => (M.step (M.st m w k) (w k)).1

/-- Output sample `k` when fed the stream `w`. -/
def Mealy.out {α i o} (M : Mealy α i o) (m : M.S) (w : Nat → Frame α i) (k : Nat) : Frame α o :=
  (M.step (M.st m w k) (w k)).2

/-- Simulation between a node (ticks and blocks) and a sample-by-sample machine.
`process` must be right for every block size up to 64, for any previous contents of the output buffer, any
contents of scratch buffers and any data in the input buffer beyond the block. -/
structure Implements {α i o} (n : Node α i o) (M : Mealy α i o) (R : n.σ → M.S → Prop) : Prop where
  tick : ∀ s m x, R s m →
    R (n.tick s x).1 (M.step m x).1 ∧ (n.tick s x).2 = (M.step m x).2
  process : ∀ g s m size inp out, size ≤ 64 → R s m →
    R (n.process g s size inp out).1 (M.st m inp.frame size) ∧
    ∀ k, k < size → (n.process g s size inp out).2.frame k = M.out m inp.frame k

/-! ## Call schedules -/

/-- One call made by the user of a node. The block call carries everything that is not under control of the
input stream: previous output contents, input data beyond `size`, scratch garbage. -/
inductive Call (α : Type) (i o : Nat) where
  | tick
  | reset
  | block (size : Nat) (tail : Buf α i) (old : Buf α o) (g : Garb α)

/-- Number of samples consumed by a call. -/
def Call.len {α i o} : Call α i o → Nat
  | .tick => 1
  | .reset => 0
  | .block size .. => size

/-- Calls permitted by the API: blocks have at most 64 samples (`MAX_BUFFER_SIZE`). -/
def Call.ok {α i o} : Call α i o → Prop
  | .tick => True
  | .reset => True
  | .block size .. => size ≤ 64

/-- Input buffer presented by a block call at stream position `t`. -/
def blockInput {α i} (w : Nat → Frame α i) (t size : Nat) (tail : Buf α i) : Buf α i :=
  fun c k => if k < size then w (t + k) c else tail c k

/-- Runs a schedule of calls on the input stream `w` starting from position `t`; collects the output frames. -/
def Node.exec {α i o} (n : Node α i o) (w : Nat → Frame α i) :
    List (Call α i o) → Nat → n.σ → n.σ × List (Frame α o)
  | [], _, s => (s, [])
  | .tick :: cs, t, s =>
    let r := n.tick s (w t)
    let q := n.exec w cs (t + 1) r.1
    (q.1, r.2 :: q.2)
  | .reset :: cs, t, s => n.exec w cs t (n.reset s)
  | .block size tail old g :: cs, t, s =>
    let r := n.process g s size (blockInput w t size tail) old
    let q := n.exec w cs (t + size) r.1
    (q.1, (List.range size).map r.2.frame ++ q.2)

/-- Total number of samples in a schedule. -/
def schedLen {α i o} : List (Call α i o) → Nat
  | [] => 0
  | c :: cs => c.len + schedLen cs

/-- The same schedule with every block replaced by single-sample ticks. -/
def unblock {α i o} : List (Call α i o) → List (Call α i o)
  | [] => []
  | .block size .. :: cs => List.replicate size .tick ++ unblock cs
  | c :: cs => c :: unblock cs

end Fundsp
