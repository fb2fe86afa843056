import Verif.Core.Node

/-! Models of `src/ring.rs` and `src/snoop.rs`. The external `thingbuf::mpsc::channel(cap)` is modelled as a bounded FIFO queue:
`try_send` appends unless `cap` messages are queued, `try_recv` takes the oldest message (trusted; see DESIGN.md). Both operations
are atomic, so a concurrent execution is an interleaving of the events below. -/

namespace Fundsp.Chan

variable {α : Type}

/-- `thingbuf::mpsc` channel. -/
structure Channel (α : Type) where
  cap : Nat
  queue : List α

/-- `Sender::try_send`; the flag is `is_ok()`. -/
def Channel.trySend (c : Channel α) (x : α) : Channel α × Bool :=
  if c.queue.length < c.cap then ({ c with queue := c.queue ++ [x] }, true) else (c, false)

/-- `Receiver::try_recv`. -/
def Channel.tryRecv (c : Channel α) : Channel α × Option α :=
  match c.queue with
  | [] => (c, none)
  | x :: q => ({ c with queue := q }, some x)

/-! ### Ring -/

/-- `Ring::new`, `ring.rs:24-27`. -/
def ringNew (capacity : Nat) : Channel α := ⟨capacity, []⟩

/-- `Ring::tick`, `ring.rs:35-38`. -/
def ringTick (zero : α) (c : Channel α) : Channel α × α := (c.tryRecv.1, c.tryRecv.2.getD zero)

/-- What can happen to a ring: the frontend sends a frame, the audio thread asks for one. `Ring` uses the default block
processing (`audionode.rs:79-99`), which is a sequence of `tick`s. -/
inductive REv (α : Type) where
  | send (x : α)
  | tick

/-- What is observed. -/
inductive RObs (α : Type) where
  | sent (x : α) (ok : Bool)
  | out (y : α)

/-- One event: the sender's `try_send` or `Ring::tick`, `ring.rs:35-38`. -/
def ringStep (zero : α) (c : Channel α) : REv α → Channel α × RObs α
  | .send x => ((c.trySend x).1, .sent x (c.trySend x).2)
  | .tick => ((ringTick zero c).1, .out (ringTick zero c).2)

/-- Events in order. -/
def ringRun (zero : α) (c : Channel α) : List (REv α) → Channel α × List (RObs α)
  | [] => (c, [])
  | e :: es =>
    let r := ringStep zero c e
    let q := ringRun zero r.1 es
    (q.1, r.2 :: q.2)

/-! ### Snoop -/

/-- `Snoop`, `snoop.rs:48-53` (without its end of the channel). -/
structure Front (α : Type) where
  index : Nat
  total : Nat
  latest : List α

/-- `SnoopBackend`, `snoop.rs:113-117` (without its end of the channel). -/
structure Back (α : Type) where
  index : Nat
  buffer : List α

/-- Both ends of a snoop and the channel between them, made by `Snoop::new`, `snoop.rs:57-72`. -/
structure Snoop (α : Type) where
  front : Front α
  back : Back α
  chan : Channel (List α)

/-- `usize::next_power_of_two` (standard library). -/
def nextPowerOfTwo (n : Nat) : Nat := if n ≤ 1 then 1 else 2 ^ (Nat.log2 (n - 1) + 1)

/-- `Snoop::new`, `snoop.rs:57-72`. -/
def snoopNew (zero : α) (capacity : Nat) : Snoop α :=
  { front := ⟨0, 0, List.replicate (nextPowerOfTwo capacity) zero⟩
    back := ⟨0, List.replicate 64 zero⟩
    chan := ⟨1024, []⟩ }

/-- `Snoop::at`, `snoop.rs:75-77`; `none` is the index panic. Computed in `usize`; `index ≤ capacity` in the claim, so the
subtraction does not underflow. -/
def Front.at (f : Front α) (i : Nat) : Option α :=
  if i + 1 ≤ f.index + f.latest.length then f.latest[(f.index + f.latest.length - i - 1) &&& (f.latest.length - 1)]? else none

/-- Body of the loop in `Snoop::get`, `snoop.rs:93-97`. -/
def Front.push (f : Front α) (x : α) : Front α :=
  { index := (f.index + 1) &&& (f.latest.length - 1), total := f.total + 1, latest := f.latest.set f.index x }

/-- `Snoop::get`, `snoop.rs:91-102`. -/
def snoopGet (s : Snoop α) : Snoop α × Option (List α) :=
  match s.chan.tryRecv with
  | (c, some b) => ({ s with chan := c, front := b.foldl Front.push s.front }, some b)
  | (_, none) => (s, none)

/-- `Snoop::update`, `snoop.rs:106-108`, with no sends interleaved; the general case is a sequence of `get` events. -/
def snoopUpdate : Nat → Snoop α → Snoop α
  | 0, s => s
  | n + 1, s =>
    match snoopGet s with
    | (s', some _) => snoopUpdate n s'
    | (_, none) => s

/-- The recording of one sample in `tick` and `process`, `snoop.rs:130-135`, `145-150`. -/
def record (s : Snoop α) (x : α) : Snoop α :=
  let buffer := s.back.buffer.set s.back.index x
  let index := s.back.index + 1
  if index = 64 then { s with back := ⟨0, buffer⟩, chan := (s.chan.trySend buffer).1 }
  else { s with back := ⟨index, buffer⟩ }

/-- `SnoopBackend::tick`, `snoop.rs:130-138`. -/
def snoopTick (s : Snoop α) (x : α) : Snoop α × α := (record s x, x)

/-- `SnoopBackend::process`, `snoop.rs:141-152`. -/
def snoopProcess (s : Snoop α) (size : Nat) (inp old : Buf α 1) : Snoop α × Buf α 1 :=
  ((List.range size).foldl (fun s i => record s (inp 0 i)) s, setItems size inp old)

/-- `SnoopBackend::reset`, `snoop.rs:124-126`. -/
def snoopReset (s : Snoop α) : Snoop α := { s with back := { s.back with index := 0 } }

/-- Events of a snoop: audio thread calls and frontend polls. -/
inductive SEv (α : Type) where
  | tick (x : α)
  | block (size : Nat) (inp old : Buf α 1)
  | reset
  | get

/-- What is observed of a snoop. -/
inductive SObs (α : Type) where
  | out (y : List α)
  | none
  | got (b : Option (List α))

/-- One call on either end: `snoop.rs:91-104`, `124-152`. -/
def snoopStep (s : Snoop α) : SEv α → Snoop α × SObs α
  | .tick x => ((snoopTick s x).1, .out [(snoopTick s x).2])
  | .block size inp old => ((snoopProcess s size inp old).1, .out ((List.range size).map ((snoopProcess s size inp old).2 0)))
  | .reset => (snoopReset s, .none)
  | .get => ((snoopGet s).1, .got (snoopGet s).2)

/-- Calls in order. -/
def snoopRun (s : Snoop α) : List (SEv α) → Snoop α × List (SObs α)
  | [] => (s, [])
  | e :: es =>
    let r := snoopStep s e
    let q := snoopRun r.1 es
    (q.1, r.2 :: q.2)

end Fundsp.Chan
