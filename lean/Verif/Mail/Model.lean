import Verif.Slot.Props
import Mathlib.Data.Multiset.Basic

/-!
# Where units are freed: channels that return units, and slots

The real-time backends do not free units. They send them through a second channel to the frontend, which frees what it finds there. Model of that channel
and of its use in `/repo/src/slot.rs`. `thingbuf` is trusted to be a bounded queue: `try_send` fails if it is full or if the receiver is gone, and then the
value is dropped by the caller, as its result is ignored everywhere. Calls are atomic; a call of the frontend that overlaps one of the backend is
counted as happening before or after it.
-/

namespace Fundsp.Mail

/-- The channel from a backend to its frontend. `lost` and `taken` are not part of the code: they record what the thread of the backend and what the
thread of the frontend have freed. -/
structure Post (T : Type) where
  cap : Nat
  /-- The receiver exists. -/
  isOpen : Bool
  box : List T
  lost : List T
  taken : List T

variable {T U α : Type}

/-- `channel(cap)`. -/
def Post.new (cap : Nat) : Post T := ⟨cap, true, [], [], []⟩

/-- `if sender.try_send(x).is_ok() {}` in the thread of the backend. -/
def Post.send (m : Post T) (x : T) : Post T :=
  if m.isOpen ∧ m.box.length < m.cap then { m with box := m.box ++ [x] } else { m with lost := m.lost ++ [x] }

/-- Several of them. -/
def Post.sendAll (m : Post T) (l : List T) : Post T := l.foldl Post.send m

/-- `while receiver.try_recv().is_ok() {}` in the thread of the frontend. -/
def Post.drain (m : Post T) : Post T := { m with box := [], taken := m.taken ++ m.box }

/-- A value is dropped in the thread of the frontend. -/
def Post.free (m : Post T) (x : T) : Post T := { m with taken := m.taken ++ [x] }

/-- The frontend is dropped, and with it the receiver. -/
def Post.close (m : Post T) : Post T := { m with isOpen := false }

open Fundsp.Net Fundsp.Slot

/-- A slot: the backend with the channel to it (`Slot/Model`), and the channel that returns units. -/
structure SlotSt (U α : Type) where
  back : Back U α
  post : Post U

/-- `Slot::new`: `slot.rs:37-68`. -/
def SlotSt.new (S : Units U α) (cap : Nat) (sr : α) (u : U) : SlotSt U α := ⟨.new S sr u, .new cap⟩

/-- `Slot::set`: `slot.rs:72-79`. Units of wrong arity panic, and are dropped with the arguments. -/
def SlotSt.set (S : Units U α) (cap : Nat) (s : SlotSt U α) (d : Upd U α) : SlotSt U α :=
  ⟨s.back.set S cap d,
    if S.ins d.unit = s.back.ins ∧ S.outs d.unit = s.back.outs then
      if s.back.queue.length < cap then s.post.drain else s.post.drain.free d.unit
    else s.post.free d.unit⟩

/-- Loop body of `handle_messages`: `slot.rs:138-152`. -/
def SlotSt.receive (S : Units U α) (s : SlotSt U α) (d : Upd U α) : SlotSt U α :=
  ⟨s.back.receive S d,
    match s.back.next with
    | none => s.post
    | some _ =>
      match s.back.latest with
      | none => s.post
      | some l => s.post.send l⟩

/-- `handle_messages`: `slot.rs:136-154`. -/
def SlotSt.handle (S : Units U α) (s : SlotSt U α) : SlotSt U α :=
  let r := s.back.queue.foldl (SlotSt.receive S) s
  { r with back := { r.back with queue := [] } }

/-- `tick` after `handle_messages`, with `next_phase`: `slot.rs:199-214, 157-165`. -/
def SlotSt.tick' (S : Units U α) (s : SlotSt U α) (x : List α) : SlotSt U α :=
  ⟨(s.back.tick' S x).1,
    match s.back.next with
    | none => s.post
    | some _ =>
      if S.ge (S.add s.back.phase (S.div S.one (S.mul s.back.time s.back.sr))) S.one then s.post.send (S.utick s.back.current x).1 else s.post⟩

/-- `process` after `handle_messages`, with `next_phase`: `slot.rs:219-277, 157-165`. -/
def SlotSt.process' (S : Units U α) (P : Proc U α) (s : SlotSt U α) (size : Nat) (x old tmp : CBuf α) : SlotSt U α :=
  ⟨(s.back.process' S P size x old tmp).1,
    match s.back.next with
    | none => s.post
    | some _ =>
      if S.toNat (S.mul (S.mul (S.sub S.one s.back.phase) s.back.time) s.back.sr) ≤ size then s.post.send (P s.back.current size x old).1 else s.post⟩

/-- `reset`: `slot.rs:170-183`. -/
def SlotSt.reset (S : Units U α) (s : SlotSt U α) : SlotSt U α :=
  ⟨s.back.reset S,
    match s.back.latest with
    | some _ =>
      match s.back.next with
      | some n => (s.post.send s.back.current).send n
      | none => s.post.send s.back.current
    | none =>
      match s.back.next with
      | some _ => s.post.send s.back.current
      | none => s.post⟩

/-- One call on a slot: `slot.rs:170-277`. -/
def SlotSt.step (S : Units U α) (P : Proc U α) (cap : Nat) (s : SlotSt U α) : Slot.Call U α → SlotSt U α
  | .set d => s.set S cap d
  | .tick x => (s.handle S).tick' S x
  | .block size x old tmp => (s.handle S).process' S P size x old tmp
  | .reset => s.reset S
  | .setRate sr => { s with back := s.back.setRate S sr }

/-- Calls in order. -/
def SlotSt.run (S : Units U α) (P : Proc U α) (cap : Nat) (cs : List (Slot.Call U α)) (s : SlotSt U α) : SlotSt U α := cs.foldl (SlotSt.step S P cap) s

/-- The frontend is dropped. -/
def SlotSt.close (s : SlotSt U α) : SlotSt U α := { s with post := s.post.close }

end Fundsp.Mail
