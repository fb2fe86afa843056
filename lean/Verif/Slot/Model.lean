import Verif.Net.FadeProps

/-!
# Slots: model

Model of `/repo/src/slot.rs`. Units are those of the net model (`Units`, `Proc`); the channel from the frontend is a bounded queue. Units sent back to
the frontend for deallocation are forgotten. Not modelled: `clone`, `ping`, `route`, `allocate`.
-/

namespace Fundsp.Slot
open Fundsp.Net
variable {U α : Type}

/-- `SlotMessage::Update`: `slot.rs:15-24`. -/
structure Upd (U α : Type) where
  fade : Fade
  time : α
  unit : U

/-- `SlotBackend`: `slot.rs:91-107`. `queue` is the contents of the channel from the frontend. -/
structure Back (U α : Type) where
  ins : Nat
  outs : Nat
  sr : α
  current : U
  next : Option U
  fade : Fade
  time : α
  phase : α
  latest : Option U
  latestFade : Fade
  latestTime : α
  queue : List (Upd U α)

/-- `Slot::new`: `slot.rs:37-68`. `sr` is the default sample rate. -/
def Back.new (S : Units U α) (sr : α) (u : U) : Back U α :=
  ⟨S.ins u, S.outs u, sr, S.setSR sr u, none, .smooth, S.zero, S.zero, none, .smooth, S.zero, []⟩

/-- `Slot::set`: `slot.rs:72-79`. A unit with wrong arity panics in the frontend, before anything is sent. `cap` is the capacity of the channel (1024). -/
def Back.set (S : Units U α) (cap : Nat) (b : Back U α) (d : Upd U α) : Back U α :=
  if S.ins d.unit = b.ins ∧ S.outs d.unit = b.outs then
    if b.queue.length < cap then { b with queue := b.queue ++ [d] } else b
  else b

/-- Loop body of `handle_messages`: `slot.rs:137-153`. -/
def Back.receive (S : Units U α) (b : Back U α) (d : Upd U α) : Back U α :=
  match b.next with
  | none => { b with next := some d.unit, phase := S.zero, time := d.time, fade := d.fade }
  | some _ => { b with latest := some d.unit, latestFade := d.fade, latestTime := d.time }

/-- `handle_messages`: `slot.rs:136-154`. -/
def Back.handle (S : Units U α) (b : Back U α) : Back U α := { b.queue.foldl (Back.receive S) b with queue := [] }

/-- `next_phase`: `slot.rs:157-165`. Only called with a next unit. -/
def Back.nextPhase (S : Units U α) (b : Back U α) : Back U α :=
  match b.next with
  | none => b
  | some u => { b with current := u, fade := b.latestFade, phase := S.zero, time := b.latestTime, next := b.latest, latest := none }

/-- `reset`: `slot.rs:170-183`. -/
def Back.reset (S : Units U α) (b : Back U α) : Back U α :=
  match b.latest with
  | some u => { b with current := S.reset u, latest := none, next := none }
  | none =>
    match b.next with
    | some u => { b with current := S.reset u, next := none }
    | none => { b with current := S.reset b.current }

/-- `set_sample_rate`: `slot.rs:184-193`. -/
def Back.setRate (S : Units U α) (b : Back U α) (sr : α) : Back U α :=
  { b with sr := sr, current := S.setSR sr b.current, next := b.next.map (S.setSR sr), latest := b.latest.map (S.setSR sr) }

/-- `tick` after `handle_messages`: `slot.rs:199-214`. -/
def Back.tick' (S : Units U α) (b : Back U α) (x : List α) : Back U α × List α :=
  let r := S.utick b.current x
  match b.next with
  | none => ({ b with current := r.1 }, r.2)
  | some n =>
    let f1 := S.fadeAt b.fade (S.sub S.one b.phase)
    let q := S.utick n x
    let f2 := S.fadeAt b.fade b.phase
    let out := List.zipWith (fun a b => S.add (S.mul a f1) (S.mul b f2)) r.2 q.2
    let phase := S.add b.phase (S.div S.one (S.mul b.time b.sr))
    let b' := { b with current := r.1, next := some q.1, phase := phase }
    (if S.ge phase S.one then b'.nextPhase S else b', out)

/-- `tick`: `slot.rs:197-215`. -/
def Back.tick (S : Units U α) (b : Back U α) (x : List α) : Back U α × List α := (b.handle S).tick' S x

/-- `process` after `handle_messages`: `slot.rs:219-277`. `old` and `tmp` are the contents of `output` and of the buffer of the slot. -/
def Back.process' (S : Units U α) (P : Proc U α) (b : Back U α) (size : Nat) (x old tmp : CBuf α) : Back U α × CBuf α :=
  let r := P b.current size x old
  match b.next with
  | none => ({ b with current := r.1 }, r.2)
  | some nx =>
    let phaseLeft := S.toNat (S.mul (S.mul (S.sub S.one b.phase) b.time) b.sr)
    let n := min size phaseLeft
    let d := S.div S.one (S.mul b.time b.sr)
    let out1 : CBuf α := fun c k =>
      if c < b.outs ∧ k < n then S.mul (r.2 c k) (S.fadeAt b.fade (S.sub S.one (fadeSeq S.toArith b.phase d k))) else r.2 c k
    let q := P nx size x tmp
    let out2 : CBuf α := fun c k =>
      if c < b.outs ∧ k < n then S.add (out1 c k) (S.mul (q.2 c k) (S.fadeAt b.fade (fadeSeq S.toArith b.phase d k)))
      else if c < b.outs ∧ k < size then q.2 c k else out1 c k
    let b' := { b with current := r.1, next := some q.1, phase := S.add b.phase (S.div (S.ofNat n) (S.mul b.time b.sr)) }
    (if phaseLeft ≤ size then b'.nextPhase S else b', out2)

/-- `process`: `slot.rs:215-279`. -/
def Back.process (S : Units U α) (P : Proc U α) (b : Back U α) (size : Nat) (x old tmp : CBuf α) : Back U α × CBuf α :=
  (b.handle S).process' S P size x old tmp

/-- Calls on frontend and backend. -/
inductive Call (U α : Type)
  | set (d : Upd U α)
  | tick (x : List α)
  | block (size : Nat) (x old tmp : CBuf α)
  | reset
  | setRate (sr : α)

/-- One call on a slot: `slot.rs:170-277`. -/
def Back.step (S : Units U α) (P : Proc U α) (cap : Nat) (b : Back U α) : Call U α → Back U α
  | .set d => b.set S cap d
  | .tick x => (b.tick S x).1
  | .block size x old tmp => (b.process S P size x old tmp).1
  | .reset => b.reset S
  | .setRate sr => b.setRate S sr

/-- Calls in order. -/
def Back.run (S : Units U α) (P : Proc U α) (cap : Nat) (cs : List (Call U α)) (b : Back U α) : Back U α := cs.foldl (Back.step S P cap) b

end Fundsp.Slot
