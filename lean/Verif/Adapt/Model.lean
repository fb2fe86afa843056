import Verif.Core.TickBlock

/-! Model of `BigBlockAdapter` and `BlockRateAdapter` (`src/audiounit.rs`) around an arbitrary node. -/

namespace Fundsp.Adapt

variable {α : Type}

/-- `BigBlockAdapter`, `audiounit.rs:480-500`: the wrapped unit and its two scratch buffers. -/
structure Big {i o : Nat} (n : Node α i o) where
  source : n.σ
  input : Buf α i
  output : Buf α o

/-- The loop of `process_big`, `audiounit.rs:502-521`. `left` samples remain to be processed starting at sample `pos`;
`g` supplies the contents of scratch buffers of the unit in each `process` call. -/
def bigLoop {i o : Nat} (n : Node α i o) (inp : Nat → Frame α i) (g : Nat → Garb α) (left pos : Nat) (s : Big n)
    (out : Nat → Frame α o) : Big n × (Nat → Frame α o) :=
  if 0 < left then
    let k := min left 64
    -- copy `k` input samples into the scratch buffer, the rest of which keeps old data
    let input : Buf α i := fun c j => if j < k then inp (pos + j) c else s.input c j
    let r := n.process (g pos) s.source k input s.output
    let out' : Nat → Frame α o := fun t => if pos ≤ t ∧ t < pos + k then r.2.frame (t - pos) else out t
    bigLoop n inp g (left - k) (pos + k) ⟨r.1, input, r.2⟩ out'
  else (s, out)
termination_by left
decreasing_by omega

/-- `process_big(size, input, output)`. -/
def processBig {i o : Nat} (n : Node α i o) (size : Nat) (inp : Nat → Frame α i) (g : Nat → Garb α) (s : Big n)
    (out : Nat → Frame α o) : Big n × (Nat → Frame α o) := bigLoop n inp g size 0 s out

/-- Calls made on a `BigBlockAdapter`; `tick`, `process` and `reset` are forwarded (`audiounit.rs:524-535`). -/
inductive BigCall (α : Type) (i o : Nat)
  | call (c : Call α i o)
  | big (size : Nat) (g : Nat → Garb α) (old : Nat → Frame α o)

/-- Frames returned by a schedule of calls on the input stream `w`. -/
def bigExec {i o : Nat} (n : Node α i o) (w : Nat → Frame α i) : List (BigCall α i o) → Nat → Big n → List (Frame α o)
  | [], _, _ => []
  | .call .tick :: cs, t, s =>
    let r := n.tick s.source (w t)
    r.2 :: bigExec n w cs (t + 1) { s with source := r.1 }
  | .call .reset :: cs, t, s => bigExec n w cs t { s with source := n.reset s.source }
  | .call (.block size tail old g) :: cs, t, s =>
    let r := n.process g s.source size (blockInput w t size tail) old
    (List.range size).map r.2.frame ++ bigExec n w cs (t + size) { s with source := r.1 }
  | .big size g old :: cs, t, s =>
    let r := processBig n size (fun k => w (t + k)) g s old
    (List.range size).map r.2 ++ bigExec n w cs (t + size) r.1

/-- `BlockRateAdapter`, `audiounit.rs:566-585`, around a unit with no inputs. -/
structure Rate {o : Nat} (n : Node α 0 o) where
  unit : n.σ
  buffer : Buf α o
  index : Nat

/-- `BlockRateAdapter::new`, `audiounit.rs:574-583`. -/
def Rate.new {o : Nat} (n : Node α 0 o) (u : n.σ) (zero : α) : Rate n := ⟨u, fun _ _ => zero, 64⟩

/-- `BlockRateAdapter::reset`, `audiounit.rs:587-590`. -/
def Rate.reset {o : Nat} {n : Node α 0 o} (s : Rate n) : Rate n := { s with unit := n.reset s.unit, index := 64 }

/-- Refill, `audiounit.rs:595-602`, `612-616`. -/
def Rate.refill {o : Nat} {n : Node α 0 o} (g : Garb α) (inp : Buf α 0) (s : Rate n) : Rate n :=
  if s.index = 64 then
    let r := n.process g s.unit 64 inp s.buffer
    ⟨r.1, r.2, 0⟩
  else s

/-- `BlockRateAdapter::tick`, `audiounit.rs:594-607`. -/
def Rate.tick {o : Nat} {n : Node α 0 o} (g : Garb α) (s : Rate n) : Rate n × Frame α o :=
  let s := s.refill g (fun c => c.elim0)
  ({ s with index := s.index + 1 }, s.buffer.frame s.index)

/-- The loop of `BlockRateAdapter::process`, `audiounit.rs:608-627`. -/
def Rate.loop {o : Nat} {n : Node α 0 o} (g : Nat → Garb α) (inp : Buf α 0) (left pos : Nat) (s : Rate n) (out : Buf α o) :
    Rate n × Buf α o :=
  if 0 < left then
    let s := s.refill (g pos) inp
    -- the index is at most 63 after a refill; `n ≥ 1` samples are copied
    let k := min left (64 - s.index)
    if hk : 0 < min left (64 - s.index) then
      let out' : Buf α o := fun c t => if pos ≤ t ∧ t < pos + k then s.buffer c (s.index + (t - pos)) else out c t
      Rate.loop g inp (left - k) (pos + k) { s with index := s.index + k } out'
    else (s, out)
  else (s, out)
termination_by left
decreasing_by
  have : min left (64 - s.index) ≤ left := Nat.min_le_left _ _
  show left - min left (64 - s.index) < left
  omega

/-- `BlockRateAdapter::process`: `audiounit.rs:609-626`. -/
def Rate.process {o : Nat} {n : Node α 0 o} (g : Nat → Garb α) (size : Nat) (inp : Buf α 0) (s : Rate n) (out : Buf α o) :
    Rate n × Buf α o := Rate.loop g inp size 0 s out

/-- Calls on a `BlockRateAdapter`. -/
inductive RateCall (α : Type) (o : Nat)
  | tick (g : Garb α)
  | block (size : Nat) (g : Nat → Garb α) (old : Buf α o)
  | reset

/-- Frames returned since the last reset by a schedule of calls (a reset clears the list). -/
def rateExec {o : Nat} {n : Node α 0 o} : List (RateCall α o) → Rate n → List (Frame α o) → Rate n × List (Frame α o)
  | [], s, fs => (s, fs)
  | .tick g :: cs, s, fs => let r := s.tick g; rateExec cs r.1 (fs ++ [r.2])
  | .block size g old :: cs, s, fs =>
    let r := s.process g size (fun c => c.elim0) old
    rateExec cs r.1 (fs ++ (List.range size).map r.2.frame)
  | .reset :: cs, s, _ => rateExec cs s.reset []

end Fundsp.Adapt
