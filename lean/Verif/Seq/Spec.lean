import Verif.Seq.Model
import Verif.Core.TickBlock

/-! Specification of sequencers: a plain list of events. At sample time `t` an event sounds when the middle of the sample, `t + sd/2`, lies after
its start and before its end. There is no heap, no activation threshold, no set of active or past events. -/

namespace Fundsp.Seq
variable {K : Type} [Field K] [LinearOrder K] [FloorRing K] {U V : Type} {n : Nat}

/-- The fade-in rises to one at `start + fadeIn`. -/
def gainIn (ease : Fade → K → K) (e : Ev K U) (t : K) : K :=
  if e.fadeIn ≤ 0 ∨ e.start + e.fadeIn ≤ t then 1 else ease e.ease ((t - e.start) / e.fadeIn)

/-- The fade-out falls from one at `stop - fadeOut`. -/
def gainOut (ease : Fade → K → K) (e : Ev K U) (t : K) : K :=
  match e.stop with
  | none => 1
  | some stop => if e.fadeOut ≤ 0 ∨ t ≤ stop - e.fadeOut then 1 else ease e.ease ((stop - t) / e.fadeOut)

def gain (ease : Fade → K → K) (e : Ev K U) (t : K) : K := gainIn ease e t * gainOut ease e t

/-- The event sounds in a sample with middle `x`. -/
def Ev.sounds (e : Ev K U) (x : K) : Prop := e.start < x ∧ ∀ s, e.stop = some s → x < s

open Classical in
/-- Next state of an event in the sample at time `t`. -/
noncomputable def Ev.adv (tick : U → U × Frame K n) (sd t : K) (e : Ev K U) : Ev K U :=
  if e.sounds (t + sd / 2) then { e with unit := (tick e.unit).1 } else e

open Classical in
/-- Sound of an event in the sample at time `t`. -/
noncomputable def Ev.out (tick : U → U × Frame K n) (ease : Fade → K → K) (sd t : K) (e : Ev K U) (c : Fin n) : K :=
  if e.sounds (t + sd / 2) then gain ease e t * (tick e.unit).2 c else 0

/-- State of the specification: events, identifiers in use, time. -/
structure Sp (K U : Type) where
  evs : List (Ev K U)
  used : List Nat
  time : K
  sr : K
  sd : K
  replay : Bool

def Sp.new (replay : Bool) (sr : K) : Sp K U := { evs := [], used := [], time := 0, sr := sr, sd := 1 / sr, replay := replay }

noncomputable def Sp.tick (tick : U → U × Frame K n) (ease : Fade → K → K) (p : Sp K U) : Sp K U × Frame K n :=
  ({ p with evs := p.evs.map (Ev.adv tick p.sd p.time), time := p.time + p.sd },
   fun c => (p.evs.map fun e => e.out tick ease p.sd p.time c).sum)

noncomputable def Sp.ticks (tick : U → U × Frame K n) (ease : Fade → K → K) : Nat → Sp K U → Sp K U × List (Frame K n)
  | 0, p => (p, [])
  | k + 1, p =>
    let r := p.tick tick ease
    let q := Sp.ticks tick ease k r.1
    (q.1, r.2 :: q.2)

def Sp.push (p : Sp K U) (e : Ev K U) : Sp K U := { p with evs := p.evs ++ [e], used := e.id :: p.used }

def Sp.edit (p : Sp K U) (id : Nat) (stop : Option K) (fadeOut : K) : Sp K U :=
  { p with evs := p.evs.map fun e => if e.id = id then { e with stop := stop, fadeOut := fadeOut } else e, used := id :: p.used }

def Sp.reset (reset : U → U) (p : Sp K U) : Sp K U :=
  { p with evs := if p.replay then p.evs.map (fun e => { e with unit := reset e.unit }) else [], time := 0 }

/-- One call. `setRate` turns the pushed unit into a unit of the sequencer. -/
noncomputable def Sp.step (tick : U → U × Frame K n) (reset : U → U) (ease : Fade → K → K) (setRate : K → V → U) (p : Sp K U) :
    Op K V n → Sp K U × List (Frame K n)
  | .push e => (p.push ⟨setRate p.sr e.unit, e.start, e.stop, e.ease, e.fadeIn, e.fadeOut, e.id⟩, [])
  | .pushRel e => (p.push ⟨setRate p.sr e.unit, e.start + p.time, e.stop.map (· + p.time), e.ease, e.fadeIn, e.fadeOut, e.id⟩, [])
  | .edit id stop fo => (p.edit id stop fo, [])
  | .editRel id stop fo => (p.edit id (stop.map (p.time + ·)) fo, [])
  | .reset => (p.reset reset, [])
  | .tick => p.ticks tick ease 1
  | .block size _ _ _ _ => p.ticks tick ease size

noncomputable def Sp.run (tick : U → U × Frame K n) (reset : U → U) (ease : Fade → K → K) (setRate : K → V → U) :
    List (Op K V n) → Sp K U → Sp K U × List (Frame K n)
  | [], p => (p, [])
  | o :: os, p =>
    let r := p.step tick reset ease setRate o
    let q := Sp.run tick reset ease setRate os r.1
    (q.1, r.2 ++ q.2)

/-- What is required of an edit: the event it addresses, if it exists, is not over, and either it has started or the new end time is not in the
past. -/
def EditOk (p : Sp K U) (id : Nat) (stop : Option K) : Prop :=
  ∀ x ∈ p.evs, x.id = id → ¬ x.endsBy (p.time - p.sd / 2) ∧
    (x.start < p.time - p.sd / 2 ∨ ∀ s, stop = some s → p.time - p.sd / 2 ≤ s)

/-- What is required of an event in a block of `size` samples from time `t`, see `C23_violation_half`, `C23_violation_fade_in` and
`C23_violation_fade_out`: inside the block it does not end exactly in the middle of a sample; a fade-in that ends inside the block ends on a
sample and belongs to an event that did not start within the block; likewise for a fade-out that begins inside the block. -/
structure BlockOk (sd t : K) (size : Nat) (e : Ev K U) : Prop where
  half : ∀ s, e.stop = some s → t + sd / 2 < s → s < t + sd * size → ∀ m : ℕ, s ≠ t + (m + 1 / 2) * sd
  fadeIn : e.fadeIn ≤ 0 ∨ e.start + e.fadeIn ≤ t ∨ t + sd * size ≤ e.start + e.fadeIn ∨
    (e.start < t + sd / 2 ∧ ∃ m : ℕ, e.start + e.fadeIn = t + m * sd)
  fadeOut : ∀ s, e.stop = some s → e.fadeOut ≤ 0 ∨ t + sd * size ≤ s - e.fadeOut ∨
    (e.start < t + sd / 2 ∧ (s - e.fadeOut ≤ t ∨ ∃ m : ℕ, s - e.fadeOut = t + m * sd))

/-- Requirements on a call in state `p` of the specification: identifiers of new events are new. -/
def Ok (p : Sp K U) : Op K V n → Prop
  | .push e => e.id ∉ p.used
  | .pushRel e => e.id ∉ p.used
  | .edit id stop _ => EditOk p id stop
  | .editRel id stop _ => EditOk p id (stop.map (p.time + ·))
  | .reset => True
  | .tick => True
  | .block size .. => 1 ≤ size ∧ size ≤ 64 ∧ ∀ e ∈ p.evs, BlockOk p.sd p.time size e

/-- Requirements on a sequence of calls. -/
def Oks (tick : U → U × Frame K n) (reset : U → U) (ease : Fade → K → K) (setRate : K → V → U) : List (Op K V n) → Sp K U → Prop
  | [], _ => True
  | o :: os, p => Ok p o ∧ Oks tick reset ease setRate os (p.step tick reset ease setRate o).1

end Fundsp.Seq
