import Verif.Core.Node
import Mathlib.Algebra.Order.Field.Basic
import Mathlib.Algebra.Order.Floor.Ring
import Mathlib.Logic.Function.Basic

/-! Model of `/repo/src/sequencer.rs` (without the frontend, see `Seq/Backend.lean`).

Times and samples are elements of an arbitrary ordered field `K` with a floor function, in place of `f64` and `f32`. Infinite end times and the
initial activation threshold `-∞` are `none`. Units are states of one arbitrary node `X`; the states may be a disjoint union covering any
collection of units. -/

namespace Fundsp.Seq

/-- `Fade`: `sequencer.rs:36-46`. -/
inductive Fade where
  | power
  | smooth
deriving DecidableEq

/-- `Event`: `sequencer.rs:60-68`. `stop` is `end_time`; `none` is infinity. -/
structure Ev (K U : Type) where
  unit : U
  start : K
  stop : Option K
  ease : Fade
  fadeIn : K
  fadeOut : K
  id : Nat

/-- The event with another unit. -/
def Ev.map {K U V : Type} (f : U → V) (e : Ev K U) : Ev K V :=
  { unit := f e.unit, start := e.start, stop := e.stop, ease := e.ease, fadeIn := e.fadeIn, fadeOut := e.fadeOut, id := e.id }

/-- `BinaryHeap<Event>` as used by the sequencer, over an arbitrary internal order: `pop` returns an event with the earliest start time
(`sequencer.rs:90-106`: the order of events is reversed by start time). Ties are resolved arbitrarily. Trusted: the standard library. -/
structure Heap (K U : Type) [LE K] where
  pop : List (Ev K U) → Option (Ev K U × List (Ev K U))
  pop_none : ∀ l, pop l = none ↔ l = []
  pop_perm : ∀ l e r, pop l = some (e, r) → l.Perm (e :: r)
  pop_min : ∀ l e r, pop l = some (e, r) → ∀ x ∈ l, e.start ≤ x.start

/-- `Sequencer`: `sequencer.rs:214-243`. The maps are total functions to `Option`. -/
structure Sq (K U : Type) where
  active : List (Ev K U)
  amap : Nat → Option Nat
  thr : Option K
  ready : List (Ev K U)
  past : List (Ev K U)
  edits : Nat → Option (Option K × K)
  time : K
  sr : K
  sd : K
  replay : Bool

variable {K : Type} [Field K] [LinearOrder K] [FloorRing K] {U : Type} {n : Nat}

/-- `end_time <= x` for a possibly infinite end time. -/
def Ev.endsBy (e : Ev K U) (x : K) : Bool :=
  match e.stop with
  | none => false
  | some s => decide (s ≤ x)

/-- `delerp`: `math.rs`. -/
def delerp (a b x : K) : K := (x - a) / (b - a)

/-- `round(x) as usize`: halves are rounded up for nonnegative `x`, negative numbers go to zero. -/
def rnd (x : K) : Nat := ⌊x + 1 / 2⌋.toNat

/-- `Sequencer::new`: `sequencer.rs:277-297`. -/
def Sq.new (replay : Bool) (sr : K) : Sq K U :=
  { active := [], amap := fun _ => none, thr := none, ready := [], past := [], edits := fun _ => none, time := 0, sr := sr,
    sd := 1 / sr, replay := replay }

/-- `x < active_threshold`. -/
def below (thr : Option K) (x : K) : Bool :=
  match thr with
  | none => false
  | some θ => decide (x < θ)

/-- `end_time < active_threshold`. -/
def stopBelow (thr : Option K) (stop : Option K) : Bool :=
  match stop with
  | none => false
  | some x => below thr x

/-- `push_event` without a frontend: `sequencer.rs:338-351`. -/
def Sq.pushEvent (s : Sq K U) (e : Ev K U) : Sq K U :=
  if below s.thr e.start then
    { s with amap := Function.update s.amap e.id (some s.active.length), active := s.active ++ [e] }
  else { s with ready := s.ready ++ [e] }

/-- The event `push` makes: the sample rate of the unit is set, `sequencer.rs:319-333`. -/
def Ev.rated {V : Type} (setRate : K → U → V) (sr : K) (e : Ev K U) : Ev K V := e.map (setRate sr)

/-- `push`: `sequencer.rs:307-335`. The assertions are in `Ev.ok`. -/
def Sq.push (setRate : K → U → U) (s : Sq K U) (e : Ev K U) : Sq K U := s.pushEvent (e.rated setRate s.sr)

/-- `assert!(fade_in_time <= duration && fade_out_time <= duration)`: `sequencer.rs:318-319`. -/
def Ev.ok (e : Ev K U) : Prop := ∀ s, e.stop = some s → e.fadeIn ≤ s - e.start ∧ e.fadeOut ≤ s - e.start

/-- Event with relative times made absolute: `sequencer.rs:395-396`. -/
def Ev.shift (t : K) (e : Ev K U) : Ev K U := { e with start := e.start + t, stop := e.stop.map (· + t) }

/-- `push_relative`, `push_relative_event` without a frontend: `sequencer.rs:358-405`. -/
def Sq.pushRelative (setRate : K → U → U) (s : Sq K U) (e : Ev K U) : Sq K U :=
  let e := (e.rated setRate s.sr).shift s.time
  if below s.thr e.start then
    { s with amap := Function.update s.amap e.id (some s.active.length), active := s.active ++ [e] }
  else { s with ready := s.ready ++ [e] }

/-- `edit` without a frontend: `sequencer.rs:448-467`. (`self.active[i]` is in range in every reachable state, see `Rel.am`.) -/
def Sq.edit (s : Sq K U) (id : Nat) (stop : Option K) (fadeOut : K) : Sq K U :=
  match s.amap id with
  | some i => { s with active := s.active.modify i fun e => { e with stop := stop, fadeOut := fadeOut } }
  | none =>
    if stopBelow s.thr stop then s
    else { s with edits := Function.update s.edits id (some (stop, fadeOut)) }

/-- `edit_relative` without a frontend: `sequencer.rs:494-513`. -/
def Sq.editRelative (s : Sq K U) (id : Nat) (stop : Option K) (fadeOut : K) : Sq K U :=
  match s.amap id with
  | some i => { s with active := s.active.modify i fun e => { e with stop := stop.map (s.time + ·), fadeOut := fadeOut } }
  | none =>
    if stopBelow s.thr (stop.map (s.time + ·)) then s
    else { s with edits := Function.update s.edits id (some (stop.map (s.time + ·), fadeOut)) }

/-- An event with its pending edit: `sequencer.rs:525-531`. -/
def applyEdit (edits : Nat → Option (Option K × K)) (e : Ev K U) : Ev K U :=
  match edits e.id with
  | none => e
  | some d => { e with stop := d.1, fadeOut := d.2 }

/-- Loop of `ready_to_active`: `sequencer.rs:508-526`. The number of rounds is at most the size of the heap. -/
def readyLoop (H : Heap K U) (θ : K) : Nat → Sq K U → Sq K U
  | 0, s => s
  | f + 1, s =>
    match H.pop s.ready with
    | none => s
    | some (e, r) =>
      if e.start < θ then
        readyLoop H θ f { s with
          ready := r
          amap := Function.update s.amap e.id (some s.active.length)
          active := s.active ++ [applyEdit s.edits e]
          edits := Function.update s.edits e.id none }
      else s

/-- `ready_to_active`: `sequencer.rs:506-527`. -/
def Sq.readyToActive (H : Heap K U) (s : Sq K U) (nextEnd : K) : Sq K U :=
  let θ := nextEnd - s.sd * (1 / 2)
  readyLoop H θ s.ready.length { s with thr := some θ }

/-- `Vec::swap_remove`. -/
def swapRemove {β : Type} (l : List β) (i : Nat) : List β :=
  match l.getLast? with
  | some x => (l.set i x).dropLast
  | none => l

/-- Variables of the loop over active events in `tick` and `process`. -/
structure Lp (K U A : Type) where
  active : List (Ev K U)
  amap : Nat → Option Nat
  past : List (Ev K U)
  acc : A

/-- The loop over active events in `tick` (`sequencer.rs:644-698`) and `process` (`sequencer.rs:716-779`). `x` is
`time + 0.5 * sample_duration`; `play` is the branch that plays the event. The number of rounds is the number of active events. -/
def evLoop {A : Type} (x : K) (play : Ev K U → A → Ev K U × A) : Nat → Nat → Lp K U A → Lp K U A
  | 0, _, l => l
  | f + 1, i, l =>
    match l.active[i]? with
    | none => l
    | some e =>
      if e.endsBy x then
        let m := Function.update l.amap e.id none
        let m := if i + 1 < l.active.length then
            (match l.active.getLast? with | some z => Function.update m z.id (some i) | none => m) else m
        evLoop x play f i { l with active := swapRemove l.active i, amap := m, past := l.past ++ [e] }
      else
        let r := play e l.acc
        evLoop x play f (i + 1) { l with active := l.active.set i r.1, acc := r.2 }

/-- Fades in `tick`: `sequencer.rs:655-693`. -/
def tickFade (ease : Fade → K → K) (e : Ev K U) (t : K) (v : Frame K n) : Frame K n :=
  let v := if 0 < e.fadeIn then
      (let f := delerp e.start (e.start + e.fadeIn) t
       if f < 1 then (fun c => v c * ease e.ease f) else v) else v
  if 0 < e.fadeOut then
    (match e.stop with
    | none => v
    | some stop =>
      let f := delerp (stop - e.fadeOut) stop t
      if 0 < f then (fun c => v c * ease e.ease (1 - f)) else v) else v

/-- Playing one event in `tick`: `sequencer.rs:654-697`. -/
def tickPlay (X : Node K 0 n) (ease : Fade → K → K) (t : K) (e : Ev K X.σ) (out : Frame K n) : Ev K X.σ × Frame K n :=
  let r := X.tick e.unit Fin.elim0
  ({ e with unit := r.1 }, fun c => out c + tickFade ease e t r.2 c)

/-- `tick`: `sequencer.rs:634-701`. -/
def Sq.tick (X : Node K 0 n) (H : Heap K X.σ) (ease : Fade → K → K) (s : Sq K X.σ) : Sq K X.σ × Frame K n :=
  let s := if s.replay then s else { s with past := [] }
  let endTime := s.time + s.sd
  let s := s.readyToActive H endTime
  let l := evLoop (s.time + 1 / 2 * s.sd) (tickPlay X ease s.time) s.active.length 0 ⟨s.active, s.amap, s.past, fun _ => 0⟩
  ({ s with active := l.active, amap := l.amap, past := l.past, time := endTime }, l.acc)

/-- `fade_in`: `sequencer.rs:118-163`. The accumulation `fade += fade_d` is written as a product. -/
def blockFadeIn (ease : Fade → K → K) (sd t t1 : K) (i0 i1 : Nat) (e : Ev K U) (b : Buf K n) : Buf K n :=
  let fe := e.start + e.fadeIn
  if 0 < e.fadeIn ∧ t < fe then
    let m := if t1 ≤ fe then i1 else rnd ((fe - t) / sd)
    let ph := delerp e.start fe (t + i0 * sd)
    let d := sd / e.fadeIn
    fun c k => if k < m then b c k * ease e.ease (ph + k * d) else b c k
  else b

/-- `fade_out`: `sequencer.rs:166-208`. -/
def blockFadeOut (ease : Fade → K → K) (sd t t1 : K) (_i0 i1 : Nat) (e : Ev K U) (b : Buf K n) : Buf K n :=
  match e.stop with
  | none => b
  | some fe =>
    let fs := fe - e.fadeOut
    if 0 < e.fadeOut ∧ fs < t1 then
      let m := if fs ≤ t then 0 else rnd ((fs - t) / sd)
      let ph := delerp fs fe (t + m * sd)
      let d := sd / e.fadeOut
      fun c k => if m ≤ k ∧ k < i1 then b c k * ease e.ease (1 - (ph + (k - m : Nat) * d)) else b c k
    else b

/-- `for j in 0..m { output.add(channel, j, buffer.at(channel, j)) }` over eight-sample items. -/
def addItems (m : Nat) (b out : Buf K n) : Buf K n := fun c k => if k < 8 * m then out c k + b c k else out c k

/-- `for j in lo..hi { output[j] += buffer[j - i0] }`. -/
def addSamples (lo hi i0 : Nat) (b out : Buf K n) : Buf K n := fun c k => if lo ≤ k ∧ k < hi then out c k + b c (k - i0) else out c k

/-- `start_index` in `process`: `sequencer.rs:724-728`. -/
def startIndex (sr t : K) (e : Ev K U) : Nat := if e.start ≤ t then 0 else rnd ((e.start - t) * sr)

/-- `end_index` in `process`: `sequencer.rs:729-733`. -/
def endIndex (sr t t1 : K) (size : Nat) (e : Ev K U) : Nat :=
  match e.stop with
  | none => size
  | some x => if t1 ≤ x then size else rnd ((x - t) * sr)

/-- Playing one event in `process`: `sequencer.rs:724-777`. The accumulator is the output and the intermediate buffer. -/
def blockPlay (X : Node K 0 n) (ease : Fade → K → K) (g : Garb K) (inp : Buf K 0) (sr sd t t1 : K) (size : Nat) (e : Ev K X.σ)
    (a : Buf K n × Buf K n) : Ev K X.σ × (Buf K n × Buf K n) :=
  let i0 := startIndex sr t e
  let i1 := endIndex sr t t1 size e
  if i0 < i1 then
    let r := X.process g e.unit (i1 - i0) inp a.2
    let b := blockFadeOut ease sd t t1 i0 i1 e (blockFadeIn ease sd t t1 i0 i1 e r.2)
    ({ e with unit := r.1 },
      (if i0 = 0 then addSamples (8 * (i1 >>> 3)) i1 i0 b (addItems (i1 >>> 3) b a.1) else addSamples i0 i1 i0 b a.1, b))
  else (e, a)

/-- `process`: `sequencer.rs:704-782`. `out` is the old output, `buf` the old contents of the intermediate buffer. -/
def Sq.process (X : Node K 0 n) (H : Heap K X.σ) (ease : Fade → K → K) (g : Garb K) (inp : Buf K 0) (buf : Buf K n) (s : Sq K X.σ)
    (size : Nat) (out : Buf K n) : Sq K X.σ × Buf K n :=
  let s := if s.replay then s else { s with past := [] }
  let out := setItems size (fun _ _ => 0) out
  let endTime := s.time + s.sd * size
  let s := s.readyToActive H endTime
  let l := evLoop (s.time + 1 / 2 * s.sd) (blockPlay X ease g inp s.sr s.sd s.time endTime size) s.active.length 0
    ⟨s.active, s.amap, s.past, (out, buf)⟩
  ({ s with active := l.active, amap := l.amap, past := l.past, time := endTime }, l.acc.1)

/-- `reset` without a frontend: `sequencer.rs:577-608`. With replay all events move to the heap; its internal order is immaterial. -/
def Sq.reset (reset : U → U) (s : Sq K U) : Sq K U :=
  if s.replay then
    { s with
      active := [], amap := fun _ => none, past := [], time := 0, thr := none
      ready := (s.active ++ s.ready ++ s.past).map fun e => { e with unit := reset e.unit } }
  else
    { s with
      active := [], amap := fun _ => none, past := [], time := 0, thr := none
      ready := [], edits := fun _ => none }

/-- Calls made on a sequencer. -/
inductive Op (K U : Type) (n : Nat) where
  | push (e : Ev K U)
  | pushRel (e : Ev K U)
  | edit (id : Nat) (stop : Option K) (fadeOut : K)
  | editRel (id : Nat) (stop : Option K) (fadeOut : K)
  | reset
  | tick
  | block (size : Nat) (out buf : Buf K n) (g : Garb K) (inp : Buf K 0)

/-- One call and the frames it outputs. -/
def Sq.step (X : Node K 0 n) (H : Heap K X.σ) (ease : Fade → K → K) (setRate : K → X.σ → X.σ) (s : Sq K X.σ) :
    Op K X.σ n → Sq K X.σ × List (Frame K n)
  | .push e => (s.push setRate e, [])
  | .pushRel e => (s.pushRelative setRate e, [])
  | .edit id stop fo => (s.edit id stop fo, [])
  | .editRel id stop fo => (s.editRelative id stop fo, [])
  | .reset => (s.reset X.reset, [])
  | .tick => let r := s.tick X H ease; (r.1, [r.2])
  | .block size out buf g inp => let r := s.process X H ease g inp buf size out; (r.1, (List.range size).map r.2.frame)

/-- Any number of calls. -/
def Sq.run (X : Node K 0 n) (H : Heap K X.σ) (ease : Fade → K → K) (setRate : K → X.σ → X.σ) :
    List (Op K X.σ n) → Sq K X.σ → Sq K X.σ × List (Frame K n)
  | [], s => (s, [])
  | o :: os, s =>
    let r := s.step X H ease setRate o
    let q := Sq.run X H ease setRate os r.1
    (q.1, r.2 ++ q.2)

end Fundsp.Seq
