import Verif.Core.Node
import Mathlib.Data.Real.Basic

/-!
# Waves: model

Model of the editing functions of `Wave` and of `WavePlayer` (`/repo/src/wave.rs`). A panic (failed assertion, index out of bounds, subtraction overflow)
is the result `none`. Indices are unbounded: overflow of `isize` and `usize` sums is not modelled.
-/

noncomputable section
namespace Fundsp.Wv

/-- `Wave`: `wave.rs:20-28`. -/
structure Wave (α : Type) where
  vec : List (List α)
  rate : ℝ
  len : Nat

variable {α : Type}

/-- `channels`: `wave.rs:122-126`. -/
def Wave.channels (w : Wave α) : Nat := w.vec.length

/-- `Wave::new`: `wave.rs:38-48`; `with_capacity`, `wave.rs:58-68`, is the same but for the capacity. -/
def Wave.new (channels : Nat) (rate : ℝ) : Wave α := ⟨List.replicate channels [], rate, 0⟩

/-- `Wave::zero` of a length in samples: `wave.rs:79-94`. -/
def Wave.zero [Zero α] (channels : Nat) (rate : ℝ) (length : Nat) : Option (Wave α) :=
  if 0 < channels ∨ length = 0 then some ⟨List.replicate channels (List.replicate length 0), rate, length⟩ else none

/-- `from_samples`: `wave.rs:103-109`. -/
def Wave.fromSamples (rate : ℝ) (samples : List α) : Wave α := ⟨[samples], rate, samples.length⟩

/-- `at`: `wave.rs:197-201`. -/
def Wave.at? (w : Wave α) (channel index : Nat) : Option α := (w.vec[channel]?).bind fun v => v[index]?

/-- `set`: `wave.rs:203-207`. -/
def Wave.set (w : Wave α) (channel index : Nat) (value : α) : Option (Wave α) :=
  (w.vec[channel]?).bind fun v => if index < v.length then some { w with vec := w.vec.set channel (v.set index value) } else none

/-- `mix`: `wave.rs:209-213`. -/
def Wave.mix [Add α] (w : Wave α) (channel index : Nat) (value : α) : Option (Wave α) :=
  (w.at? channel index).bind fun x => w.set channel index (x + value)

/-- `push_channel`: `wave.rs:140-150`. -/
def Wave.pushChannel (w : Wave α) (samples : List α) : Option (Wave α) :=
  if w.channels = 0 ∨ w.len = samples.length then
    some { w with vec := w.vec ++ [samples], len := if w.channels = 0 then samples.length else w.len }
  else none

/-- `insert_channel`: `wave.rs:152-163`. -/
def Wave.insertChannel (w : Wave α) (channel : Nat) (samples : List α) : Option (Wave α) :=
  if (w.channels = 0 ∨ w.len = samples.length) ∧ channel ≤ w.channels then
    some { w with vec := w.vec.take channel ++ samples :: w.vec.drop channel, len := if w.channels = 0 then samples.length else w.len }
  else none

/-- A `for i in a..b` loop with a body that may panic. -/
def forRange {β : Type} (a b : Nat) (f : Nat → β → Option β) (x : β) : Option β := (List.range' a (b - a)).foldlM (fun x i => f i x) x

/-- `mix_channel`: `wave.rs:165-172`. -/
def Wave.mixChannel [Add α] (w : Wave α) (channel : Nat) (offset : Int) (samples : List α) : Option (Wave α) :=
  forRange (max offset 0).toNat (min (offset + samples.length) w.len).toNat
    (fun i w => (samples[(i - offset).toNat]?).bind fun x => w.mix channel i x) w

/-- `remove_channel`: `wave.rs:174-182`. Also returns the removed channel. -/
def Wave.removeChannel (w : Wave α) (channel : Nat) : Option (Wave α × List α) :=
  (w.vec[channel]?).map fun v => ({ w with vec := w.vec.eraseIdx channel, len := if w.channels = 1 then 0 else w.len }, v)

/-- `Vec::resize`. -/
def resizeList [Zero α] (length : Nat) (v : List α) : List α := v.take length ++ List.replicate (length - v.length) 0

/-- `resize`: `wave.rs:294-302`. -/
def Wave.resize [Zero α] (w : Wave α) (length : Nat) : Option (Wave α) :=
  if 0 < w.channels then some { w with vec := if length ≠ w.len then w.vec.map (resizeList length) else w.vec, len := length }
  else none

/-- `append`: `wave.rs:184-195`. -/
def Wave.append [Zero α] [Add α] (w source : Wave α) : Option (Wave α) :=
  if w.channels = source.channels then
    (w.resize (w.len + source.len)).bind fun w' =>
      forRange 0 w'.channels (fun i w' => (source.vec[i]?).bind fun v => w'.mixChannel i w.len v) w'
  else none

/-- `push` of a frame: `wave.rs:227-244`. -/
def Wave.push (w : Wave α) (frame : List α) : Option (Wave α) :=
  if h : frame.length = 1 then
    some { w with vec := w.vec.map (· ++ [frame[0]]), len := if 0 < w.channels then w.len + 1 else w.len }
  else if w.channels = frame.length then
    some { w with vec := List.zipWith (fun v x => v ++ [x]) w.vec frame, len := if 0 < w.channels then w.len + 1 else w.len }
  else none

/-- `retain`: `wave.rs:304-318`. The subtraction `i1 - i0` panics when negative (wraps around in a release build, after which the allocation fails). -/
def Wave.retain [Zero α] (w : Wave α) (start : Int) (length : Nat) : Option (Wave α) :=
  let i0 := (max start 0).toNat
  let i1 := min w.len (max 0 (start + length)).toNat
  (if 0 < i0 then forRange 0 w.channels (fun c w => forRange i0 i1 (fun i w => (w.at? c i).bind fun x => w.set c (i - i0) x) w) w else some w).bind fun w =>
    if i0 ≤ i1 then w.resize (i1 - i0) else none

/-! ## `WavePlayer` -/

/-- `WavePlayer` without its wave: `wave.rs:598-605`. -/
structure PlayerSt where
  channel : Nat
  index : Nat
  start : Nat
  stop : Nat
  loop : Option Nat

/-- `WavePlayer::new`: `wave.rs:608-625`. -/
def newPlayer (w : Wave α) (channel start stop : Nat) (loop : Option Nat) : Option PlayerSt :=
  if channel < w.channels ∧ stop ≤ w.len then some ⟨channel, start, start, stop, loop⟩ else none

/-- `tick`: `wave.rs:637-651`. `none` is a panic. -/
def playerTick [Zero α] (w : Wave α) (s : PlayerSt) : Option (PlayerSt × α) :=
  if s.index < s.stop then
    (w.at? s.channel s.index).map fun value =>
      ({ s with index := if s.index + 1 = s.stop then s.loop.getD (s.index + 1) else s.index + 1 }, value)
  else some (s, 0)

/-- `reset`: `wave.rs:633-635`. -/
def playerReset (s : PlayerSt) : PlayerSt := { s with index := s.start }

/-- Ticking `k` times. -/
def playerRun [Zero α] (w : Wave α) : Nat → PlayerSt → Option (PlayerSt × List α)
  | 0, s => some (s, [])
  | k + 1, s => (playerRun w k s).bind fun r => (playerTick w r.1).map fun q => (q.1, r.2 ++ [q.2])

end Fundsp.Wv
