import Verif.Core.Node

/-! Model of `src/buffer.rs`: a buffer is a flat slice of eight-lane items; channel `c` occupies items `8 c .. 8 (c + 1)`.
Index panics are `none`. `BufferVec`, `BufferRef`, `BufferMut` and (through its `repr(C)` layout) `BufferArray` share this
layout. -/

namespace Fundsp.Buffer

variable {α : Type}

/-- `F32x`: eight lanes. -/
abbrev Item (α : Type) := Fin 8 → α

/-- The underlying `Vec<F32x>` / slice. -/
abbrev Slice (α : Type) := List (Item α)

/-- `BufferVec::new`, `buffer.rs:197-202`. -/
def new (zero : α) (channels : Nat) : Slice α := List.replicate (channels <<< 3) (fun _ => zero)
/-- `channels`, `buffer.rs:45`, `205`. -/
def channels (b : Slice α) : Nat := b.length >>> 3
/-- `at`, `buffer.rs:99`, `224`. -/
def at' (b : Slice α) (channel i : Nat) : Option (Item α) := b[(channel <<< 3) + i]?
/-- `set`, `buffer.rs:83`, `231`. -/
def set (b : Slice α) (channel i : Nat) (v : Item α) : Option (Slice α) :=
  if (channel <<< 3) + i < b.length then some (b.set ((channel <<< 3) + i) v) else none
/-- `at_f32`, `buffer.rs:113`, `238`. -/
def atF32 (b : Slice α) (channel i : Nat) : Option α :=
  (b[(channel <<< 3) + (i >>> 3)]?).map (fun x => x ⟨i &&& 7, Nat.lt_succ_of_le Nat.and_le_right⟩)
/-- `set_f32`, `buffer.rs:90-95`, `245`. -/
def setF32 (b : Slice α) (channel i : Nat) (v : α) : Option (Slice α) :=
  (b[(channel <<< 3) + (i >>> 3)]?).map (fun x =>
    b.set ((channel <<< 3) + (i >>> 3)) (fun l => if l.val = i &&& 7 then v else x l))
/-- The slice `items[a..b]`; panics unless `a ≤ b ≤ len`. -/
def range (b : Slice α) (lo hi : Nat) : Option (Slice α) := if lo ≤ hi ∧ hi ≤ b.length then some ((b.drop lo).take (hi - lo)) else none
/-- `channel`, `buffer.rs:51`, `252`. -/
def channel (b : Slice α) (c : Nat) : Option (Slice α) := range b (c <<< 3) ((c + 1) <<< 3)
/-- `channel_f32`, `buffer.rs:65-70`, `266`: the items reinterpreted as scalars, lane by lane. -/
def channelF32 (b : Slice α) (c : Nat) : Option (List α) := (channel b c).map (fun s => s.flatMap (fun x => List.ofFn x))
/-- `subset`, `buffer.rs:30-36`, `146`. -/
def subset (b : Slice α) (first n : Nat) : Option (Slice α) := range b (first <<< 3) ((first + n) <<< 3)
/-- Writing through `BufferMut::subset`: the parent after the view has become `s'`. -/
def putSubset (b : Slice α) (first n : Nat) (s' : Slice α) : Slice α :=
  b.take (first <<< 3) ++ s' ++ b.drop ((first + n) <<< 3)
/-- `clear`, `buffer.rs:284`. -/
def clear (zero : α) (b : Slice α) : Slice α := b.map (fun _ _ => zero)
/-- `resize`, `buffer.rs:289` (`Vec::resize`). -/
def resize (zero : α) (b : Slice α) (channels : Nat) : Slice α :=
  b.take (channels <<< 3) ++ List.replicate (channels <<< 3 - b.length) (fun _ => zero)

end Fundsp.Buffer
