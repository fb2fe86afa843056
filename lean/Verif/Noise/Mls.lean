import Mathlib.Data.Nat.Bitwise

/-!
# Maximum length sequences: model

Model of `MlsState`, `/repo/src/noise.rs:12-93`. `u32` values are natural numbers; shifts drop the bits above the 32nd.
-/

namespace Fundsp.Noise

/-- `MLS_POLY`: `noise.rs:23-55`. -/
def mlsPoly : List Nat := [
  0b1,
  0b11,
  0b110,
  0b1100,
  0b10100,
  0b110000,
  0b1001000,
  0b10111000,
  0b100010000,
  0b1001000000,
  0b10100000000,
  0b110010100000,
  0b1101100000000,
  0b11000010001000,
  0b110000000000000,
  0b1101000000001000,
  0b10010000000000000,
  0b100000010000000000,
  0b1100011000000000000,
  0b10010000000000000000,
  0b101000000000000000000,
  0b1100000000000000000000,
  0b10000100000000000000000,
  0b111000010000000000000000,
  0b1001000000000000000000000,
  0b10000000000000000000100011,
  0b100000000000000000000010011,
  0b1001000000000000000000000000,
  0b10100000000000000000000000000,
  0b100000000000000000000000101001,
  0b1001000000000000000000000000000
]

/-- `u32::count_ones`. -/
def countOnes (x : Nat) : Nat := ((List.range 32).map (fun i => (x.testBit i).toNat)).sum

/-- `MlsState`: `noise.rs:15-20`. -/
structure MlsState where
  n : Nat
  s : Nat
  deriving DecidableEq

/-- `MlsState::new`: `noise.rs:60-63`. The assertion fails on other sizes. -/
def MlsState.new (n : Nat) : Option MlsState := if 1 ≤ n ∧ n ≤ 31 then some ⟨n, (1 <<< n) - 1⟩ else none

/-- `MlsState::new_with_seed`: `noise.rs:67-73`. -/
def MlsState.newWithSeed (n seed : Nat) : Option MlsState := if 1 ≤ n ∧ n ≤ 31 then some ⟨n, 1 + seed % ((1 <<< n) - 1)⟩ else none

/-- `length`: `noise.rs:77-79`. -/
def MlsState.length (m : MlsState) : Nat := (1 <<< m.n) - 1

/-- `next`: `noise.rs:82-89`. The index into the table is in range, as `n` is between 1 and 31. -/
def MlsState.next (m : MlsState) : MlsState :=
  let feedback := mlsPoly.getD (m.n - 1) 0 &&& m.s
  let parity := countOnes feedback &&& 1
  ⟨m.n, (((m.s <<< 1) % 2 ^ 32) ||| parity) &&& m.length⟩

/-- `value`: `noise.rs:93-95`. -/
def MlsState.value (m : MlsState) : Nat := (m.s >>> (m.n - 1)) &&& 1

end Fundsp.Noise
