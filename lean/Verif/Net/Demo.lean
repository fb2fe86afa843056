import Verif.Net.Model

/-! # A small concrete family of units, used in examples and counterexamples

Samples are integers. A unit with `ins` inputs adds the sum of its inputs and a running counter `k` on all of its
outputs; the counter advances by `step` each sample. -/

namespace Fundsp.Net

structure DU where
  ins : Nat
  outs : Nat
  k : Int
  step : Int
  /-- a binary operator unit instead -/
  op : Option Op := none
  deriving DecidableEq

def demoArith : Arith Int where
  zero := 0
  one := 1
  add := (· + ·)
  sub := (· - ·)
  mul := (· * ·)
  div := (· / ·)
  ge := fun a b => decide (b ≤ a)
  ofNat := fun n => n
  toNat := Int.toNat
  fadeAt := fun _ x => x

def opFn : Op → Int → Int → Int
  | .add => (· + ·)
  | .sub => (· - ·)
  | .mul => (· * ·)

def demo : Units DU Int where
  toArith := demoArith
  ins := DU.ins
  outs := DU.outs
  setSR := fun _ u => u
  reset := fun u => { u with k := if u.step = 0 then u.k else 0 }
  ping := fun _ h u => (u, h)
  utick := fun u x =>
    match u.op with
    | none => ({ u with k := u.k + u.step }, List.replicate u.outs (x.foldl (· + ·) 0 + u.k))
    | some o => (u, List.replicate u.outs (opFn o (x.getD 0 0) (x.getD 1 0)))
  binop := fun o => ⟨2, 1, 0, 0, some o⟩
  const := fun x => ⟨0, 1, x, 0, none⟩
  dummy := fun i o => ⟨i, o, 0, 0, none⟩

theorem demo_lawful : demo.Lawful := by
  constructor <;> intros <;> simp [demo] <;> split <;> simp

/-- A generator with one output. -/
def gen1 : DU := ⟨0, 1, 1, 1, none⟩
/-- One input, one output. -/
def fil1 : DU := ⟨1, 1, 0, 0, none⟩

end Fundsp.Net
