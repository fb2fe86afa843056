import Verif.Net.FadeExact

/-!
# Nodes added with a fade-in

`Net::fade_in` (`net.rs:244-249`) pushes a `DummyUnit` (`audiounit.rs:653-704`) and crossfades from it to the unit. The model of nets leaves open what
units do; here is what the dummy unit does.
-/
namespace Fundsp.Net
variable {U α : Type}

/-- `DummyUnit::tick`, `audiounit.rs:670-674`. -/
def dummyTick (zero : α) (outs : Nat) : List α := List.replicate outs zero

/-- `DummyUnit::process`, `audiounit.rs:676-680`. The slice is one of samples (`channel_f32_mut`, `buffer.rs:73-79`), but its end is the number of
eight-sample items: the rest of the block keeps what the buffer contained. -/
def dummyProcess (zero : α) (outs size : Nat) (old : CBuf α) : CBuf α := fun c k => if c < outs ∧ k < simdItems size then zero else old c k

/-- The dummy unit of a net is the one of the code. It has no state, and `set_sample_rate` (`audiounit.rs:33`) is left at its default. -/
structure DummyLaw (S : Units U α) (P : Proc U α) : Prop where
  rate : ∀ r i o, S.setSR r (S.dummy i o) = S.dummy i o
  tick : ∀ i o x, S.utick (S.dummy i o) x = (S.dummy i o, dummyTick S.zero o)
  block : ∀ i o size x old, P (S.dummy i o) size x old = (S.dummy i o, dummyProcess S.zero o size old)

/-- A dummy unit remains one. -/
theorem drive_dummy {S : Units U ℝ} {P : Proc U ℝ} (hd : DummyLaw S P) (pick : CBuf ℝ → CBuf ℝ → CBuf ℝ) (i o : Nat) (q : List (NodeEv U)) :
    drive S P pick q (S.dummy i o) = S.dummy i o := by
  induction q with
  | nil => rfl
  | cons v q ih =>
    cases v with
    | tick x => rw [drive, hd.tick]; exact ih
    | block size x old tmp => rw [drive, hd.block]; exact ih
    | edit d => exact ih

theorem zipWith_replicate_zero (f g : ℝ) : ∀ (l : List ℝ), List.zipWith (fun a b => a * f + b * g) (List.replicate l.length 0) l = l.map (· * g)
  | [] => rfl
  | a :: l => by
    rw [List.length_cons, List.replicate_succ, List.zipWith_cons_cons, zipWith_replicate_zero f g l, zero_mul, zero_add, List.map_cons]

/-! ## Example units: the dummy unit and constants -/

inductive FU
  | dummy (ins outs : Nat)
  | dc (v : ℝ)

noncomputable def fadeUnits : Units FU ℝ where
  toArith := realArith
  ins := fun | .dummy i _ => i | .dc _ => 0
  outs := fun | .dummy _ o => o | .dc _ => 1
  setSR := fun _ u => u
  reset := fun u => u
  ping := fun _ h u => (u, h)
  utick := fun u _ => match u with
    | .dummy i o => (.dummy i o, dummyTick 0 o)
    | .dc v => (.dc v, [v])
  binop := fun _ => .dummy 2 1
  const := fun x => .dc x
  dummy := .dummy

/-- `Constant::process` (`audionode.rs:476-481`) fills the block. -/
def fadeProc : Proc FU ℝ := fun u size _ old => match u with
  | .dummy i o => (.dummy i o, dummyProcess 0 o size old)
  | .dc v => (.dc v, fun c k => if c < 1 ∧ k < 8 * simdItems size then v else old c k)

theorem fadeUnits_dummy : DummyLaw fadeUnits fadeProc := ⟨fun _ _ _ => rfl, fun _ _ _ => rfl, fun _ _ _ _ _ => rfl⟩

theorem fadeUnits_lawful : fadeUnits.Lawful := by
  constructor <;> intros <;> first | rfl | skip
  · rename_i u x; cases u <;> rfl
  · rename_i u x; cases u <;> rfl
  · rename_i u x; cases u
    · exact List.length_replicate
    · rfl

noncomputable def fadeEnv : Env FU ℝ := ⟨fadeUnits, id, 0⟩

/-- The net made of a single node, without inputs, that is connected to the output, and has its order. -/
noncomputable def soloNet (r : ℝ) (e : Eng FU ℝ) (b : CBuf ℝ) : Net FU ℝ :=
  { (Net.new r 0 1 : Net FU ℝ) with
    vertex := [{ Vertex.new fadeUnits 0 0 (.dummy 0 1) with eng := e, buf := b }]
    outputEdge := [⟨.loc 0 0, .glob 0⟩]
    nodeIndex := [(0, 0)]
    order := some [0] }

theorem solo_process (r : ℝ) (e : Eng FU ℝ) (b : CBuf ℝ) (size : Nat) (x old : CBuf ℝ) (tmp : Nat → CBuf ℝ) :
    process fadeUnits fadeProc id 0 (soloNet r e b) size x old tmp =
      (soloNet r (e.process fadeUnits fadeProc r 1 size (fun _ _ => 0) b (tmp 0)).1 (e.process fadeUnits fadeProc r 1 size (fun _ _ => 0) b (tmp 0)).2,
        fun c k => if c = 0 ∧ k < 8 * simdItems size then (e.process fadeUnits fadeProc r 1 size (fun _ _ => 0) b (tmp 0)).2 0 k else old c k) := by
  refine Prod.ext ?_ ?_
  · rfl
  · funext c k
    cases c with
    | zero =>
      show (if 0 < 1 ∧ k < 8 * simdItems size then (e.process fadeUnits fadeProc r 1 size (fun _ _ => 0) b (tmp 0)).2 0 k else old 0 k) =
        if 0 = 0 ∧ k < 8 * simdItems size then (e.process fadeUnits fadeProc r 1 size (fun _ _ => 0) b (tmp 0)).2 0 k else old 0 k
      simp
    | succ c =>
      show old (c + 1) k = if c + 1 = 0 ∧ k < 8 * simdItems size then (e.process fadeUnits fadeProc r 1 size (fun _ _ => 0) b (tmp 0)).2 0 k else old (c + 1) k
      rw [if_neg (by omega)]

/-- The net after `n` blocks of 64 samples. -/
noncomputable def blocks (net : Net FU ℝ) (x old : CBuf ℝ) (tmp : Nat → CBuf ℝ) : Nat → Net FU ℝ
  | 0 => net
  | n + 1 => (process fadeUnits fadeProc id 0 (blocks net x old tmp n) 64 x old tmp).1

end Fundsp.Net
