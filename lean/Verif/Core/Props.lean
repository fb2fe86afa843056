import Verif.Core.TickBlock
import Mathlib.Algebra.Field.Basic
import Mathlib.Algebra.CharZero.Defs
import Mathlib.Tactic.Ring
import Mathlib.Tactic.FieldSimp

/-!
# C14, C15: block processing of combinator graphs; combinator algebra

Specification vocabulary used here: `Node.exec` (run a schedule of API calls), `unblock` (replace blocks by ticks),
`Node.stream` (output frames under repeated `tick`).
-/

namespace Fundsp
variable {α : Type}

/-- Observable form of "block processing equals ticking": whatever the schedule of ticks, resets and blocks of at
most 64 samples, whatever the contents of output and scratch buffers and of input buffers beyond the block, the
frames produced are those of the schedule with every block replaced by single ticks. -/
def BlockEqualsTick {i o} (n : Node α i o) : Prop :=
  ∀ (w : Nat → Frame α i) (cs : List (Call α i o)), (∀ c ∈ cs, c.ok) → ∀ s : n.σ,
    (n.exec w cs 0 s).2 = (n.exec w (unblock cs) 0 s).2

/-- The same for the runs from one state. -/
def BlockEqualsTickFrom {i o} (n : Node α i o) (s : n.σ) : Prop :=
  ∀ (w : Nat → Frame α i) (cs : List (Call α i o)), (∀ c ∈ cs, c.ok) → (n.exec w cs 0 s).2 = (n.exec w (unblock cs) 0 s).2

theorem exec_shift {i o} (n : Node α i o) (w : Nat → Frame α i) (cs : List (Call α i o)) :
    ∀ (t : Nat) (s : n.σ), n.exec w cs t s = n.exec (fun k => w (t + k)) cs 0 s := by
  suffices ∀ (w' : Nat → Frame α i) (a t : Nat), (∀ k, w' (a + k) = w (t + k)) → ∀ s : n.σ,
      n.exec w cs t s = n.exec w' cs a s by
    intro t s; exact this _ 0 t (by intro k; simp) s
  induction cs with
  | nil => intros; rfl
  | cons c cs ih =>
    intro w' a t hw s
    cases c with
    | tick =>
      simp only [Node.exec]
      have h0 : w t = w' a := by have := hw 0; simpa using this.symm
      rw [h0, ih w' (a + 1) (t + 1) (by intro k; rw [Nat.add_assoc, Nat.add_assoc, hw])]
    | reset => simp only [Node.exec]; exact ih w' a t hw _
    | block size tail old g =>
      simp only [Node.exec]
      have hb : blockInput w t size tail = blockInput w' a size tail := by
        funext c k; simp only [blockInput, hw]
      rw [hb, ih w' (a + size) (t + size) (by intro k; rw [Nat.add_assoc, Nat.add_assoc, hw])]

theorem unblock_append {i o} (cs : List (Call α i o)) (size tail old g) :
    unblock (.block size tail old g :: cs) = List.replicate size .tick ++ unblock cs := rfl

/-- The simulation-based notion used in the proofs is exactly the observable one. -/
theorem tickBlockOn_iff {i o} (n : Node α i o) (P : n.σ → Prop) : TickBlockOn n P ↔ ∀ s, P s → BlockEqualsTickFrom n s := by
  constructor
  · intro h s hs w cs hc; exact h.exec w cs hc 0 s hs
  · intro h
    refine ⟨fun s m => ∀ w cs, (∀ c ∈ cs, c.ok) → (n.exec w cs 0 s).2 = (n.exec w (unblock cs) 0 m).2,
      fun s hs w cs hc => h s hs w cs hc, ?_, ?_, ?_⟩
    · intro s t hst w cs hc
      exact hst w (.reset :: cs) (by intro c hm; cases hm with
        | head => exact trivial
        | tail _ hm => exact hc c hm)
    · intro s (m : n.σ) x hsm
      have hcons : ∀ (w : Nat → Frame α i) (cs : List (Call α i o)), (∀ c ∈ cs, c.ok) →
          (n.tick s (w 0)).2 :: (n.exec w cs 1 (n.tick s (w 0)).1).2
            = (n.tick m (w 0)).2 :: (n.exec w (unblock cs) 1 (n.tick m (w 0)).1).2 := by
        intro w cs hc
        have := hsm w (.tick :: cs) (by intro c hm; cases hm with
          | head => exact trivial
          | tail _ hm => exact hc c hm)
        simpa only [Node.exec, unblock, Nat.zero_add] using this
      refine ⟨fun w cs hc => ?_, ?_⟩
      · have h1 := (List.cons.inj (hcons (fun k => match k with | 0 => x | k + 1 => w k) cs hc)).2
        rw [exec_shift n _ cs 1, exec_shift n _ (unblock cs) 1] at h1
        simp only [Nat.add_comm 1] at h1
        exact h1
      · exact (List.cons.inj (hcons (fun _ => x) [] (by simp))).1
    · intro g s (m : n.σ) size inp out hs hsm
      have key : ∀ (w : Nat → Frame α i) (cs : List (Call α i o)), (∀ c ∈ cs, c.ok) →
          (List.range size).map (n.process g s size (blockInput w 0 size inp) out).2.frame ++
              (n.exec (fun k => w (size + k)) cs 0 (n.process g s size (blockInput w 0 size inp) out).1).2
            = (List.range size).map (n.ticks.out m w) ++
              (n.exec (fun k => w (size + k)) (unblock cs) 0 (n.ticks.st m w size)).2 := by
        intro w cs hc
        have := hsm w (.block size inp out g :: cs) (by intro c hm; cases hm with
          | head => exact hs
          | tail _ hm => exact hc c hm)
        rw [unblock_append, exec_replicate_tick] at this
        simp only [Node.exec, Nat.zero_add] at this
        rw [exec_shift n _ cs size, exec_shift n _ (unblock cs) size] at this
        exact this
      have hb : ∀ w : Nat → Frame α i, blockInput (fun k => if k < size then inp.frame k else w (k - size)) 0 size inp
          = inp := by
        intro w; funext c k; simp only [blockInput, Nat.zero_add]
        by_cases hk : k < size <;> simp [hk, Buf.frame]
      have hst : ∀ w : Nat → Frame α i, n.ticks.st m (fun k => if k < size then inp.frame k else w (k - size)) size
          = n.ticks.st m inp.frame size :=
        fun w => n.ticks.st_congr m _ _ _ (fun j hj => by simp [hj])
      have hsplit := fun (w : Nat → Frame α i) (cs : List (Call α i o)) (hc : ∀ c ∈ cs, c.ok) =>
        List.append_inj (key (fun k => if k < size then inp.frame k else w (k - size)) cs hc) (by simp)
      refine ⟨fun w cs hc => ?_, ?_⟩
      · have h2 := (hsplit w cs hc).2
        rw [hb, hst] at h2
        have e : (fun k => if size + k < size then inp.frame (size + k) else w (size + k - size)) = w := by
          funext k; simp
        simp only [e] at h2
        exact h2
      · intro k hk
        have h1 := (hsplit (fun _ => inp.frame 0) [] (by simp)).1
        rw [hb (fun _ => inp.frame 0)] at h1
        have h3 := List.map_inj_left.1 h1 k (List.mem_range.2 hk)
        rw [h3]
        exact n.ticks.out_congr m _ _ k (fun j hj => by simp [show j < size by omega])

theorem tickBlock_iff {i o} (n : Node α i o) : TickBlock n ↔ BlockEqualsTick n :=
  ⟨fun h w cs hc s => h.exec w cs hc 0 s, fun h => ((tickBlockOn_iff n fun _ => True).2 fun s _ w cs hc => h w cs hc s).all fun _ => trivial⟩

/-! ## C14 -/

/-- Graph expressions built from the static combinators of `audionode.rs` over arbitrary leaf components. -/
inductive Graph (α : Type) : Nat → Nat → Type 1 where
  | leaf {i o} (n : Node α i o) : Graph α i o
  | multiPass (n : Nat) : Graph α n n
  | sink (n : Nat) : Graph α n 0
  | constant (n : Nat) : Graph α 0 n
  | split (n : Nat) : Graph α 1 n
  | multiSplit (m n : Nat) : Graph α m (m * n)
  | join (n : Nat) (ops : AvgOps α (n + 1)) : Graph α (n + 1) 1
  | multiJoin (m n : Nat) (ops : AvgOps α (n + 1)) : Graph α (m * (n + 1)) m
  | reverse (n : Nat) : Graph α n n
  | impulse (n : Nat) (one zero : α) : Graph α 0 n
  | map {i o} (f : Frame α i → Frame α o) : Graph α i o
  | binop {i j o} (op : α → α → α) (x : Graph α i o) (y : Graph α j o) : Graph α (i + j) o
  | unop {i o} (op : α → α) (x : Graph α i o) : Graph α i o
  | pipe {i j o} (x : Graph α i j) (y : Graph α j o) : Graph α i o
  | stack {i j o p} (x : Graph α i o) (y : Graph α j p) : Graph α (i + j) (o + p)
  | branch {i o p} (x : Graph α i o) (y : Graph α i p) : Graph α i (o + p)
  | bus {i o} (add : α → α → α) (x y : Graph α i o) : Graph α i o
  | thru {i o} (x : Graph α i o) : Graph α i i
  | multiBus {i o} (add : α → α → α) (zero : α) (n : Nat) (x : Graph α i o) : Graph α i o
  | multiStack {i o} (n : Nat) (x : Graph α i o) : Graph α (i * n) (o * n)
  | multiBranch {i o} (n : Nat) (x : Graph α i o) : Graph α i (o * n)
  | reduce {i o} (op : α → α → α) (n : Nat) (x : Graph α i o) : Graph α (i * (n + 1)) o
  | chain {i} (n : Nat) (x : Graph α i i) : Graph α i i

/-- The node denoted by a graph expression. -/
def Graph.node {i o} : Graph α i o → Node α i o
  | .leaf n => n
  | .multiPass n => Fundsp.multiPass n
  | .sink n => Fundsp.sink n
  | .constant n => Fundsp.constant n
  | .split n => Fundsp.split n
  | .multiSplit m n => Fundsp.multiSplit m n
  | .join n ops => Fundsp.join n ops
  | .multiJoin m n ops => Fundsp.multiJoin m n ops
  | .reverse n => Fundsp.reverse n
  | .impulse n one zero => Fundsp.impulse n one zero
  | .map f => Fundsp.mapNode f
  | .binop op x y => Fundsp.binop op x.node y.node
  | .unop op x => Fundsp.unop op x.node
  | .pipe x y => Fundsp.pipe x.node y.node
  | .stack x y => Fundsp.stack x.node y.node
  | .branch x y => Fundsp.branch x.node y.node
  | .bus add x y => Fundsp.bus add x.node y.node
  | .thru x => Fundsp.thru x.node
  | .multiBus add zero n x => Fundsp.multiBus add zero n x.node
  | .multiStack n x => Fundsp.multiStack n x.node
  | .multiBranch n x => Fundsp.multiBranch n x.node
  | .reduce op n x => Fundsp.reduce op n x.node
  | .chain n x => Fundsp.chain n x.node

/-- Requirements: leaves are block-consistent. The averaging nodes (`Join`, `MultiJoin`) and `MultiBus` evaluate
the same sum in two different ways in `tick` and `process`; they agree when multiplication distributes over
addition (resp. when `0 + x = x`), which excludes rounding (resp. the sign of zero). All other nodes agree for any
arithmetic whatsoever. -/
def Graph.Sound {i o} : Graph α i o → Prop
  | .leaf n => BlockEqualsTick n
  | .join _ ops => ops.Exact
  | .multiJoin _ _ ops => ops.Exact
  | .binop _ x y => x.Sound ∧ y.Sound
  | .unop _ x => x.Sound
  | .pipe x y => x.Sound ∧ y.Sound
  | .stack x y => x.Sound ∧ y.Sound
  | .branch x y => x.Sound ∧ y.Sound
  | .bus _ x y => x.Sound ∧ y.Sound
  | .thru x => x.Sound
  | .multiBus add zero _ x => (∀ a, add zero a = a) ∧ x.Sound
  | .multiStack _ x => x.Sound
  | .multiBranch _ x => x.Sound
  | .reduce _ _ x => x.Sound
  | .chain _ x => x.Sound
  | _ => True

/-- The leaves are block-consistent from the states that they have in the state `s` of the graph. -/
def Graph.SoundAt {i o} : (G : Graph α i o) → G.node.σ → Prop
  | .leaf n, s => BlockEqualsTickFrom n s
  | .join _ ops, _ => ops.Exact
  | .multiJoin _ _ ops, _ => ops.Exact
  | .binop _ x y, s => x.SoundAt s.1 ∧ y.SoundAt s.2
  | .unop _ x, s => x.SoundAt s
  | .pipe x y, s => x.SoundAt s.1 ∧ y.SoundAt s.2
  | .stack x y, s => x.SoundAt s.1 ∧ y.SoundAt s.2
  | .branch x y, s => x.SoundAt s.1 ∧ y.SoundAt s.2
  | .bus _ x y, s => x.SoundAt s.1 ∧ y.SoundAt s.2
  | .thru x, s => x.SoundAt s
  | .multiBus add zero _ x, s => (∀ a, add zero a = a) ∧ ∀ j, x.SoundAt (s j)
  | .multiStack _ x, s => ∀ j, x.SoundAt (s j)
  | .multiBranch _ x, s => ∀ j, x.SoundAt (s j)
  | .reduce _ _ x, s => ∀ j, x.SoundAt (s j)
  | .chain _ x, s => ∀ j, x.SoundAt (s j)
  | _, _ => True

theorem tickBlockOn_and {i o} {n : Node α i o} {c : Prop} {P : n.σ → Prop} (h : c → TickBlockOn n P) : TickBlockOn n (fun s => c ∧ P s) := by
  by_cases hc : c
  · obtain ⟨R, h1, h2⟩ := h hc
    exact ⟨R, fun s hs => h1 s hs.2, h2⟩
  · exact ⟨fun _ _ => False, fun _ hs => hc hs.1, fun _ _ h => h, ⟨fun _ _ _ h => h.elim, fun _ _ _ _ _ _ _ h => h.elim⟩⟩

theorem tickBlockOn_const {i o} {n : Node α i o} {c : Prop} (h : c → TickBlock n) : TickBlockOn n (fun _ => c) := by
  obtain ⟨R, h1, h2⟩ := tickBlockOn_and (P := fun _ => True) fun hc => (h hc).on _
  exact ⟨R, fun s hs => h1 s ⟨hs, trivial⟩, h2⟩

theorem Graph.tickBlockOn {i o} (G : Graph α i o) : TickBlockOn G.node G.SoundAt := by
  induction G with
  | leaf n => exact (tickBlockOn_iff n _).2 fun _ h => h
  | multiPass n => exact (tickBlock_multiPass n).on _
  | sink n => exact (tickBlock_sink n).on _
  | constant n => exact (tickBlock_constant n).on _
  | split n => exact (tickBlock_split n).on _
  | multiSplit m n => exact (tickBlock_multiSplit m n).on _
  | join n ops => exact tickBlockOn_const fun h => tickBlock_join n ops h
  | multiJoin m n ops => exact tickBlockOn_const fun h => tickBlock_multiJoin m n ops h
  | reverse n => exact (tickBlock_reverse n).on _
  | impulse n one zero => exact (tickBlock_impulse n one zero).on _
  | map f => exact (tickBlock_mapNode f).on _
  | binop op x y ihx ihy => exact tickBlockOn_binop op ihx ihy
  | unop op x ih => exact tickBlockOn_unop op ih
  | pipe x y ihx ihy => exact tickBlockOn_pipe ihx ihy
  | stack x y ihx ihy => exact tickBlockOn_stack ihx ihy
  | branch x y ihx ihy => exact tickBlockOn_branch ihx ihy
  | bus add x y ihx ihy => exact tickBlockOn_bus add ihx ihy
  | thru x ih => exact tickBlockOn_thru ih
  | multiBus add zero n x ih => exact tickBlockOn_and fun hz => tickBlockOn_multiBus add zero hz n ih
  | multiStack n x ih => exact tickBlockOn_multiStack n ih
  | multiBranch n x ih => exact tickBlockOn_multiBranch n ih
  | reduce op n x ih => exact tickBlockOn_reduce op n ih
  | chain n x ih => exact tickBlockOn_chain n ih

theorem Graph.Sound.at {i o} {G : Graph α i o} (h : G.Sound) (s : G.node.σ) : G.SoundAt s := by
  induction G with
  | leaf n => exact fun w cs hc => h w cs hc s
  | join n ops => exact h
  | multiJoin m n ops => exact h
  | binop op x y ihx ihy => exact ⟨ihx h.1 _, ihy h.2 _⟩
  | unop op x ih => exact ih h s
  | pipe x y ihx ihy => exact ⟨ihx h.1 _, ihy h.2 _⟩
  | stack x y ihx ihy => exact ⟨ihx h.1 _, ihy h.2 _⟩
  | branch x y ihx ihy => exact ⟨ihx h.1 _, ihy h.2 _⟩
  | bus add x y ihx ihy => exact ⟨ihx h.1 _, ihy h.2 _⟩
  | thru x ih => exact ih h s
  | multiBus add zero n x ih => exact ⟨h.1, fun j => ih h.2 _⟩
  | multiStack n x ih => exact fun j => ih h _
  | multiBranch n x ih => exact fun j => ih h _
  | reduce op n x ih => exact fun j => ih h _
  | chain n x ih => exact fun j => ih h _
  | _ => trivial

/-- **C14, from a state.** If every leaf is block-consistent from the state it has, the graph is block-consistent from its state: every schedule
of ticks, resets and blocks (any sizes up to 64, any stale buffer contents) produces exactly the frames of the tick-only schedule. -/
theorem C14_from_state {i o} (G : Graph α i o) (s : G.node.σ) (h : G.SoundAt s) : BlockEqualsTickFrom G.node s :=
  (tickBlockOn_iff G.node _).1 G.tickBlockOn s h

/-- **C14.** For every graph of static combinators over block-consistent leaves, every schedule of ticks, resets and
blocks (any sizes up to 64, any stale buffer contents) produces exactly the frames of the tick-only schedule. -/
theorem C14_block_equals_tick {i o} (G : Graph α i o) (h : G.Sound) : BlockEqualsTick G.node :=
  fun w cs hc s => C14_from_state G s (h.at s) w cs hc

/-- Non-vacuity: a one-sample delay leaf (state = previous sample) inside `((delay >> -) & delay) | pass`. -/
example : (Graph.stack
    (.bus (· + ·) (.pipe (.leaf (Node.ofTick (i := 1) (o := 1) Int (fun _ => 0) (fun s x => (x 0, fun _ => s))))
      (.unop (fun x => -x) (.multiPass 1)))
      (.leaf (Node.ofTick (i := 1) (o := 1) Int (fun _ => 0) (fun s x => (x 0, fun _ => s)))))
    (.multiPass 1) : Graph Int (1 + 1) (1 + 1)).Sound := by
  refine ⟨⟨⟨?_, trivial⟩, ?_⟩, trivial⟩ <;> exact (tickBlock_iff _).1 (tickBlock_ofTick _ _)

/-! ## C15: combinator algebra -/

/-- `x >> y` is stream composition. -/
theorem C15_pipe {i j o} (X : Node α i j) (Y : Node α j o) (s t w) :
    (pipe X Y).stream (s, t) w = Y.stream t (X.stream s w) := funext fun k => pipe_out X Y s t w k

/-- `>>` is associative. -/
theorem C15_pipe_assoc {i j k o} (X : Node α i j) (Y : Node α j k) (Z : Node α k o) (s t u w) :
    (pipe (pipe X Y) Z).stream ((s, t), u) w = (pipe X (pipe Y Z)).stream (s, (t, u)) w := by
  exact (C15_pipe (pipe X Y) Z (s, t) u w).trans ((congrArg (Z.stream u) (C15_pipe X Y s t w)).trans
    ((C15_pipe X (pipe Y Z) s (t, u) w).trans (C15_pipe Y Z t u _)).symm)

theorem multiPass_stream (n : Nat) (w : Nat → Frame α n) : (multiPass n : Node α n n).stream () w = w := rfl

/-- `pass` is a left and right unit of `>>`. -/
theorem C15_pass_unit {i o} (X : Node α i o) (s w) :
    (pipe (multiPass i) X).stream ((), s) w = X.stream s w ∧
    (pipe X (multiPass o)).stream (s, ()) w = X.stream s w := by
  exact ⟨C15_pipe (multiPass i) X () s w, C15_pipe X (multiPass o) s () w⟩

/-- `x | y`: the first channels go through `x`, the others through `y`. -/
theorem C15_stack {i j o p} (X : Node α i o) (Y : Node α j p) (s t w) (k : Nat) :
    (∀ c : Fin o, (stack X Y).stream (s, t) w k (Fin.castAdd p c)
        = X.stream s (fun k c => w k (Fin.castAdd j c)) k c) ∧
    (∀ c : Fin p, (stack X Y).stream (s, t) w k (Fin.natAdd o c)
        = Y.stream t (fun k c => w k (Fin.natAdd i c)) k c) := by
  constructor
  · intro c
    simp only [Node.stream]; rw [stack_out]
    simp [Frame.join]; rfl
  · intro c
    simp only [Node.stream]; rw [stack_out]
    simp [Frame.join]; rfl

/-- `x ^ y`: both see the whole input, outputs are concatenated. -/
theorem C15_branch {i o p} (X : Node α i o) (Y : Node α i p) (s t w) (k : Nat) :
    (∀ c : Fin o, (branch X Y).stream (s, t) w k (Fin.castAdd p c) = X.stream s w k c) ∧
    (∀ c : Fin p, (branch X Y).stream (s, t) w k (Fin.natAdd o c) = Y.stream t w k c) := by
  constructor
  · intro c; simp only [Node.stream]; rw [branch_out]; simp [Frame.join]
  · intro c; simp only [Node.stream]; rw [branch_out]; simp [Frame.join]

/-- `x & y`: sum of both on the same input. -/
theorem C15_bus {i o} (add : α → α → α) (X Y : Node α i o) (s t w) (k : Nat) (c : Fin o) :
    (bus add X Y).stream (s, t) w k c = add (X.stream s w k c) (Y.stream t w k c) :=
  congrFun (bus_out add X Y s t w k) c

/-- `x + y`, `x - y`, `x * y`: inputs are disjoint, outputs are combined channelwise. -/
theorem C15_binop {i j o} (op : α → α → α) (X : Node α i o) (Y : Node α j o) (s t w) (k : Nat) (c : Fin o) :
    (binop op X Y).stream (s, t) w k c =
      op (X.stream s (fun k c => w k (Fin.castAdd j c)) k c) (Y.stream t (fun k c => w k (Fin.natAdd i c)) k c) :=
  congrFun (binop_out op X Y s t w k) c

/-- `!x`: missing outputs are replaced by the inputs of the same number. -/
theorem C15_thru {i o} (X : Node α i o) (s w) (k : Nat) (c : Fin i) :
    (∀ h : c.1 < o, (thru X).stream s w k c = X.stream s w k ⟨c.1, h⟩) ∧
    (o ≤ c.1 → (thru X).stream s w k c = w k c) := by
  have e := congrFun (thru_out X s w k) c
  exact ⟨fun h => e.trans (by simp only [h, dif_pos]; rfl),
    fun h => e.trans (by simp only [show ¬ c.1 < o by omega, dif_neg, not_false_eq_true])⟩

/-- `|` is associative (up to the identification of `(i+j)+k` with `i+(j+k)` channels). -/
theorem C15_stack_assoc {i j k o p q} (X : Node α i o) (Y : Node α j p) (Z : Node α k q) (s t u)
    (w : Nat → Frame α (i + j + k)) (n : Nat) (c : Fin (o + p + q)) :
    (stack (stack X Y) Z).stream ((s, t), u) w n c =
      (stack X (stack Y Z)).stream (s, (t, u)) (fun n c => w n (Fin.cast (Nat.add_assoc i j k).symm c)) n
        (Fin.cast (Nat.add_assoc o p q) c) := by
  have e1 := congrFun (stack_out (stack X Y) Z (s, t) u w n) c
  rw [stack_out] at e1
  have e2 := congrFun (stack_out X (stack Y Z) s (t, u)
    (fun n c => w n (Fin.cast (Nat.add_assoc i j k).symm c)) n) (Fin.cast (Nat.add_assoc o p q) c)
  rw [stack_out] at e2
  refine e1.trans (Eq.trans ?_ e2.symm)
  simp only [Frame.join, Fin.val_cast]
  by_cases h1 : c.1 < o
  · have h2 : c.1 < o + p := by omega
    simp only [h1, h2, dif_pos]
    rfl
  · by_cases h2 : c.1 < o + p
    · have h3 : c.1 - o < p := by omega
      simp only [h1, h2, h3, dif_pos, dif_neg, not_false_eq_true]
      rfl
    · have h3 : ¬ c.1 - o < p := by omega
      simp only [h1, h2, h3, dif_neg, not_false_eq_true]
      have e : (fun k_1 => Frame.takeR (w k_1)) = fun k_1 =>
          Frame.takeR (Frame.takeR fun c => w k_1 (Fin.cast (Nat.add_assoc i j k).symm c)) := by
        funext n ch
        simp only [Frame.takeR]
        congr 1
        exact Fin.ext (by simp [Nat.add_assoc])
      rw [e]
      congr 1
      exact Fin.ext (by simp; omega)

/-- `^` is associative. -/
theorem C15_branch_assoc {i o p q} (X : Node α i o) (Y : Node α i p) (Z : Node α i q) (s t u)
    (w : Nat → Frame α i) (n : Nat) (c : Fin (o + p + q)) :
    (branch (branch X Y) Z).stream ((s, t), u) w n c =
      (branch X (branch Y Z)).stream (s, (t, u)) w n (Fin.cast (Nat.add_assoc o p q) c) := by
  have e1 := congrFun (branch_out (branch X Y) Z (s, t) u w n) c
  rw [branch_out] at e1
  have e2 := congrFun (branch_out X (branch Y Z) s (t, u) w n) (Fin.cast (Nat.add_assoc o p q) c)
  rw [branch_out] at e2
  refine e1.trans (Eq.trans ?_ e2.symm)
  simp only [Frame.join, Fin.val_cast]
  by_cases h1 : c.1 < o
  · have h2 : c.1 < o + p := by omega
    simp only [h1, h2, dif_pos]
  · by_cases h2 : c.1 < o + p
    · have h3 : c.1 - o < p := by omega
      simp only [h1, h2, h3, dif_pos, dif_neg, not_false_eq_true]
    · have h3 : ¬ c.1 - o < p := by omega
      simp only [h1, h2, h3, dif_neg, not_false_eq_true]
      congr 1
      exact Fin.ext (by simp; omega)

/-- `&` is associative when sample addition is. -/
theorem C15_bus_assoc {i o} (add : α → α → α) (ha : ∀ x y z, add (add x y) z = add x (add y z))
    (X Y Z : Node α i o) (s t u w) :
    (bus add (bus add X Y) Z).stream ((s, t), u) w = (bus add X (bus add Y Z)).stream (s, (t, u)) w := by
  funext k c
  have h1 := C15_bus add (bus add X Y) Z (s, t) u w k c
  have h2 := C15_bus add X (bus add Y Z) s (t, u) w k c
  rw [C15_bus] at h1 h2
  exact h1.trans ((ha _ _ _).trans h2.symm)

/-- `&` is commutative when sample addition is. -/
theorem C15_bus_comm {i o} (add : α → α → α) (hc : ∀ x y, add x y = add y x) (X Y : Node α i o) (s t w) :
    (bus add X Y).stream (s, t) w = (bus add Y X).stream (t, s) w := by
  funext k c; rw [C15_bus, C15_bus, hc]

/-- `x ^ y` is `multisplit >> (x | y)`. -/
theorem C15_branch_eq_split_stack {i o p} (X : Node α i o) (Y : Node α i p) (s t w) :
    (branch X Y).stream (s, t) w =
      (stack X Y).stream (s, t) (fun k c => (multiSplit i 2 : Node α i (i * 2)).stream () w k
        (Fin.cast (Nat.mul_two i).symm c)) := by
  funext k c
  simp only [Node.stream]
  rw [branch_out, stack_out]
  have e1 : ∀ k, Frame.takeL (fun c => (multiSplit i 2 : Node α i (i * 2)).ticks.out () w k
      (Fin.cast (Nat.mul_two i).symm c)) = w k := by
    intro k; funext c
    have := c.2
    simp only [Frame.takeL, Mealy.out, Node.ticks, multiSplit]
    congr 1
    exact Fin.ext (by simp [Nat.mod_eq_of_lt this])
  have e2 : ∀ k, Frame.takeR (fun c => (multiSplit i 2 : Node α i (i * 2)).ticks.out () w k
      (Fin.cast (Nat.mul_two i).symm c)) = w k := by
    intro k; funext c
    have := c.2
    simp only [Frame.takeR, Mealy.out, Node.ticks, multiSplit]
    congr 1
    exact Fin.ext (by simp [Nat.mod_eq_of_lt this])
  simp only [e1, e2]

/-- `x & y` is `x ^ y` followed by summing the two halves. -/
theorem C15_bus_eq_branch_sum {i o} (add : α → α → α) (X Y : Node α i o) (s t w) (k : Nat) (c : Fin o) :
    (bus add X Y).stream (s, t) w k c =
      add ((branch X Y).stream (s, t) w k (Fin.castAdd o c)) ((branch X Y).stream (s, t) w k (Fin.natAdd o c)) := by
  rw [C15_bus, (C15_branch X Y s t w k).1, (C15_branch X Y s t w k).2]

/-- Interchange law: `(x | y) >> (z | v) = (x >> z) | (y >> v)`. -/
theorem C15_interchange {i j k l o p} (X : Node α i j) (Y : Node α k l) (Z : Node α j o) (V : Node α l p)
    (s t u v w) :
    (pipe (stack X Y) (stack Z V)).stream ((s, t), (u, v)) w =
      (stack (pipe X Z) (pipe Y V)).stream ((s, u), (t, v)) w := by
  refine (C15_pipe (stack X Y) (stack Z V) (s, t) (u, v) w).trans ?_
  funext n
  have h1 := stack_out Z V u v ((stack X Y).stream (s, t) w) n
  have h2 := stack_out (pipe X Z) (pipe Y V) (s, u) (t, v) w n
  rw [pipe_out, pipe_out] at h2
  refine h1.trans (Eq.trans ?_ h2.symm)
  have e1 : (fun k_1 => Frame.takeL ((stack X Y).stream (s, t) w k_1)) = X.stream s (fun k_1 => (w k_1).takeL) := by
    funext n c; exact (C15_stack X Y s t w n).1 c
  have e2 : (fun k_1 => Frame.takeR ((stack X Y).stream (s, t) w k_1)) = Y.stream t (fun k_1 => (w k_1).takeR) := by
    funext n c; exact (C15_stack X Y s t w n).2 c
  rw [e1, e2]

/-- `reverse >> reverse = pass`. -/
theorem C15_reverse_involution (n : Nat) (w : Nat → Frame α n) :
    (pipe (reverse n) (reverse n) : Node α n n).stream ((), ()) w = w := by
  refine (C15_pipe (reverse n) (reverse n) () () w).trans ?_
  funext k c
  have := c.2
  simp only [Node.stream, Mealy.out, Node.ticks, reverse]
  congr 1
  exact Fin.ext (by simp; omega)

/-- Averaging operations of a field. -/
def fieldAvg (K : Type) [Field K] (n : Nat) : AvgOps K n where
  add := (· + ·)
  mul := (· * ·)
  divN := fun x => x / n
  z := 1 / n

theorem fieldAvg_exact (K : Type) [Field K] (n : Nat) : (fieldAvg K n).Exact where
  div_eq := by intro x; simp [fieldAvg, div_eq_mul_inv]
  distrib := by intro x y; simp [fieldAvg, add_mul]

theorem foldl_const_add {K : Type} [Field K] (n : Nat) (x y : K) :
    Fin.foldl n (fun acc _ => acc + x) y = y + n * x := by
  induction n with
  | zero => simp
  | succ n ih => rw [Fin.foldl_succ_last, ih]; push_cast; ring

/-- `split::<N>() >> join::<N>()` is the identity (exact arithmetic). -/
theorem C15_split_join {K : Type} [Field K] [CharZero K] (n : Nat) (w : Nat → Frame K 1) :
    (pipe (split (n + 1)) (join n (fieldAvg K (n + 1)))).stream ((), ()) w = w := by
  refine (C15_pipe (split (n + 1)) (join n (fieldAvg K (n + 1))) () () w).trans ?_
  funext k c
  have hc : c = 0 := Subsingleton.elim _ _
  subst hc
  simp only [Node.stream, Mealy.out, Node.ticks, split, join, fieldAvg]
  rw [foldl_const_add]
  have : ((n + 1 : Nat) : K) ≠ 0 := by exact_mod_cast Nat.succ_ne_zero n
  push_cast at *
  field_simp
  ring

/-- `multisplit::<M, N>() >> multijoin::<M, N>()` is the identity (exact arithmetic). -/
theorem C15_multisplit_multijoin {K : Type} [Field K] [CharZero K] (m n : Nat) (w : Nat → Frame K m) :
    (pipe (multiSplit m (n + 1)) (multiJoin m n (fieldAvg K (n + 1)))).stream ((), ()) w = w := by
  refine (C15_pipe (multiSplit m (n + 1)) (multiJoin m n (fieldAvg K (n + 1))) () () w).trans ?_
  funext k c
  have e : ∀ i (hi : i < n + 1), (multiSplit m (n + 1) : Node K m _).stream () w k (multiIdx c i hi) = w k c := by
    intro i hi
    have := c.2
    simp only [Node.stream, Mealy.out, Node.ticks, multiSplit, multiIdx]
    congr 1
    exact Fin.ext (by simp [Nat.mod_eq_of_lt this])
  simp only [Node.stream, Mealy.out, Node.ticks, multiJoin, fieldAvg] at *
  simp only [e]
  rw [foldl_const_add]
  have : ((n + 1 : Nat) : K) ≠ 0 := by exact_mod_cast Nat.succ_ne_zero n
  push_cast at *
  field_simp
  ring

/-- Non-vacuity / sanity (a test, not a proof of anything general): a concrete stream through `x >> y`. -/
example : (pipe (Node.ofTick (i := 1) (o := 1) Int (fun _ => 0) (fun s x => (x 0, fun _ => s)))
    (unop (fun x => -x) (multiPass 1))).stream ((5 : Int), ()) (fun k _ => (k : Int)) 3 0 = -2 := by
  rfl

end Fundsp
