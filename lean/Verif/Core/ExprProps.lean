import Verif.Core.Expr
import Verif.Core.Props
import Verif.Core.ResetProps
import Mathlib.Algebra.BigOperators.Fin
import Mathlib.Tactic.Ring
import Mathlib.Tactic.FieldSimp
import Mathlib.Tactic.Linarith
import Mathlib.Tactic.NormNum
import Mathlib.Tactic.Positivity
import Mathlib.Algebra.Order.Field.Rat

/-! C91: graph expressions mean what they say: constants in operators, generated groups, sample access. -/

namespace Fundsp.Expr
open Fundsp

variable {α : Type}

/-! ## Helper lemmas -/

theorem unop_stream {i o} (op : α → α) (X : Node α i o) (s : X.σ) (w : Nat → Frame α i) (k : Nat) (c : Fin o) :
    (unop op X).stream s w k c = op (X.stream s w k c) :=
  congrFun (unop_out op X s w k) c

theorem constant_const (n : Nat) (s : Frame α n) (w : Nat → Frame α 0) (k : Nat) :
    (constant n : Node α 0 n).stream s w k = s := by
  have h : ∀ k, (constant n : Node α 0 n).ticks.st s w k = s := by
    intro k
    induction k with
    | zero => rfl
    | succ k ih => exact ih
  exact h k

theorem foldl_sum [AddCommMonoid α] (n : Nat) (f : Fin n → α) (z : α) :
    Fin.foldl n (fun acc j => acc + f j) z = z + ∑ j : Fin n, f j := by
  induction n with
  | zero => simp
  | succ n ih =>
    rw [Fin.foldl_succ_last, Fin.sum_univ_castSucc]
    rw [ih (fun j => f j.castSucc)]
    rw [add_assoc]

theorem foldl_apply {β : Type} {o : Nat} (op : α → β → α) (n : Nat) (f : Fin n → Fin o → β) (z : Fin o → α) (c : Fin o) :
    Fin.foldl n (fun acc j c => op (acc c) (f j c)) z c = Fin.foldl n (fun acc j => op acc (f j c)) (z c) := by
  induction n with
  | zero => simp
  | succ n ih =>
    rw [Fin.foldl_succ_last, Fin.foldl_succ_last]
    rw [ih (fun j => f j.castSucc)]

theorem chainStream_foldl {i} (X : Node α i i) : ∀ (n : Nat) (s : Fin n → X.σ) (w : Nat → Frame α i),
    chainStream X n s w = (List.ofFn s).foldl (fun v t => X.stream t v) w := by
  intro n
  induction n with
  | zero => intro s w; simp [chainStream]
  | succ n ih =>
    intro s w
    rw [List.ofFn_succ, List.foldl_cons]
    exact ih _ _

/-- Repeated calls of a function that ticks the node once. -/
theorem calls_tick {i o} {A B : Type} (X : Node α i o) (f : X.σ → A → Option (X.σ × B)) (inp : A → Frame α i)
    (out : Frame α o → B) (hf : ∀ s x, f s x = some ((X.tick s (inp x)).1, out (X.tick s (inp x)).2))
    (x : Nat → A) (s : X.σ) (n : Nat) :
    calls f x s n = some (X.ticks.st s (fun k => inp (x k)) n,
      (List.range n).map (fun k => out (X.stream s (fun k => inp (x k)) k))) := by
  induction n with
  | zero => rfl
  | succ n ih =>
    rw [calls, ih, Option.bind_some, hf, Option.map_some, List.range_succ, List.map_append]
    rfl

/-! ## C91: operators with constants -/

/-- `-x` negates every output of `x`. -/
theorem C91_neg [Neg α] {i o} (X : Node α i o) (s : X.σ) (w : Nat → Frame α i) (k : Nat) (c : Fin o) :
    (neg X).stream s w k c = -(X.stream s w k c) := unop_stream _ X s w k c

/-- `x + c`, `x - c`, `x * c`, `c + x`, `c - x`, `c * x` apply the named operation with the constant to every output.
The laws assumed hold for floating point numbers. -/
theorem C91_scalar [Add α] [Sub α] [Mul α] [Neg α] (addc : ∀ a b : α, a + b = b + a) (mulc : ∀ a b : α, a * b = b * a)
    (subn : ∀ a b : α, a + -b = a - b) {i o} (X : Node α i o) (s : X.σ) (w : Nat → Frame α i) (v : α) (k : Nat) (c : Fin o) :
    (addScalar X v).stream s w k c = X.stream s w k c + v ∧
    (subScalar X v).stream s w k c = X.stream s w k c - v ∧
    (mulScalar X v).stream s w k c = X.stream s w k c * v ∧
    (scalarAdd v X).stream s w k c = v + X.stream s w k c ∧
    (scalarSub v X).stream s w k c = v - X.stream s w k c ∧
    (scalarMul v X).stream s w k c = v * X.stream s w k c := by
  refine ⟨unop_stream _ X s w k c, ?_, unop_stream _ X s w k c, ?_, ?_, ?_⟩
  · exact (unop_stream _ X s w k c).trans (subn _ _)
  · exact (unop_stream _ X s w k c).trans (addc _ _)
  · exact (unop_stream _ X s w k c).trans ((addc _ _).trans (subn _ _))
  · exact (unop_stream _ X s w k c).trans (mulc _ _)

/-- A constant in an operator is the same as the constant node: `x + c` is `x + dc((c, ..., c))`, and likewise for
the other operators. -/
theorem C91_scalar_node [Add α] [Sub α] [Mul α] [Neg α] (addc : ∀ a b : α, a + b = b + a) (mulc : ∀ a b : α, a * b = b * a)
    (subn : ∀ a b : α, a + -b = a - b) {i o} (X : Node α i o) (s : X.σ) (w : Nat → Frame α i)
    (w0 : Nat → Frame α (i + 0)) (w1 : Nat → Frame α (0 + i))
    (h0 : ∀ k (d : Fin i) (e : Fin (i + 0)), e.1 = d.1 → w0 k e = w k d)
    (h1 : ∀ k (d : Fin i) (e : Fin (0 + i)), e.1 = d.1 → w1 k e = w k d) (v : α) (k : Nat) (c : Fin o) :
    (addScalar X v).stream s w k c = (binop (fun a b => a + b) X (constant o)).stream (s, fun _ => v) w0 k c ∧
    (subScalar X v).stream s w k c = (binop (fun a b => a - b) X (constant o)).stream (s, fun _ => v) w0 k c ∧
    (mulScalar X v).stream s w k c = (binop (fun a b => a * b) X (constant o)).stream (s, fun _ => v) w0 k c ∧
    (scalarAdd v X).stream s w k c = (binop (fun a b => a + b) (constant o) X).stream (fun _ => v, s) w1 k c ∧
    (scalarSub v X).stream s w k c = (binop (fun a b => a - b) (constant o) X).stream (fun _ => v, s) w1 k c ∧
    (scalarMul v X).stream s w k c = (binop (fun a b => a * b) (constant o) X).stream (fun _ => v, s) w1 k c := by
  have e0 : (fun k d => w0 k (Fin.castAdd 0 d)) = w := by funext k d; exact h0 k d _ rfl
  have e1 : (fun k d => w1 k (Fin.natAdd 0 d)) = w := by funext k d; exact h1 k d _ (by simp)
  have L : ∀ op : α → α → α, (binop op X (constant o)).stream (s, fun _ => v) w0 k c = op (X.stream s w k c) v := by
    intro op
    have := C15_binop op X (constant o) s (fun _ => v) w0 k c
    rw [constant_const, e0] at this; exact this
  have R : ∀ op : α → α → α, (binop op (constant o) X).stream (fun _ => v, s) w1 k c = op v (X.stream s w k c) := by
    intro op
    have := C15_binop op (constant o) X (fun _ => v) s w1 k c
    rw [constant_const, e1] at this; exact this
  obtain ⟨a, b, d, e, f, g⟩ := C91_scalar addc mulc subn X s w v k c
  exact ⟨a.trans (L _).symm, b.trans (L _).symm, d.trans (L _).symm, e.trans (R _).symm, f.trans (R _).symm, g.trans (R _).symm⟩

/-- `add(c)`, `sub(c)`, `mul(c)`: each channel of the input plus, minus or times its own constant. -/
theorem C91_opcode [Add α] [Sub α] [Mul α] (n : Nat) (v : Frame α n) (w : Nat → Frame α (n + 0)) (k : Nat) (c : Fin n)
    (d : Fin (n + 0)) (h : d.1 = c.1) :
    (addOp n).stream ((), v) w k c = w k d + v c ∧
    (subOp n).stream ((), v) w k c = w k d - v c ∧
    (mulOp n).stream ((), v) w k c = w k d * v c := by
  have e : d = Fin.castAdd 0 c := Fin.ext h
  have L : ∀ op : α → α → α, (binop op (multiPass n) (constant n)).stream ((), v) w k c = op (w k d) (v c) := by
    intro op
    have := C15_binop op (multiPass n) (constant n) () v w k c
    rw [constant_const, multiPass_stream] at this; rw [e]; exact this
  exact ⟨L _, L _, L _⟩

/-! ## C91: generated groups -/

/-- The arguments given to a fractional generator of `n ≥ 2` nodes start at 0, end at 1 and are equally spaced;
a single node is given 1/2. -/
theorem C91_fractional (n : Nat) :
    (n = 1 → frac n 0 = 1 / 2) ∧
    (2 ≤ n → frac n 0 = 0 ∧ frac n (n - 1) = 1 ∧
      ∀ i, i + 1 < n → frac n (i + 1) - frac n i = 1 / ((n : Rat) - 1)) ∧
    (∀ i, i < n → 0 ≤ frac n i ∧ frac n i ≤ 1) ∧
    (∀ i, i < n → frac n (n - 1 - i) = 1 - frac n i) := by
  have c : ∀ m : Nat, 2 ≤ m → ((m - 1 : Nat) : Rat) = (m : Rat) - 1 := by
    intro m hm; rw [Nat.cast_sub (by omega)]; simp
  have p : ∀ m : Nat, 2 ≤ m → (0 : Rat) < (m : Rat) - 1 := by
    intro m hm; have : (2 : Rat) ≤ m := by exact_mod_cast hm
    linarith
  refine ⟨?_, ?_, ?_, ?_⟩
  · rintro rfl; rfl
  · intro h
    have := p n h
    have h1 : n > 1 := by omega
    refine ⟨by simp [frac, h1], ?_, ?_⟩
    · simp only [frac, h1, if_true]; rw [c n h]; field_simp
    · intro i hi
      simp only [frac, h1, if_true]; rw [c n h]; push_cast; field_simp; ring
  · intro i hi
    by_cases h : n > 1
    · have := p n (by omega)
      simp only [frac, h, if_true]; rw [c n (by omega)]
      refine ⟨by positivity, ?_⟩
      rw [div_le_one this]
      have : (i : Rat) + 1 ≤ n := by exact_mod_cast hi
      linarith
    · simp only [frac, h, if_false]; norm_num
  · intro i hi
    by_cases h : n > 1
    · have := p n (by omega)
      simp only [frac, h, if_true]
      rw [Nat.cast_sub (by omega : i ≤ n - 1), c n (by omega)]
      field_simp
    · simp only [frac, h, if_false]; norm_num

/-- A group made by an indexed generator holds, at place `i`, the node made by `f(i)`; a fractional group the node
made from the `i`-th of the equally spaced points. (The hash given to each place is described by C21.) -/
theorem C91_generators {S : Type} (n : Nat) (rehash : Nat → S → S) (f : Nat → S) (g : Rat → S) (i : Fin n) :
    indexed n rehash f i = rehash i.1 (f i.1) ∧
    (n = 1 → fractional n rehash g i = rehash 0 (g (1 / 2))) ∧
    (2 ≤ n → fractional n rehash g i = rehash i.1 (g ((i.1 : Rat) / ((n : Rat) - 1)))) := by
  refine ⟨rfl, ?_, ?_⟩
  · rintro rfl
    have : i.1 = 0 := by omega
    simp only [fractional, this]; rfl
  · intro h
    have h1 : n > 1 := by omega
    simp only [fractional, frac, h1, if_true]
    rw [Nat.cast_sub (by omega)]; simp

/-- `busi`, `busf`: all nodes get the input, the outputs are summed. -/
theorem C91_bus [AddCommMonoid α] (n : Nat) {i o} (X : Node α i o) (s : Fin (n + 1) → X.σ) (w : Nat → Frame α i)
    (k : Nat) (c : Fin o) :
    (multiBus (fun a b => a + b) 0 n X).stream s w k c = ∑ j : Fin (n + 1), X.stream (s j) w k c := by
  have h := congrFun (multiBus_out (fun a b : α => a + b) 0 n X s w k) c
  refine h.trans ?_
  rw [foldl_apply, foldl_sum, zero_add]; rfl

/-- `stacki`, `stackf`: node `q` gets inputs `q * i ...` and makes outputs `q * o ...`, where `i` and `o` are its
numbers of inputs and outputs. -/
theorem C91_stack (n : Nat) {i o} (X : Node α i o) (s : Fin n → X.σ) (w : Nat → Frame α (i * n)) (q : Fin n)
    (v : Nat → Frame α i) (hv : ∀ k (d : Fin i) (e : Fin (i * n)), e.1 = q.1 * i + d.1 → v k d = w k e)
    (k : Nat) (r : Fin o) (c : Fin (o * n)) (hc : c.1 = q.1 * o + r.1) :
    (multiStack n X).stream s w k c = X.stream (s q) v k r := by
  have h := congrFun (multiStack_out n X s w k) c
  have hq : nodeOf c = q := Fin.ext (by
    show c.1 / o = q.1
    have := r.2
    rw [hc, Nat.mul_comm, Nat.mul_add_div (by omega), Nat.div_eq_of_lt r.2]; omega)
  have hr : chanOf c = r := Fin.ext (by
    show c.1 % o = r.1
    rw [hc, Nat.mul_comm, Nat.mul_add_mod, Nat.mod_eq_of_lt r.2])
  refine h.trans ?_
  show X.ticks.out (s (nodeOf c)) (fun k => (w k).slice (nodeOf c)) k (chanOf c) = _
  rw [hq, hr]
  have : (fun k => (w k).slice q) = v := by
    funext k d
    exact (hv k d _ (by simp [multiIdx]; omega)).symm
  rw [this]; rfl

/-- `branchi`, `branchf`: all nodes get the input, node `q` makes outputs `q * o ...`. -/
theorem C91_branch (n : Nat) {i o} (X : Node α i o) (s : Fin n → X.σ) (w : Nat → Frame α i) (q : Fin n)
    (k : Nat) (r : Fin o) (c : Fin (o * n)) (hc : c.1 = q.1 * o + r.1) :
    (multiBranch n X).stream s w k c = X.stream (s q) w k r := by
  have h := congrFun (multiBranch_out n X s w k) c
  have hq : nodeOf c = q := Fin.ext (by
    show c.1 / o = q.1
    have := r.2
    rw [hc, Nat.mul_comm, Nat.mul_add_div (by omega), Nat.div_eq_of_lt r.2]; omega)
  have hr : chanOf c = r := Fin.ext (by
    show c.1 % o = r.1
    rw [hc, Nat.mul_comm, Nat.mul_add_mod, Nat.mod_eq_of_lt r.2])
  refine h.trans ?_
  show X.ticks.out (s (nodeOf c)) w k (chanOf c) = _
  rw [hq, hr]; rfl

/-- `sumi`, `sumf`: node `q` gets inputs `q * i ...`, the outputs are summed. -/
theorem C91_sum [AddCommMonoid α] (n : Nat) {i o} (X : Node α i o) (s : Fin (n + 1) → X.σ)
    (w : Nat → Frame α (i * (n + 1))) (v : Fin (n + 1) → Nat → Frame α i)
    (hv : ∀ q k (d : Fin i) (e : Fin (i * (n + 1))), e.1 = q.1 * i + d.1 → v q k d = w k e) (k : Nat) (c : Fin o) :
    (reduce (fun a b => a + b) n X).stream s w k c = ∑ q : Fin (n + 1), X.stream (s q) (v q) k c := by
  have e : ∀ q, (fun k => (w k).slice q) = v q := by
    intro q; funext k d
    exact (hv q k d _ (by simp [multiIdx]; omega)).symm
  have h := congrFun (reduce_out (fun a b : α => a + b) n X s w k) c
  refine h.trans ?_
  rw [foldl_apply, foldl_sum, Fin.sum_univ_succ]
  simp only [e]; rfl

/-- `pipei`, `pipef`: the nodes in order, each fed with the output of the one before. -/
theorem C91_pipe (n : Nat) {i} (X : Node α i i) (s : Fin (n + 1) → X.σ) (w : Nat → Frame α i) :
    (chain n X).stream s w = (List.ofFn s).foldl (fun v t => X.stream t v) w := by
  rw [← chainStream_foldl]
  funext k
  exact chain_out n X s w k

/-! ## C91: sample access -/

/-- `get_mono` called `n` times on a generator with one output returns its next `n` samples; with two outputs,
their averages. Both interfaces agree. Anything else panics. -/
theorem C91_get_mono [Add α] (half : α → α) (zero : α) :
    (∀ (X : Node α 0 1) (s : X.σ) (n : Nat) (w : Nat → Frame α 0),
      (calls (fun s (_ : Unit) => getMono half zero X s) (fun _ => ()) s n).map Prod.snd =
        some ((List.range n).map fun k => X.stream s w k 0)) ∧
    (∀ (X : Node α 0 2) (s : X.σ) (n : Nat) (w : Nat → Frame α 0),
      (calls (fun s (_ : Unit) => getMono half zero X s) (fun _ => ()) s n).map Prod.snd =
        some ((List.range n).map fun k => half (X.stream s w k 0 + X.stream s w k 1))) ∧
    (∀ (i o : Nat) (X : Node α i o) (s : X.σ), getMono half zero X s = none ↔ ¬ (i = 0 ∧ (o = 1 ∨ o = 2))) ∧
    (∀ (i o : Nat) (X : Node α i o) (s : X.σ), unitGetMono half zero X s = getMono half zero X s) := by
  refine ⟨?_, ?_, ?_, ?_⟩
  · intro X s n w
    rw [calls_tick X _ (fun _ => fun _ => zero) (fun y => y 0) (by intro s x; simp [getMono])]
    have : (fun k : Nat => (fun _ => zero : Frame α 0)) = w := by funext k c; exact c.elim0
    rw [this]; rfl
  · intro X s n w
    rw [calls_tick X _ (fun _ => fun _ => zero) (fun y => half (y 0 + y 1)) (by intro s x; simp [getMono])]
    have : (fun k : Nat => (fun _ => zero : Frame α 0)) = w := by funext k c; exact c.elim0
    rw [this]; rfl
  · intro i o X s
    unfold getMono
    split
    · rename_i h
      simp only [h, and_self, not_true_eq_false, iff_false]
      split <;> simp
    · rename_i h; simp [h]
  · intro i o X s
    unfold unitGetMono getMono
    by_cases hi : i = 0
    · by_cases h1 : o = 1
      · simp [hi, h1]
      · by_cases h2 : o = 2
        · simp [hi, h2]
        · simp [hi, h1, h2]
    · simp [hi]

/-- `get_stereo` called `n` times returns the next `n` pairs of samples; a single output is duplicated. -/
theorem C91_get_stereo (zero : α) :
    (∀ (X : Node α 0 1) (s : X.σ) (n : Nat) (w : Nat → Frame α 0),
      (calls (fun s (_ : Unit) => getStereo zero X s) (fun _ => ()) s n).map Prod.snd =
        some ((List.range n).map fun k => (X.stream s w k 0, X.stream s w k 0))) ∧
    (∀ (X : Node α 0 2) (s : X.σ) (n : Nat) (w : Nat → Frame α 0),
      (calls (fun s (_ : Unit) => getStereo zero X s) (fun _ => ()) s n).map Prod.snd =
        some ((List.range n).map fun k => (X.stream s w k 0, X.stream s w k 1))) ∧
    (∀ (i o : Nat) (X : Node α i o) (s : X.σ), getStereo zero X s = none ↔ ¬ (i = 0 ∧ (o = 1 ∨ o = 2))) ∧
    (∀ (i o : Nat) (X : Node α i o) (s : X.σ), unitGetStereo zero X s = getStereo zero X s) := by
  refine ⟨?_, ?_, ?_, ?_⟩
  · intro X s n w
    rw [calls_tick X _ (fun _ => fun _ => zero) (fun y => (y 0, y 0)) (by intro s x; simp [getStereo])]
    have : (fun k : Nat => (fun _ => zero : Frame α 0)) = w := by funext k c; exact c.elim0
    rw [this]; rfl
  · intro X s n w
    rw [calls_tick X _ (fun _ => fun _ => zero) (fun y => (y 0, y 1)) (by intro s x; simp [getStereo])]
    have : (fun k : Nat => (fun _ => zero : Frame α 0)) = w := by funext k c; exact c.elim0
    rw [this]; rfl
  · intro i o X s
    unfold getStereo
    split
    · rename_i h; simp [h]
    · rename_i h; simp [h]
  · intro i o X s
    unfold unitGetStereo getStereo
    by_cases hi : i = 0
    · by_cases h1 : o = 1
      · subst h1; simp [hi]
      · by_cases h2 : o = 2
        · subst h2; simp [hi]
        · simp [hi, h1, h2]
    · simp [hi]

/-- `filter_mono` and `filter_stereo` called on the successive samples of a signal return the successive samples of
the filtered signal; they panic unless the channel counts match. -/
theorem C91_filter :
    (∀ (X : Node α 1 1) (s : X.σ) (x : Nat → α) (n : Nat),
      (calls (fun s a => filterMono X s a) x s n).map Prod.snd =
        some ((List.range n).map fun k => X.stream s (fun k _ => x k) k 0)) ∧
    (∀ (X : Node α 2 2) (s : X.σ) (w : Nat → Frame α 2) (n : Nat),
      (calls (fun s (a : α × α) => filterStereo X s a.1 a.2) (fun k => (w k 0, w k 1)) s n).map Prod.snd =
        some ((List.range n).map fun k => (X.stream s w k 0, X.stream s w k 1))) ∧
    (∀ (i o : Nat) (X : Node α i o) (s : X.σ) (x : α), filterMono X s x = none ↔ ¬ (i = 1 ∧ o = 1)) ∧
    (∀ (i o : Nat) (X : Node α i o) (s : X.σ) (x y : α), filterStereo X s x y = none ↔ ¬ (i = 2 ∧ o = 2)) := by
  refine ⟨?_, ?_, ?_, ?_⟩
  · intro X s x n
    rw [calls_tick X _ (fun a => fun _ => a) (fun y => y 0) (by intro s x; simp [filterMono])]
    rfl
  · intro X s w n
    rw [calls_tick X _ (fun a : α × α => fun c => if c.1 = 0 then a.1 else a.2) (fun y => (y 0, y 1))
      (by intro s x; simp [filterStereo])]
    have : (fun k : Nat => (fun c : Fin 2 => if c.1 = 0 then w k 0 else w k 1 : Frame α 2)) = w := by
      funext k c
      match c with
      | ⟨0, _⟩ => rfl
      | ⟨1, _⟩ => rfl
    show some ((List.range n).map fun k => (X.stream s (fun k c => if c.1 = 0 then w k 0 else w k 1) k 0,
      X.stream s (fun k c => if c.1 = 0 then w k 0 else w k 1) k 1)) = _
    rw [this]
  · intro i o X s x; unfold filterMono; split <;> simp_all
  · intro i o X s x y; unfold filterStereo; split <;> simp_all

/-! ## Concrete cases -/

/-- One-sample delay with its initial memory. -/
def exDelay : Node Int 1 1 := Node.ofTick Int (fun _ => 0) (fun s x => (x 0, fun _ => s))
/-- Counter with two outputs, the count and its negation. -/
def exCount : Node Int 0 2 := Node.ofTick Int (fun _ => 0) (fun s _ => (s + 1, fun c => if c.1 = 0 then s else -s))

/-- `5 - delay`: at sample 2 of the input 10, 20, 30, ... the result is 5 - 20. -/
example : (scalarSub (5 : Int) exDelay).stream (7 : Int) (fun k _ => 10 * (k + 1)) 2 0 = 5 - 20 := by decide
/-- The laws assumed hold for integers. -/
example : (∀ a b : Int, a + b = b + a) ∧ (∀ a b : Int, a * b = b * a) ∧ (∀ a b : Int, a + -b = a - b) :=
  ⟨Int.add_comm, Int.mul_comm, fun _ _ => rfl⟩
/-- Three delays with different memories in a stack, a bus and a pipe. -/
example : (multiStack 3 exDelay).stream (fun q => (100 * (q.1 : Int) : Int)) (fun k c => 10 * k + c.1) 0 2 = 200 ∧
    (multiBus (fun a b => a + b) 0 2 exDelay).stream (fun q => (100 * (q.1 : Int) : Int)) (fun k _ => (k : Int)) 0 0 = 300 ∧
    (chain 2 exDelay).stream (fun q => (100 * (q.1 : Int) : Int)) (fun k _ => (k : Int)) 1 0 = 100 := by decide
/-- Arguments of a fractional generator of five nodes. -/
example : (List.range 5).map (frac 5) = [0, 1 / 4, 1 / 2, 3 / 4, 1] := by decide +kernel
/-- Four samples of a two-channel generator. -/
example : (calls (fun s (_ : Unit) => getStereo 0 exCount s) (fun _ => ()) (3 : Int) 4).map Prod.snd =
    some [(3, -3), (4, -4), (5, -5), (6, -6)] := by decide
example : (calls (fun s a => filterMono exDelay s a) (fun k => (k : Int) * 2) (9 : Int) 3).map Prod.snd = some [9, 0, 2] := by
  decide

end Fundsp.Expr
