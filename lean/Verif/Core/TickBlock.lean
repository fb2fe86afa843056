import Verif.Core.NodeLemmas
import Verif.Core.Combinators

/-! # Block processing equals ticking: closure under the combinators (helper lemmas for C14, C15) -/

namespace Fundsp
variable {α : Type}

/-- The machine given by repeated `tick`. -/
@[reducible] def Node.ticks {i o} (n : Node α i o) : Mealy α i o := { S := n.σ, step := n.tick }

/-- `process` is indistinguishable from repeated `tick` (states may differ in unobservable ways). -/
def TickBlock {i o} (n : Node α i o) : Prop :=
  ∃ R : n.σ → n.σ → Prop, (∀ s, R s s) ∧ (∀ s t, R s t → R (n.reset s) (n.reset t)) ∧
    Implements n n.ticks R

/-- As `TickBlock`, in the states with `P`. -/
def TickBlockOn {i o} (n : Node α i o) (P : n.σ → Prop) : Prop :=
  ∃ R : n.σ → n.σ → Prop, (∀ s, P s → R s s) ∧ (∀ s t, R s t → R (n.reset s) (n.reset t)) ∧
    Implements n n.ticks R

theorem TickBlock.on {i o} {n : Node α i o} (h : TickBlock n) (P : n.σ → Prop) : TickBlockOn n P := by
  obtain ⟨R, h1, h2⟩ := h; exact ⟨R, fun s _ => h1 s, h2⟩

theorem TickBlockOn.all {i o} {n : Node α i o} {P : n.σ → Prop} (h : TickBlockOn n P) (hP : ∀ s, P s) : TickBlock n := by
  obtain ⟨R, h1, h2⟩ := h; exact ⟨R, fun s => h1 s (hP s), h2⟩

theorem exec_replicate_tick {i o} (n : Node α i o) (w : Nat → Frame α i) (size : Nat) (cs : List (Call α i o)) :
    ∀ t s, n.exec w (List.replicate size .tick ++ cs) t s =
      ((n.exec w cs (t + size) (n.ticks.st s (fun k => w (t + k)) size)).1,
       (List.range size).map (n.ticks.out s (fun k => w (t + k))) ++
        (n.exec w cs (t + size) (n.ticks.st s (fun k => w (t + k)) size)).2) := by
  induction size with
  | zero => intro t s; rfl
  | succ size ih =>
    intro t s
    have e1 : n.ticks.st s (fun k => w (t + k)) (size + 1)
        = n.ticks.st (n.tick s (w t)).1 (fun k => w (t + 1 + k)) size := by
      have := n.ticks.st_add s (fun k => w (t + k)) 1 size
      rw [Nat.add_comm size 1]; simp only [Nat.add_assoc]; exact this
    have e2 : ∀ j, n.ticks.out s (fun k => w (t + k)) (j + 1)
        = n.ticks.out (n.tick s (w t)).1 (fun k => w (t + 1 + k)) j := by
      intro j
      have := n.ticks.out_add s (fun k => w (t + k)) 1 j
      rw [Nat.add_comm j 1]; simp only [Nat.add_assoc]; exact this
    simp only [List.replicate_succ, List.cons_append, Node.exec]
    rw [ih, e1, List.range_succ_eq_map, List.map_cons, List.map_map]
    have e3 : (List.range size).map (n.ticks.out s (fun k => w (t + k)) ∘ Nat.succ)
        = (List.range size).map (n.ticks.out (n.tick s (w t)).1 (fun k => w (t + 1 + k))) := by
      apply List.map_congr_left; intro j _; exact e2 j
    rw [e3, Nat.add_assoc t 1 size, Nat.add_comm 1 size]
    rfl

/-- Any schedule of ticks, blocks and resets yields the same frames as the schedule with all blocks unrolled
into ticks. -/
theorem TickBlockOn.exec {i o} {n : Node α i o} {P : n.σ → Prop} (h : TickBlockOn n P) (w : Nat → Frame α i) (cs : List (Call α i o))
    (hc : ∀ c ∈ cs, c.ok) (t : Nat) (s : n.σ) (hs : P s) : (n.exec w cs t s).2 = (n.exec w (unblock cs) t s).2 := by
  obtain ⟨R, hrefl, hreset, hI⟩ := h
  suffices ∀ t s m, R s m → (n.exec w cs t s).2 = (n.exec w (unblock cs) t m).2 from this t s s (hrefl s hs)
  induction cs with
  | nil => intros; rfl
  | cons c cs ih =>
    have ihc := ih (fun c' h' => hc c' (List.mem_cons_of_mem _ h'))
    intro t s m hR
    cases c with
    | tick =>
      obtain ⟨h1, h2⟩ := hI.tick s m (w t) hR
      simp only [Node.exec, unblock]
      rw [ihc _ _ _ h1, h2]
    | reset =>
      simp only [Node.exec, unblock]
      exact ihc _ _ _ (hreset _ _ hR)
    | block size tail old g =>
      have hs : size ≤ 64 := hc _ (List.mem_cons_self ..)
      obtain ⟨h1, h2⟩ := hI.process g s m size (blockInput w t size tail) old hs hR
      have hin : ∀ j, j < size → (blockInput w t size tail).frame j = w (t + j) := by
        intro j hj; funext ch; simp [Buf.frame, blockInput, hj]
      rw [n.ticks.st_congr m _ (fun k => w (t + k)) size hin] at h1
      simp only [Node.exec, unblock]
      rw [exec_replicate_tick, ihc _ _ _ h1]
      congr 1
      apply List.map_congr_left
      intro k hk
      have hk' := List.mem_range.1 hk
      rw [h2 k hk']
      exact n.ticks.out_congr m _ _ k (fun j hj => hin j (by omega))
/-- Output stream of a node under repeated `tick`. -/
def Node.stream {i o} (n : Node α i o) (s : n.σ) (w : Nat → Frame α i) : Nat → Frame α o := n.ticks.out s w

theorem Implements.proc {i o} {X : Node α i o} {R : X.σ → X.σ → Prop} (h : Implements X X.ticks R)
    {s s' : X.σ} (hR : R s s') {size : Nat} (hs : size ≤ 64) (g : Garb α) (inp : Buf α i) (out : Buf α o)
    (w : Nat → Frame α i) (hw : ∀ j, j < size → inp.frame j = w j) :
    R (X.process g s size inp out).1 (X.ticks.st s' w size) ∧
    ∀ k, k < size → (X.process g s size inp out).2.frame k = X.ticks.out s' w k := by
  obtain ⟨a, b⟩ := h.process g s s' size inp out hs hR
  refine ⟨?_, ?_⟩
  · rw [← X.ticks.st_congr s' inp.frame w size hw]; exact a
  · intro k hk
    rw [← X.ticks.out_congr s' inp.frame w k (fun j hj => hw j (by omega))]; exact b k hk

theorem congr2 {β γ δ : Type} (f : β → γ → δ) {a a' : β} {b b' : γ} (h : a = a') (k : b = b') :
    f a b = f a' b' := by subst h; subst k; rfl

/-- Implementation lemma for stateless nodes. -/
theorem tickBlock_unit {i o} (X : Node α i o) (f : Frame α i → Frame α o)
    (ht : ∀ s x, X.tick s x = (s, f x))
    (hp : ∀ g s size inp out, size ≤ 64 → (X.process g s size inp out).1 = s ∧
      ∀ k, k < size → (X.process g s size inp out).2.frame k = f (inp.frame k)) : TickBlock X := by
  refine ⟨Eq, fun _ => rfl, (fun _ _ h => congrArg _ h), ⟨?_, ?_⟩⟩
  · rintro s m x rfl; exact ⟨rfl, rfl⟩
  · rintro g s m size inp out hs rfl
    have hst : ∀ k, X.ticks.st s inp.frame k = s := by
      intro k; induction k with
      | zero => rfl
      | succ k ih => simp only [Mealy.st, Node.ticks] at *; rw [ih, ht]
    obtain ⟨a, b⟩ := hp g s size inp out hs
    refine ⟨by rw [a, hst], ?_⟩
    intro k hk
    rw [b k hk]
    simp only [Mealy.out]; rw [hst]; rw [ht]

theorem setItems_frame {n size k : Nat} (new old : Buf α n) (hk : k < size) :
    (setItems size new old).frame k = new.frame k := by
  funext c; simp [Buf.frame, setItems, lt_eight_simdItems hk]

theorem tickBlock_multiPass (n : Nat) : TickBlock (multiPass n : Node α n n) :=
  tickBlock_unit _ id (fun _ _ => rfl) (fun _ _ _ _ _ _ => ⟨rfl, fun _ hk => setItems_frame _ _ hk⟩)

theorem tickBlock_sink (n : Nat) : TickBlock (sink n : Node α n 0) :=
  tickBlock_unit _ (fun _ c => c.elim0) (fun _ _ => rfl)
    (fun _ _ _ _ _ _ => ⟨rfl, fun _ _ => by funext c; exact c.elim0⟩)

theorem tickBlock_constant (n : Nat) : TickBlock (constant n : Node α 0 n) := by
  refine ⟨Eq, fun _ => rfl, (fun _ _ h => congrArg _ h), ⟨?_, ?_⟩⟩
  · rintro s m x rfl; exact ⟨rfl, rfl⟩
  · rintro g s m size inp out hs rfl
    have hst : ∀ k, (constant n : Node α 0 n).ticks.st s inp.frame k = s := by
      intro k; induction k with
      | zero => rfl
      | succ k ih => simp only [Mealy.st, Node.ticks, constant] at *; rw [ih]
    refine ⟨(hst _).symm, ?_⟩
    intro k hk
    simp only [Mealy.out]; rw [hst]
    exact setItems_frame _ _ hk

theorem tickBlock_split (n : Nat) : TickBlock (split n : Node α 1 n) :=
  tickBlock_unit _ (fun x _ => x 0) (fun _ _ => rfl)
    (fun _ _ _ _ _ _ => ⟨rfl, fun _ hk => setItems_frame _ _ hk⟩)

theorem tickBlock_multiSplit (m n : Nat) : TickBlock (multiSplit m n : Node α m (m * n)) :=
  tickBlock_unit _ (fun x => ((multiSplit m n : Node α m (m * n)).tick () x).2) (fun _ _ => rfl)
    (fun _ _ _ _ _ _ => ⟨rfl, fun _ hk => setItems_frame _ _ hk⟩)

theorem tickBlock_reverse (n : Nat) : TickBlock (reverse n : Node α n n) :=
  tickBlock_unit _ (fun x => ((reverse n : Node α n n).tick () x).2) (fun _ _ => rfl)
    (fun _ _ _ _ _ _ => ⟨rfl, fun _ hk => setItems_frame _ _ hk⟩)

theorem tickBlock_ofTick {i o} {σ : Type} (reset : σ → σ) (tick : σ → Frame α i → σ × Frame α o) :
    TickBlock (Node.ofTick σ reset tick) :=
  ⟨Eq, fun _ => rfl, (fun _ _ h => congrArg _ h), implements_ofTick reset tick (Node.ofTick σ reset tick).ticks Eq
    (by rintro s m x rfl; exact ⟨rfl, rfl⟩)⟩

theorem tickBlock_impulse (n : Nat) (one zero : α) : TickBlock (impulse n one zero) := tickBlock_ofTick _ _
theorem tickBlock_mapNode {i o} (f : Frame α i → Frame α o) : TickBlock (mapNode f) := tickBlock_ofTick _ _

/-- Folding `setItems` updates over samples inside the block. -/
theorem foldl_setItems_frame {n o size k : Nat} (hk : k < size) (f : Fin n → Frame α o → Frame α o)
    (F : Fin n → Buf α o → Buf α o)
    (hF : ∀ i acc, (F i acc).frame k = f i (acc.frame k)) (init : Buf α o) :
    (Fin.foldl n (fun acc i => setItems size (F i acc) acc) init).frame k
      = Fin.foldl n (fun acc i => f i acc) (init.frame k) := by
  induction n with
  | zero => simp
  | succ n ih =>
    rw [Fin.foldl_succ_last, Fin.foldl_succ_last, setItems_frame _ _ hk, hF]
    rw [ih (fun i => f i.castSucc) (fun i => F i.castSucc) (fun i acc => hF _ _)]

/-- Averaging by scaling each term equals summing and dividing (true in a field; the assumption
excludes IEEE rounding). -/
structure AvgOps.Exact {n : Nat} (ops : AvgOps α n) : Prop where
  div_eq : ∀ x, ops.divN x = ops.mul x ops.z
  distrib : ∀ x y, ops.mul (ops.add x y) ops.z = ops.add (ops.mul x ops.z) (ops.mul y ops.z)

theorem avg_fold {n N : Nat} (ops : AvgOps α N) (h : ops.Exact) (f : Fin n → α) (x0 : α) :
    Fin.foldl n (fun acc i => ops.add acc (ops.mul (f i) ops.z)) (ops.mul x0 ops.z)
      = ops.divN (Fin.foldl n (fun acc i => ops.add acc (f i)) x0) := by
  rw [h.div_eq]
  induction n with
  | zero => simp
  | succ n ih =>
    rw [Fin.foldl_succ_last, Fin.foldl_succ_last, h.distrib, ih (fun i => f i.castSucc)]

theorem foldl_channel {n o : Nat} (g : Fin n → Fin o → α → α) (init : Frame α o) (c : Fin o) :
    Fin.foldl n (fun (acc : Frame α o) i => fun c => g i c (acc c)) init c
      = Fin.foldl n (fun acc i => g i c acc) (init c) := by
  induction n with
  | zero => simp
  | succ n ih =>
    rw [Fin.foldl_succ_last, Fin.foldl_succ_last]
    rw [ih (fun i => g i.castSucc)]

theorem tickBlock_join (n : Nat) (ops : AvgOps α (n + 1)) (h : ops.Exact) : TickBlock (join n ops) := by
  refine tickBlock_unit _ (fun x => ((join n ops).tick () x).2) (fun _ _ => rfl) ?_
  intro g s size inp out _
  refine ⟨rfl, ?_⟩
  intro k hk
  simp only [join]
  rw [foldl_setItems_frame hk (fun i (acc : Frame α 1) c => ops.add (acc c) (ops.mul (inp i.succ k) ops.z))
    (fun i acc c k => ops.add (acc c k) (ops.mul (inp i.succ k) ops.z)) (fun _ _ => rfl)]
  rw [setItems_frame _ _ hk]
  funext c
  rw [foldl_channel (fun i _ acc => ops.add acc (ops.mul (inp i.succ k) ops.z))]
  exact avg_fold ops h (fun i => inp i.succ k) (inp 0 k)

theorem tickBlock_multiJoin (m n : Nat) (ops : AvgOps α (n + 1)) (h : ops.Exact) :
    TickBlock (multiJoin m n ops) := by
  refine tickBlock_unit _ (fun x => ((multiJoin m n ops).tick () x).2) (fun _ _ => rfl) ?_
  intro g s size inp out _
  refine ⟨rfl, ?_⟩
  intro k hk
  simp only [multiJoin]
  rw [foldl_setItems_frame hk
    (fun i (acc : Frame α m) j => ops.add (acc j) (ops.mul (inp (multiIdx j (i.1 + 1) (by omega)) k) ops.z))
    (fun i acc j k => ops.add (acc j k) (ops.mul (inp (multiIdx j (i.1 + 1) (by omega)) k) ops.z))
    (fun _ _ => rfl)]
  rw [setItems_frame _ _ hk]
  funext c
  rw [foldl_channel (fun i c acc => ops.add acc (ops.mul (inp (multiIdx c (i.1 + 1) (by omega)) k) ops.z))]
  exact avg_fold ops h (fun i => inp (multiIdx c (i.1 + 1) (by omega)) k) (inp (multiIdx c 0 (by omega)) k)

/-! ## Streams of the binary combinators -/

theorem pipe_st {i j o} (X : Node α i j) (Y : Node α j o) (s t w) (k : Nat) :
    (pipe X Y).ticks.st (s, t) w k = (X.ticks.st s w k, Y.ticks.st t (X.stream s w) k) := by
  induction k with
  | zero => rfl
  | succ k ih => simp only [Mealy.st]; rw [ih]; rfl

theorem pipe_out {i j o} (X : Node α i j) (Y : Node α j o) (s t w) (k : Nat) :
    (pipe X Y).ticks.out (s, t) w k = Y.ticks.out t (X.stream s w) k := by
  simp only [Mealy.out]; rw [pipe_st]; rfl

theorem binop_st {i j o} (op : α → α → α) (X : Node α i o) (Y : Node α j o) (s t w) (k : Nat) :
    (binop op X Y).ticks.st (s, t) w k =
      (X.ticks.st s (fun k => (w k).takeL) k, Y.ticks.st t (fun k => (w k).takeR) k) := by
  induction k with
  | zero => rfl
  | succ k ih => simp only [Mealy.st]; rw [ih]; rfl

theorem binop_out {i j o} (op : α → α → α) (X : Node α i o) (Y : Node α j o) (s t w) (k : Nat) :
    (binop op X Y).ticks.out (s, t) w k = fun c =>
      op (X.ticks.out s (fun k => (w k).takeL) k c) (Y.ticks.out t (fun k => (w k).takeR) k c) := by
  simp only [Mealy.out]; rw [binop_st]; rfl

theorem unop_st {i o} (op : α → α) (X : Node α i o) (s w) (k : Nat) :
    (unop op X).ticks.st s w k = X.ticks.st s w k := by
  induction k with
  | zero => rfl
  | succ k ih => simp only [Mealy.st]; rw [ih]; rfl

theorem unop_out {i o} (op : α → α) (X : Node α i o) (s w) (k : Nat) :
    (unop op X).ticks.out s w k = fun c => op (X.ticks.out s w k c) := by
  simp only [Mealy.out]; rw [unop_st]; rfl

theorem stack_st {i j o p} (X : Node α i o) (Y : Node α j p) (s t w) (k : Nat) :
    (stack X Y).ticks.st (s, t) w k =
      (X.ticks.st s (fun k => (w k).takeL) k, Y.ticks.st t (fun k => (w k).takeR) k) := by
  induction k with
  | zero => rfl
  | succ k ih => simp only [Mealy.st]; rw [ih]; rfl

theorem stack_out {i j o p} (X : Node α i o) (Y : Node α j p) (s t w) (k : Nat) :
    (stack X Y).ticks.out (s, t) w k =
      Frame.join (X.ticks.out s (fun k => (w k).takeL) k) (Y.ticks.out t (fun k => (w k).takeR) k) := by
  simp only [Mealy.out]; rw [stack_st]; rfl

theorem branch_st {i o p} (X : Node α i o) (Y : Node α i p) (s t w) (k : Nat) :
    (branch X Y).ticks.st (s, t) w k = (X.ticks.st s w k, Y.ticks.st t w k) := by
  induction k with
  | zero => rfl
  | succ k ih => simp only [Mealy.st]; rw [ih]; rfl

theorem branch_out {i o p} (X : Node α i o) (Y : Node α i p) (s t w) (k : Nat) :
    (branch X Y).ticks.out (s, t) w k = Frame.join (X.ticks.out s w k) (Y.ticks.out t w k) := by
  simp only [Mealy.out]; rw [branch_st]; rfl

theorem bus_st {i o} (add : α → α → α) (X Y : Node α i o) (s t w) (k : Nat) :
    (bus add X Y).ticks.st (s, t) w k = (X.ticks.st s w k, Y.ticks.st t w k) := by
  induction k with
  | zero => rfl
  | succ k ih => simp only [Mealy.st]; rw [ih]; rfl

theorem bus_out {i o} (add : α → α → α) (X Y : Node α i o) (s t w) (k : Nat) :
    (bus add X Y).ticks.out (s, t) w k = fun c => add (X.ticks.out s w k c) (Y.ticks.out t w k c) := by
  simp only [Mealy.out]; rw [bus_st]; rfl

theorem thru_st {i o} (X : Node α i o) (s w) (k : Nat) :
    (thru X).ticks.st s w k = X.ticks.st s w k := by
  induction k with
  | zero => rfl
  | succ k ih => simp only [Mealy.st]; rw [ih]; rfl

theorem thru_out {i o} (X : Node α i o) (s w) (k : Nat) :
    (thru X).ticks.out s w k = fun c => if h : c.1 < o then X.ticks.out s w k ⟨c.1, h⟩ else w k c := by
  simp only [Mealy.out]; rw [thru_st]; rfl

theorem Buf.join_frame {i j} (x : Buf α i) (y : Buf α j) (k : Nat) :
    (Buf.join x y).frame k = Frame.join (x.frame k) (y.frame k) := by
  funext c; simp only [Buf.frame, Buf.join, Frame.join]; split <;> rfl

theorem Buf.subL_frame {i j} (x : Buf α (i + j)) (k : Nat) : (x.subL).frame k = (x.frame k).takeL := rfl
theorem Buf.subR_frame {i j} (x : Buf α (i + j)) (k : Nat) : (x.subR).frame k = (x.frame k).takeR := rfl

theorem tickBlockOn_pipe {i j o} {X : Node α i j} {Y : Node α j o} {P : X.σ → Prop} {P' : Y.σ → Prop}
    (hX : TickBlockOn X P) (hY : TickBlockOn Y P') : TickBlockOn (pipe X Y) (fun s => P s.1 ∧ P' s.2) := by
  obtain ⟨R, hR, hRr, hX⟩ := hX
  obtain ⟨Q, hQ, hQr, hY⟩ := hY
  refine ⟨fun s t => R s.1 t.1 ∧ Q s.2 t.2, fun _ h => ⟨hR _ h.1, hQ _ h.2⟩,
    (fun _ _ h => ⟨hRr _ _ h.1, hQr _ _ h.2⟩), ⟨?_, ?_⟩⟩
  · rintro ⟨s, t⟩ ⟨s', t'⟩ x ⟨h1, h2⟩
    obtain ⟨a, b⟩ := hX.tick s s' x h1
    obtain ⟨c, d⟩ := hY.tick t t' (X.tick s x).2 h2
    simp only [Node.ticks, pipe] at *
    rw [b] at c d
    refine ⟨⟨a, ?_⟩, ?_⟩ <;> simp only [b] <;> assumption
  · rintro g ⟨s, t⟩ ⟨s', t'⟩ size inp out hs ⟨h1, h2⟩
    obtain ⟨a, b⟩ := hX.proc h1 hs g.left inp (g.buf j) inp.frame (fun _ _ => rfl)
    obtain ⟨c, d⟩ := hY.proc h2 hs g.right (X.process g.left s size inp (g.buf j)).2 out
      (X.stream s' inp.frame) b
    rw [pipe_st]
    exact ⟨⟨a, c⟩, fun k hk => by rw [pipe_out]; exact d k hk⟩

theorem tickBlockOn_binop {i j o} (op : α → α → α) {X : Node α i o} {Y : Node α j o} {P : X.σ → Prop} {P' : Y.σ → Prop}
    (hX : TickBlockOn X P) (hY : TickBlockOn Y P') : TickBlockOn (binop op X Y) (fun s => P s.1 ∧ P' s.2) := by
  obtain ⟨R, hR, hRr, hX⟩ := hX
  obtain ⟨Q, hQ, hQr, hY⟩ := hY
  refine ⟨fun s t => R s.1 t.1 ∧ Q s.2 t.2, fun _ h => ⟨hR _ h.1, hQ _ h.2⟩,
    (fun _ _ h => ⟨hRr _ _ h.1, hQr _ _ h.2⟩), ⟨?_, ?_⟩⟩
  · rintro ⟨s, t⟩ ⟨s', t'⟩ x ⟨h1, h2⟩
    obtain ⟨a, b⟩ := hX.tick s s' x.takeL h1
    obtain ⟨c, d⟩ := hY.tick t t' x.takeR h2
    refine ⟨⟨a, c⟩, ?_⟩
    simp only [Node.ticks, binop] at *
    rw [b, d]
  · rintro g ⟨s, t⟩ ⟨s', t'⟩ size inp out hs ⟨h1, h2⟩
    obtain ⟨a, b⟩ := hX.proc h1 hs g.left inp.subL (g.buf o) (fun k => (inp.frame k).takeL) (fun _ _ => rfl)
    obtain ⟨c, d⟩ := hY.proc h2 hs g.right inp.subR out (fun k => (inp.frame k).takeR) (fun _ _ => rfl)
    rw [binop_st]
    refine ⟨⟨a, c⟩, fun k hk => ?_⟩
    rw [binop_out]
    simp only [binop]
    rw [setItems_frame _ _ hk]
    funext ch
    exact congr2 op (congrFun (b k hk) ch) (congrFun (d k hk) ch)

theorem tickBlockOn_unop {i o} (op : α → α) {X : Node α i o} {P : X.σ → Prop} (hX : TickBlockOn X P) : TickBlockOn (unop op X) P := by
  obtain ⟨R, hR, hRr, hX⟩ := hX
  refine ⟨R, hR, hRr, ⟨?_, ?_⟩⟩
  · intro s m x h1
    obtain ⟨a, b⟩ := hX.tick s m x h1
    refine ⟨a, ?_⟩
    simp only [Node.ticks, unop] at *
    rw [b]
  · intro g s m size inp out hs h1
    obtain ⟨a, b⟩ := hX.proc h1 hs g inp out inp.frame (fun _ _ => rfl)
    rw [unop_st]
    refine ⟨a, fun k hk => ?_⟩
    rw [unop_out]
    simp only [unop]
    rw [setItems_frame _ _ hk]
    funext ch
    exact congrArg op (congrFun (b k hk) ch)

theorem tickBlockOn_stack {i j o p} {X : Node α i o} {Y : Node α j p} {P : X.σ → Prop} {P' : Y.σ → Prop}
    (hX : TickBlockOn X P) (hY : TickBlockOn Y P') : TickBlockOn (stack X Y) (fun s => P s.1 ∧ P' s.2) := by
  obtain ⟨R, hR, hRr, hX⟩ := hX
  obtain ⟨Q, hQ, hQr, hY⟩ := hY
  refine ⟨fun s t => R s.1 t.1 ∧ Q s.2 t.2, fun _ h => ⟨hR _ h.1, hQ _ h.2⟩,
    (fun _ _ h => ⟨hRr _ _ h.1, hQr _ _ h.2⟩), ⟨?_, ?_⟩⟩
  · rintro ⟨s, t⟩ ⟨s', t'⟩ x ⟨h1, h2⟩
    obtain ⟨a, b⟩ := hX.tick s s' x.takeL h1
    obtain ⟨c, d⟩ := hY.tick t t' x.takeR h2
    refine ⟨⟨a, c⟩, ?_⟩
    simp only [Node.ticks, stack] at *
    rw [b, d]
  · rintro g ⟨s, t⟩ ⟨s', t'⟩ size inp out hs ⟨h1, h2⟩
    obtain ⟨a, b⟩ := hX.proc h1 hs g.left inp.subL out.subL (fun k => (inp.frame k).takeL) (fun _ _ => rfl)
    obtain ⟨c, d⟩ := hY.proc h2 hs g.right inp.subR out.subR (fun k => (inp.frame k).takeR) (fun _ _ => rfl)
    rw [stack_st]
    refine ⟨⟨a, c⟩, fun k hk => ?_⟩
    rw [stack_out]
    simp only [stack]
    rw [Buf.join_frame, b k hk, d k hk]

theorem tickBlockOn_branch {i o p} {X : Node α i o} {Y : Node α i p} {P : X.σ → Prop} {P' : Y.σ → Prop}
    (hX : TickBlockOn X P) (hY : TickBlockOn Y P') : TickBlockOn (branch X Y) (fun s => P s.1 ∧ P' s.2) := by
  obtain ⟨R, hR, hRr, hX⟩ := hX
  obtain ⟨Q, hQ, hQr, hY⟩ := hY
  refine ⟨fun s t => R s.1 t.1 ∧ Q s.2 t.2, fun _ h => ⟨hR _ h.1, hQ _ h.2⟩,
    (fun _ _ h => ⟨hRr _ _ h.1, hQr _ _ h.2⟩), ⟨?_, ?_⟩⟩
  · rintro ⟨s, t⟩ ⟨s', t'⟩ x ⟨h1, h2⟩
    obtain ⟨a, b⟩ := hX.tick s s' x h1
    obtain ⟨c, d⟩ := hY.tick t t' x h2
    refine ⟨⟨a, c⟩, ?_⟩
    simp only [Node.ticks, branch] at *
    rw [b, d]
  · rintro g ⟨s, t⟩ ⟨s', t'⟩ size inp out hs ⟨h1, h2⟩
    obtain ⟨a, b⟩ := hX.proc h1 hs g.left inp out.subL inp.frame (fun _ _ => rfl)
    obtain ⟨c, d⟩ := hY.proc h2 hs g.right inp out.subR inp.frame (fun _ _ => rfl)
    rw [branch_st]
    refine ⟨⟨a, c⟩, fun k hk => ?_⟩
    rw [branch_out]
    simp only [branch]
    rw [Buf.join_frame, b k hk, d k hk]

theorem tickBlockOn_bus {i o} (add : α → α → α) {X Y : Node α i o} {P : X.σ → Prop} {P' : Y.σ → Prop} (hX : TickBlockOn X P)
    (hY : TickBlockOn Y P') : TickBlockOn (bus add X Y) (fun s => P s.1 ∧ P' s.2) := by
  obtain ⟨R, hR, hRr, hX⟩ := hX
  obtain ⟨Q, hQ, hQr, hY⟩ := hY
  refine ⟨fun s t => R s.1 t.1 ∧ Q s.2 t.2, fun _ h => ⟨hR _ h.1, hQ _ h.2⟩,
    (fun _ _ h => ⟨hRr _ _ h.1, hQr _ _ h.2⟩), ⟨?_, ?_⟩⟩
  · rintro ⟨s, t⟩ ⟨s', t'⟩ x ⟨h1, h2⟩
    obtain ⟨a, b⟩ := hX.tick s s' x h1
    obtain ⟨c, d⟩ := hY.tick t t' x h2
    refine ⟨⟨a, c⟩, ?_⟩
    simp only [Node.ticks, bus] at *
    rw [b, d]
  · rintro g ⟨s, t⟩ ⟨s', t'⟩ size inp out hs ⟨h1, h2⟩
    obtain ⟨a, b⟩ := hX.proc h1 hs g.left inp out inp.frame (fun _ _ => rfl)
    obtain ⟨c, d⟩ := hY.proc h2 hs g.right inp (g.buf o) inp.frame (fun _ _ => rfl)
    rw [bus_st]
    refine ⟨⟨a, c⟩, fun k hk => ?_⟩
    rw [bus_out]
    simp only [bus]
    rw [setItems_frame _ _ hk]
    funext ch
    exact congr2 add (congrFun (b k hk) ch) (congrFun (d k hk) ch)

theorem tickBlockOn_thru {i o} {X : Node α i o} {P : X.σ → Prop} (hX : TickBlockOn X P) : TickBlockOn (thru X) P := by
  obtain ⟨R, hR, hRr, hX⟩ := hX
  by_cases hi : i = 0
  · -- no channels: nothing is observable
    subst hi
    exact ⟨fun _ _ => True, fun _ _ => trivial, fun _ _ _ => trivial,
      ⟨fun _ _ _ _ => ⟨trivial, by funext c; exact c.elim0⟩,
       fun _ _ _ _ _ _ _ _ => ⟨trivial, fun _ _ => by funext c; exact c.elim0⟩⟩⟩
  refine ⟨R, hR, hRr, ⟨?_, ?_⟩⟩
  · intro s m x h1
    obtain ⟨a, b⟩ := hX.tick s m x h1
    refine ⟨a, ?_⟩
    simp only [Node.ticks, thru] at *
    rw [b]
  · intro g s m size inp out hs h1
    rw [thru_st]
    by_cases hlt : i < o
    · obtain ⟨a, b⟩ := hX.proc h1 hs g.left inp (g.buf o) inp.frame (fun _ _ => rfl)
      refine ⟨by simpa only [thru, if_neg hi, dif_pos hlt] using a, fun k hk => ?_⟩
      rw [thru_out]
      simp only [thru, if_neg hi, dif_pos hlt]
      rw [setItems_frame _ _ hk]
      funext ch
      have := ch.2
      rw [dif_pos (by omega)]
      exact congrFun (b k hk) ⟨ch.1, by omega⟩
    · obtain ⟨a, b⟩ := hX.proc h1 hs g.left inp (Buf.first o (by omega) out) inp.frame (fun _ _ => rfl)
      refine ⟨by simpa only [thru, if_neg hi, dif_neg hlt] using a, fun k hk => ?_⟩
      rw [thru_out]
      simp only [thru, if_neg hi, dif_neg hlt]
      funext ch
      simp only [Buf.frame]
      by_cases hc : ch.1 < o
      · rw [dif_pos hc, dif_pos hc]; exact congrFun (b k hk) ⟨ch.1, hc⟩
      · rw [dif_neg hc, dif_neg hc, if_pos (lt_eight_simdItems hk)]

/-! ## Nodes over an array of nodes -/

theorem multiStack_st {i o} (n : Nat) (X : Node α i o) (s w) (k : Nat) :
    (multiStack n X).ticks.st s w k = fun q => X.ticks.st (s q) (fun k => (w k).slice q) k := by
  induction k with
  | zero => rfl
  | succ k ih => simp only [Mealy.st]; rw [ih]; rfl

theorem multiBranch_st {i o} (n : Nat) (X : Node α i o) (s w) (k : Nat) :
    (multiBranch n X).ticks.st s w k = fun q => X.ticks.st (s q) w k := by
  induction k with
  | zero => rfl
  | succ k ih => simp only [Mealy.st]; rw [ih]; rfl

theorem multiBus_st {i o} (add : α → α → α) (zero : α) (n : Nat) (X : Node α i o) (s w) (k : Nat) :
    (multiBus add zero n X).ticks.st s w k = fun q => X.ticks.st (s q) w k := by
  induction k with
  | zero => rfl
  | succ k ih => simp only [Mealy.st]; rw [ih]; rfl

theorem reduce_st {i o} (op : α → α → α) (n : Nat) (X : Node α i o) (s w) (k : Nat) :
    (reduce op n X).ticks.st s w k = fun q => X.ticks.st (s q) (fun k => (w k).slice q) k := by
  induction k with
  | zero => rfl
  | succ k ih => simp only [Mealy.st]; rw [ih]; rfl

theorem tickBlockOn_multiStack {i o} (n : Nat) {X : Node α i o} {P : X.σ → Prop} (hX : TickBlockOn X P) :
    TickBlockOn (multiStack n X) (fun s => ∀ q, P (s q)) := by
  obtain ⟨R, hR, hRr, hX⟩ := hX
  refine ⟨fun s t => ∀ q, R (s q) (t q), fun _ h q => hR _ (h q), (fun _ _ h q => hRr _ _ (h q)), ⟨?_, ?_⟩⟩
  · intro s m x h1
    refine ⟨fun q => (hX.tick (s q) (m q) (x.slice q) (h1 q)).1, ?_⟩
    funext c
    exact congrFun (hX.tick (s (nodeOf c)) (m (nodeOf c)) (x.slice (nodeOf c)) (h1 _)).2 (chanOf c)
  · intro g s m size inp out hs h1
    have hp := fun q : Fin n => hX.proc (h1 q) hs (g.nth q.1) (inp.slice q) (out.slice q)
      (fun k => (inp.frame k).slice q) (fun _ _ => rfl)
    rw [multiStack_st]
    refine ⟨fun q => (hp q).1, fun k hk => ?_⟩
    simp only [Mealy.out]; rw [multiStack_st]
    funext c
    exact congrFun ((hp (nodeOf c)).2 k hk) (chanOf c)

theorem tickBlockOn_multiBranch {i o} (n : Nat) {X : Node α i o} {P : X.σ → Prop} (hX : TickBlockOn X P) :
    TickBlockOn (multiBranch n X) (fun s => ∀ q, P (s q)) := by
  obtain ⟨R, hR, hRr, hX⟩ := hX
  refine ⟨fun s t => ∀ q, R (s q) (t q), fun _ h q => hR _ (h q), (fun _ _ h q => hRr _ _ (h q)), ⟨?_, ?_⟩⟩
  · intro s m x h1
    refine ⟨fun q => (hX.tick (s q) (m q) x (h1 q)).1, ?_⟩
    funext c
    exact congrFun (hX.tick (s (nodeOf c)) (m (nodeOf c)) x (h1 _)).2 (chanOf c)
  · intro g s m size inp out hs h1
    have hp := fun q : Fin n => hX.proc (h1 q) hs (g.nth q.1) inp (out.slice q)
      inp.frame (fun _ _ => rfl)
    rw [multiBranch_st]
    refine ⟨fun q => (hp q).1, fun k hk => ?_⟩
    simp only [Mealy.out]; rw [multiBranch_st]
    funext c
    exact congrFun ((hp (nodeOf c)).2 k hk) (chanOf c)

theorem tickBlockOn_multiBus {i o} (add : α → α → α) (zero : α) (hz : ∀ x, add zero x = x) (n : Nat)
    {X : Node α i o} {P : X.σ → Prop} (hX : TickBlockOn X P) : TickBlockOn (multiBus add zero n X) (fun s => ∀ q, P (s q)) := by
  obtain ⟨R, hR, hRr, hX⟩ := hX
  refine ⟨fun s t => ∀ q, R (s q) (t q), fun _ h q => hR _ (h q), (fun _ _ h q => hRr _ _ (h q)), ⟨?_, ?_⟩⟩
  · intro s m x h1
    refine ⟨fun q => (hX.tick (s q) (m q) x (h1 q)).1, ?_⟩
    have : ∀ q, (X.tick (s q) x).2 = (X.tick (m q) x).2 := fun q => (hX.tick (s q) (m q) x (h1 q)).2
    simp only [Node.ticks, multiBus, this]
  · intro g s m size inp out hs h1
    have h0 := hX.proc (h1 0) hs (g.nth 0) inp out inp.frame (fun _ _ => rfl)
    have hp := fun q : Fin n => hX.proc (h1 q.succ) hs (g.nth (q.1 + 1)) inp (g.buf o)
      inp.frame (fun _ _ => rfl)
    rw [multiBus_st]
    refine ⟨fun q => ?_, fun k hk => ?_⟩
    · refine Fin.cases ?_ ?_ q
      · exact h0.1
      · intro q; exact (hp q).1
    · simp only [Mealy.out]; rw [multiBus_st]
      simp only [multiBus, Node.ticks]
      rw [foldl_setItems_frame hk
        (fun q (acc : Frame α o) c => add (acc c) ((X.process (g.nth (q.1 + 1)) (s q.succ) size inp (g.buf o)).2 c k))
        (fun q acc c j => add (acc c j) ((X.process (g.nth (q.1 + 1)) (s q.succ) size inp (g.buf o)).2 c j))
        (fun _ _ => rfl)]
      rw [Fin.foldl_succ]
      have e0 : (X.process (g.nth 0) (s 0) size inp out).2.frame k
          = fun c => add zero ((X.tick (X.ticks.st (m 0) inp.frame k) (inp.frame k)).2 c) := by
        rw [h0.2 k hk]; funext c; rw [hz]; rfl
      rw [e0]
      congr 1
      funext acc q c
      exact congrArg (add (acc c)) (congrFun ((hp q).2 k hk) c)

theorem tickBlockOn_reduce {i o} (op : α → α → α) (n : Nat) {X : Node α i o} {P : X.σ → Prop} (hX : TickBlockOn X P) :
    TickBlockOn (reduce op n X) (fun s => ∀ q, P (s q)) := by
  obtain ⟨R, hR, hRr, hX⟩ := hX
  refine ⟨fun s t => ∀ q, R (s q) (t q), fun _ h q => hR _ (h q), (fun _ _ h q => hRr _ _ (h q)), ⟨?_, ?_⟩⟩
  · intro s m x h1
    refine ⟨fun q => (hX.tick (s q) (m q) (x.slice q) (h1 q)).1, ?_⟩
    have : ∀ q, (X.tick (s q) (x.slice q)).2 = (X.tick (m q) (x.slice q)).2 :=
      fun q => (hX.tick (s q) (m q) (x.slice q) (h1 q)).2
    simp only [Node.ticks, reduce, this]
  · intro g s m size inp out hs h1
    have h0 := hX.proc (h1 0) hs (g.nth 0) (inp.slice 0) out (fun k => (inp.frame k).slice 0) (fun _ _ => rfl)
    have hp := fun q : Fin n => hX.proc (h1 q.succ) hs (g.nth (q.1 + 1)) (inp.slice q.succ) (g.buf o)
      (fun k => (inp.frame k).slice q.succ) (fun _ _ => rfl)
    rw [reduce_st]
    refine ⟨fun q => ?_, fun k hk => ?_⟩
    · refine Fin.cases ?_ ?_ q
      · exact h0.1
      · intro q; exact (hp q).1
    · simp only [Mealy.out]; rw [reduce_st]
      simp only [reduce, Node.ticks]
      rw [foldl_setItems_frame hk
        (fun q (acc : Frame α o) c => op (acc c)
          ((X.process (g.nth (q.1 + 1)) (s q.succ) size (inp.slice q.succ) (g.buf o)).2 c k))
        (fun q acc c j => op (acc c j)
          ((X.process (g.nth (q.1 + 1)) (s q.succ) size (inp.slice q.succ) (g.buf o)).2 c j))
        (fun _ _ => rfl)]
      rw [h0.2 k hk]
      congr 1
      funext acc q c
      exact congrArg (op (acc c)) (congrFun ((hp q).2 k hk) c)

/-- Stream through `n` chained nodes. -/
def chainStream {i} (X : Node α i i) : (n : Nat) → (Fin n → X.σ) → (Nat → Frame α i) → Nat → Frame α i
  | 0, _, w => w
  | n + 1, s, w => chainStream X n (fun k => s k.succ) (X.stream (s 0) w)

/-- States of `n` chained nodes before sample `k`. -/
def chainSt {i} (X : Node α i i) (k : Nat) : (n : Nat) → (Fin n → X.σ) → (Nat → Frame α i) → (Fin n → X.σ)
  | 0, s, _ => s
  | n + 1, s, w => Fin.cases (X.ticks.st (s 0) w k) (chainSt X k n (fun k => s k.succ) (X.stream (s 0) w))

theorem chainTick_step {i} (X : Node α i i) (k : Nat) : ∀ (n : Nat) (s : Fin n → X.σ) (w : Nat → Frame α i),
    (chainTick X n (chainSt X k n s w) (w k)).1 = chainSt X (k + 1) n s w ∧
    (chainTick X n (chainSt X k n s w) (w k)).2 = chainStream X n s w k := by
  intro n
  induction n with
  | zero => intro s w; exact ⟨rfl, rfl⟩
  | succ n ih =>
    intro s w
    obtain ⟨a, b⟩ := ih (fun k => s k.succ) (X.stream (s 0) w)
    constructor
    · exact congrArg (fun z => (Fin.cases (X.ticks.st (s 0) w (k + 1)) z : Fin (n + 1) → X.σ)) a
    · exact b

theorem chainSt_zero {i} (X : Node α i i) : ∀ (n : Nat) (s : Fin n → X.σ) (w : Nat → Frame α i),
    chainSt X 0 n s w = s := by
  intro n
  induction n with
  | zero => intro s w; rfl
  | succ n ih =>
    intro s w; simp only [chainSt, ih]; funext q
    refine Fin.cases ?_ ?_ q
    · rfl
    · intro q; rfl

theorem chain_st {i} (n : Nat) (X : Node α i i) (s w) (k : Nat) :
    (chain n X).ticks.st s w k = chainSt X k (n + 1) s w := by
  induction k with
  | zero => exact (chainSt_zero X (n + 1) s w).symm
  | succ k ih => simp only [Mealy.st]; rw [ih]; exact (chainTick_step X k (n + 1) s w).1

theorem chain_out {i} (n : Nat) (X : Node α i i) (s w) (k : Nat) :
    (chain n X).ticks.out s w k = chainStream X (n + 1) s w k := by
  simp only [Mealy.out]; rw [chain_st]; exact (chainTick_step X k (n + 1) s w).2

theorem chainTick_rel {i} {X : Node α i i} {R : X.σ → X.σ → Prop} (hX : Implements X X.ticks R) :
    ∀ (n : Nat) (s m : Fin n → X.σ) (x : Frame α i), (∀ q, R (s q) (m q)) →
      (∀ q, R ((chainTick X n s x).1 q) ((chainTick X n m x).1 q)) ∧
      (chainTick X n s x).2 = (chainTick X n m x).2 := by
  intro n
  induction n with
  | zero => intro s m x _; exact ⟨fun q => q.elim0, rfl⟩
  | succ n ih =>
    intro s m x h
    obtain ⟨a, b⟩ := hX.tick (s 0) (m 0) x (h 0)
    simp only [Node.ticks] at a b
    obtain ⟨c, d⟩ := ih (fun k => s k.succ) (fun k => m k.succ) (X.tick (s 0) x).2 (fun q => h q.succ)
    rw [b] at c d
    refine ⟨?_, ?_⟩
    · intro q
      refine Fin.cases ?_ ?_ q
      · exact a
      · intro q; simp only [chainTick, Fin.cases_succ, b]; exact c q
    · simp only [chainTick, b]; exact d

theorem chainProcess_spec {i} {X : Node α i i} {R : X.σ → X.σ → Prop} (hX : Implements X X.ticks R)
    {size : Nat} (hs : size ≤ 64) (g : Garb α) :
    ∀ (n idx : Nat) (s m : Fin n → X.σ) (cur buffer output : Buf α i) (w : Nat → Frame α i),
      (∀ q, R (s q) (m q)) → (∀ k, k < size → cur.frame k = w k) → (n = 0 → output = cur) →
      (∀ q, R ((chainProcess X size n idx g s cur buffer output).1 q) (chainSt X size n m w q)) ∧
      (∀ k, k < size → (chainProcess X size n idx g s cur buffer output).2.2.frame k
        = chainStream X n m w k) := by
  intro n
  induction n with
  | zero =>
    intro idx s m cur buffer output w _ hw ho
    refine ⟨fun q => q.elim0, fun k hk => ?_⟩
    simp only [chainProcess, chainStream]
    rw [ho rfl]; exact hw k hk
  | succ n ih =>
    intro idx s m cur buffer output w hR hw _
    simp only [chainProcess]
    split
    · obtain ⟨a, b⟩ := hX.proc (hR 0) hs (g.nth idx) cur output w hw
      obtain ⟨c, d⟩ := ih (idx + 1) (fun k => s k.succ) (fun k => m k.succ)
        (X.process (g.nth idx) (s 0) size cur output).2 buffer
        (X.process (g.nth idx) (s 0) size cur output).2 (X.stream (m 0) w)
        (fun q => hR q.succ) b (fun _ => rfl)
      refine ⟨fun q => ?_, d⟩
      refine Fin.cases ?_ ?_ q
      · exact a
      · intro q; exact c q
    · obtain ⟨a, b⟩ := hX.proc (hR 0) hs (g.nth idx) cur buffer w hw
      obtain ⟨c, d⟩ := ih (idx + 1) (fun k => s k.succ) (fun k => m k.succ)
        (X.process (g.nth idx) (s 0) size cur buffer).2
        (X.process (g.nth idx) (s 0) size cur buffer).2 output (X.stream (m 0) w)
        (fun q => hR q.succ) b (fun h => by omega)
      refine ⟨fun q => ?_, d⟩
      refine Fin.cases ?_ ?_ q
      · exact a
      · intro q; exact c q

theorem tickBlockOn_chain {i} (n : Nat) {X : Node α i i} {P : X.σ → Prop} (hX : TickBlockOn X P) : TickBlockOn (chain n X) (fun s => ∀ q, P (s q)) := by
  obtain ⟨R, hR, hRr, hX⟩ := hX
  refine ⟨fun s t => ∀ q, R (s q) (t q), fun _ h q => hR _ (h q), (fun _ _ h q => hRr _ _ (h q)), ⟨?_, ?_⟩⟩
  · intro s m x h1
    exact chainTick_rel hX (n + 1) s m x h1
  · intro g s m size inp out hs h1
    obtain ⟨a, b⟩ := chainProcess_spec hX hs g (n + 1) 0 s m inp (g.buf i) out inp.frame h1
      (fun _ _ => rfl) (fun h => by omega)
    rw [chain_st]
    exact ⟨a, fun k hk => by rw [chain_out]; exact b k hk⟩

theorem TickBlock.exec {i o} {n : Node α i o} (h : TickBlock n) (w : Nat → Frame α i) (cs : List (Call α i o))
    (hc : ∀ c ∈ cs, c.ok) (t : Nat) (s : n.σ) : (n.exec w cs t s).2 = (n.exec w (unblock cs) t s).2 := (h.on fun _ => True).exec w cs hc t s trivial

theorem tickBlock_binop {i j o} (op : α → α → α) {X : Node α i o} {Y : Node α j o} (hX : TickBlock X) (hY : TickBlock Y) : TickBlock (binop op X Y) :=
  (tickBlockOn_binop op (hX.on fun _ => True) (hY.on fun _ => True)).all fun _ => ⟨trivial, trivial⟩

end Fundsp
