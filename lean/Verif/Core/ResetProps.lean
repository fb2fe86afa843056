import Verif.Core.Reset

/-! # C19: reset returns a component to its initial state

`ResetFresh n init` (file `Reset.lean`) is the observable claim. Here: it holds of every graph of static combinators whose leaves have it,
and of the modelled leaf components. -/

namespace Fundsp
variable {α : Type}

/-! ## Tools -/

/-- Components whose `reset` restores the very state of construction. -/
theorem tickFresh_of_eq {i o} {n : Node α i o} {init : n.σ} (P : n.σ → Prop) (h0 : P init) (ht : ∀ s x, P s → P (n.tick s x).1)
    (hr : ∀ s, P s → n.reset s = init) : TickFresh n init := by
  intro s hs w
  have : P s := by
    induction hs with
    | init => exact h0
    | tick x _ ih => exact ht _ _ ih
    | reset _ ih => rw [hr _ ih]; exact h0
  rw [hr s this]

/-- Components whose `reset` restores the state of construction up to unobservable differences. -/
theorem tickFresh_of_rel {i o} {n : Node α i o} {init : n.σ} (P : n.σ → Prop) (R : n.σ → n.σ → Prop) (h0 : P init)
    (ht : ∀ s x, P s → P (n.tick s x).1) (hp : ∀ s, P s → P (n.reset s)) (hr : ∀ s, P s → R (n.reset s) init)
    (hR : ∀ s t x, R s t → R (n.tick s x).1 (n.tick t x).1 ∧ (n.tick s x).2 = (n.tick t x).2) : TickFresh n init := by
  intro s hs w
  have hP : P s := by
    induction hs with
    | init => exact h0
    | tick x _ ih => exact ht _ _ ih
    | reset _ ih => exact hp _ ih
  funext k
  have hk : ∀ k, R (n.ticks.st (n.reset s) w k) (n.ticks.st init w k) := by
    intro k
    induction k with
    | zero => exact hr s hP
    | succ k ih => exact (hR _ _ (w k) ih).1
  exact (hR _ _ (w k) (hk k)).2

/-- The same for blocks, without block consistency. -/
theorem resetFresh_of_eq {i o} {n : Node α i o} {init : n.σ} (P : n.σ → Prop) (h0 : P init) (ht : ∀ s x, P s → P (n.tick s x).1)
    (hb : ∀ g s size inp out, P s → P (n.process g s size inp out).1)
    (hr : ∀ s, P s → n.reset s = init) : ResetFresh n init := by
  intro w v cs ds _ _
  have : ∀ (cs : List (Call α i o)) t s, P s → P (n.exec w cs t s).1 := by
    intro cs
    induction cs with
    | nil => intro t s h; exact h
    | cons c cs ih =>
      intro t s h
      cases c with
      | tick => exact ih _ _ (ht _ _ h)
      | reset => refine ih _ _ ?_; rw [hr _ h]; exact h0
      | block size tail old g => exact ih _ _ (hb _ _ _ _ _ h)
  rw [hr _ (this cs 0 init h0)]

theorem tickLoop_inv {i o} {σ : Type} {tick : σ → Frame α i → σ × Frame α o} {P : σ → Prop} (ht : ∀ s x, P s → P (tick s x).1)
    (inp : Buf α i) : ∀ count start s (out : Buf α o), P s → P (tickLoop tick inp start count s out).1 := by
  intro count
  induction count with
  | zero => intro start s out h; exact h
  | succ c ih => intro start s out h; exact ih _ _ _ (ht _ _ h)

/-- Components with the default `process`. -/
theorem resetFresh_ofTick_eq {i o} {σ : Type} {reset : σ → σ} {tick : σ → Frame α i → σ × Frame α o} {init : σ} (P : σ → Prop)
    (h0 : P init) (ht : ∀ s x, P s → P (tick s x).1) (hr : ∀ s, P s → reset s = init) :
    ResetFresh (Node.ofTick σ reset tick) init :=
  resetFresh_of_eq (n := Node.ofTick σ reset tick) P h0 ht (fun _ _ _ _ _ h => tickLoop_inv ht _ _ _ _ _ h) hr

theorem TickFresh.ofTick {i o} {σ : Type} {reset : σ → σ} {tick : σ → Frame α i → σ × Frame α o} {init : σ}
    (h : TickFresh (Node.ofTick σ reset tick) init) : ResetFresh (Node.ofTick σ reset tick) init :=
  h.resetFresh (fun w cs hc => (tickBlock_iff _).1 (tickBlock_ofTick _ _) w cs hc init)

/-- States that cannot be told apart by ticking. -/
def SameStream {i o} (n : Node α i o) (s t : n.σ) : Prop := ∀ w, n.stream s w = n.stream t w

theorem SameStream.tick {i o} {n : Node α i o} {s t : n.σ} (h : SameStream n s t) (x : Frame α i) :
    SameStream n (n.tick s x).1 (n.tick t x).1 ∧ (n.tick s x).2 = (n.tick t x).2 := by
  refine ⟨fun v => ?_, congrFun (h (fun _ => x)) 0⟩
  funext k
  have := congrFun (h (fun j => if j = 0 then x else v (j - 1))) (1 + k)
  simp only [Node.stream, n.ticks.out_add] at this
  simp only [Mealy.st, if_pos] at this
  have e : (fun j => (fun j => if j = 0 then x else v (j - 1)) (1 + j)) = v := by
    funext j; simp
  rw [e] at this
  exact this

/-! ## Combinators -/

theorem reached_pair {i o j p k q} {N : Node α k q} {X : Node α i o} {Y : Node α j p} {f : N.σ → X.σ} {g : N.σ → Y.σ} {init : N.σ}
    (ht : ∀ s x, ∃ y z, f (N.tick s x).1 = (X.tick (f s) y).1 ∧ g (N.tick s x).1 = (Y.tick (g s) z).1)
    (hr : ∀ s, f (N.reset s) = X.reset (f s) ∧ g (N.reset s) = Y.reset (g s)) {s : N.σ} (h : Reached N init s) :
    Reached X (f init) (f s) ∧ Reached Y (g init) (g s) := by
  induction h with
  | init => exact ⟨.init, .init⟩
  | @tick s x _ ih =>
    obtain ⟨y, z, h1, h2⟩ := ht s x
    rw [h1, h2]
    exact ⟨ih.1.tick _, ih.2.tick _⟩
  | @reset s _ ih => rw [(hr s).1, (hr s).2]; exact ⟨ih.1.reset, ih.2.reset⟩

theorem tickFresh_pipe {i j o} {X : Node α i j} {Y : Node α j o} {a b} (hX : TickFresh X a) (hY : TickFresh Y b) :
    TickFresh (pipe X Y) (a, b) := by
  intro s hs w
  obtain ⟨h1, h2⟩ := reached_pair (N := pipe X Y) (X := X) (Y := Y) (f := Prod.fst) (g := Prod.snd)
    (fun s x => ⟨_, _, rfl, rfl⟩) (fun s => ⟨rfl, rfl⟩) hs
  funext k
  refine (pipe_out X Y (X.reset s.1) (Y.reset s.2) w k).trans (Eq.trans ?_ (pipe_out X Y a b w k).symm)
  have e : X.stream (X.reset s.1) w = X.stream a w := hX _ h1 w
  rw [e]
  exact congrFun (hY _ h2 (X.stream a w)) k

theorem tickFresh_binop {i j o} (op : α → α → α) {X : Node α i o} {Y : Node α j o} {a b} (hX : TickFresh X a) (hY : TickFresh Y b) :
    TickFresh (binop op X Y) (a, b) := by
  intro s hs w
  obtain ⟨h1, h2⟩ := reached_pair (N := binop op X Y) (X := X) (Y := Y) (f := Prod.fst) (g := Prod.snd)
    (fun s x => ⟨_, _, rfl, rfl⟩) (fun s => ⟨rfl, rfl⟩) hs
  funext k
  refine (binop_out op X Y (X.reset s.1) (Y.reset s.2) w k).trans (Eq.trans ?_ (binop_out op X Y a b w k).symm)
  funext c
  exact congrArg₂ op (congrFun (congrFun (hX _ h1 _) k) c) (congrFun (congrFun (hY _ h2 _) k) c)

theorem tickFresh_bus {i o} (add : α → α → α) {X Y : Node α i o} {a b} (hX : TickFresh X a) (hY : TickFresh Y b) :
    TickFresh (bus add X Y) (a, b) := by
  intro s hs w
  obtain ⟨h1, h2⟩ := reached_pair (N := bus add X Y) (X := X) (Y := Y) (f := Prod.fst) (g := Prod.snd)
    (fun s x => ⟨_, _, rfl, rfl⟩) (fun s => ⟨rfl, rfl⟩) hs
  funext k
  refine (bus_out add X Y (X.reset s.1) (Y.reset s.2) w k).trans (Eq.trans ?_ (bus_out add X Y a b w k).symm)
  funext c
  exact congrArg₂ add (congrFun (congrFun (hX _ h1 _) k) c) (congrFun (congrFun (hY _ h2 _) k) c)

theorem tickFresh_stack {i j o p} {X : Node α i o} {Y : Node α j p} {a b} (hX : TickFresh X a) (hY : TickFresh Y b) :
    TickFresh (stack X Y) (a, b) := by
  intro s hs w
  obtain ⟨h1, h2⟩ := reached_pair (N := stack X Y) (X := X) (Y := Y) (f := Prod.fst) (g := Prod.snd)
    (fun s x => ⟨_, _, rfl, rfl⟩) (fun s => ⟨rfl, rfl⟩) hs
  funext k
  refine (stack_out X Y (X.reset s.1) (Y.reset s.2) w k).trans (Eq.trans ?_ (stack_out X Y a b w k).symm)
  exact congrArg₂ Frame.join (congrFun (hX _ h1 _) k) (congrFun (hY _ h2 _) k)

theorem tickFresh_branch {i o p} {X : Node α i o} {Y : Node α i p} {a b} (hX : TickFresh X a) (hY : TickFresh Y b) :
    TickFresh (branch X Y) (a, b) := by
  intro s hs w
  obtain ⟨h1, h2⟩ := reached_pair (N := branch X Y) (X := X) (Y := Y) (f := Prod.fst) (g := Prod.snd)
    (fun s x => ⟨_, _, rfl, rfl⟩) (fun s => ⟨rfl, rfl⟩) hs
  funext k
  refine (branch_out X Y (X.reset s.1) (Y.reset s.2) w k).trans (Eq.trans ?_ (branch_out X Y a b w k).symm)
  exact congrArg₂ Frame.join (congrFun (hX _ h1 _) k) (congrFun (hY _ h2 _) k)

theorem tickFresh_unop {i o} (op : α → α) {X : Node α i o} {a} (hX : TickFresh X a) : TickFresh (unop op X) a := by
  intro s hs w
  have h1 : Reached X a s := (reached_pair (N := unop op X) (X := X) (Y := X) (f := id) (g := id)
    (fun s x => ⟨_, _, rfl, rfl⟩) (fun s => ⟨rfl, rfl⟩) hs).1
  funext k
  refine (unop_out op X (X.reset s) w k).trans (Eq.trans ?_ (unop_out op X a w k).symm)
  funext c
  exact congrArg op (congrFun (congrFun (hX _ h1 _) k) c)

theorem tickFresh_thru {i o} {X : Node α i o} {a} (hX : TickFresh X a) : TickFresh (thru X) a := by
  intro s hs w
  have h1 : Reached X a s := (reached_pair (N := thru X) (X := X) (Y := X) (f := id) (g := id)
    (fun s x => ⟨_, _, rfl, rfl⟩) (fun s => ⟨rfl, rfl⟩) hs).1
  funext k
  refine (thru_out X (X.reset s) w k).trans (Eq.trans ?_ (thru_out X a w k).symm)
  funext c
  have e : X.ticks.out (X.reset s) w k = X.ticks.out a w k := congrFun (hX _ h1 w) k
  rw [e]

/-- Components of an array of nodes are reached. -/
theorem reached_multi {i o k q n} {N : Node α k q} {X : Node α i o} {f : N.σ → Fin n → X.σ} {init : N.σ}
    (ht : ∀ s x j, ∃ y, f (N.tick s x).1 j = (X.tick (f s j) y).1)
    (hr : ∀ s j, f (N.reset s) j = X.reset (f s j)) {s : N.σ} (h : Reached N init s) (j : Fin n) :
    Reached X (f init j) (f s j) :=
  (reached_pair (N := N) (X := X) (Y := X) (f := fun s => f s j) (g := fun s => f s j)
    (fun s x => ⟨_, _, (ht s x j).choose_spec, (ht s x j).choose_spec⟩) (fun s => ⟨hr s j, hr s j⟩) h).1

theorem multiStack_out {i o} (n : Nat) (X : Node α i o) (s w) (k : Nat) :
    (multiStack n X).ticks.out s w k = fun c => X.ticks.out (s (nodeOf c)) (fun k => (w k).slice (nodeOf c)) k (chanOf c) := by
  simp only [Mealy.out]; rw [multiStack_st]; rfl

theorem multiBranch_out {i o} (n : Nat) (X : Node α i o) (s w) (k : Nat) :
    (multiBranch n X).ticks.out s w k = fun c => X.ticks.out (s (nodeOf c)) w k (chanOf c) := by
  simp only [Mealy.out]; rw [multiBranch_st]; rfl

theorem multiBus_out {i o} (add : α → α → α) (zero : α) (n : Nat) (X : Node α i o) (s w) (k : Nat) :
    (multiBus add zero n X).ticks.out s w k =
      Fin.foldl (n + 1) (fun acc j c => add (acc c) (X.ticks.out (s j) w k c)) (fun _ => zero) := by
  simp only [Mealy.out]; rw [multiBus_st]; rfl

theorem reduce_out {i o} (op : α → α → α) (n : Nat) (X : Node α i o) (s w) (k : Nat) :
    (reduce op n X).ticks.out s w k =
      Fin.foldl n (fun acc j c => op (acc c) (X.ticks.out (s j.succ) (fun k => (w k).slice j.succ) k c))
        (X.ticks.out (s 0) (fun k => (w k).slice 0) k) := by
  simp only [Mealy.out]; rw [reduce_st]; rfl

theorem tickFresh_multiStack {i o} (n : Nat) {X : Node α i o} {a : Fin n → X.σ} (hX : ∀ j, TickFresh X (a j)) :
    TickFresh (multiStack n X) a := by
  intro s hs w
  have h1 := reached_multi (N := multiStack n X) (X := X) (f := id) (fun s x j => ⟨_, rfl⟩) (fun _ _ => rfl) hs
  funext k
  refine (multiStack_out n X _ w k).trans (Eq.trans ?_ (multiStack_out n X _ w k).symm)
  funext c
  exact congrFun (congrFun (hX (nodeOf c) _ (h1 (nodeOf c)) (fun k => (w k).slice (nodeOf c))) k) (chanOf c)

theorem tickFresh_multiBranch {i o} (n : Nat) {X : Node α i o} {a : Fin n → X.σ} (hX : ∀ j, TickFresh X (a j)) :
    TickFresh (multiBranch n X) a := by
  intro s hs w
  have h1 := reached_multi (N := multiBranch n X) (X := X) (f := id) (fun s x j => ⟨_, rfl⟩) (fun _ _ => rfl) hs
  funext k
  refine (multiBranch_out n X _ w k).trans (Eq.trans ?_ (multiBranch_out n X _ w k).symm)
  funext c
  exact congrFun (congrFun (hX (nodeOf c) _ (h1 (nodeOf c)) w) k) (chanOf c)

theorem tickFresh_multiBus {i o} (add : α → α → α) (zero : α) (n : Nat) {X : Node α i o} {a : Fin (n + 1) → X.σ}
    (hX : ∀ j, TickFresh X (a j)) : TickFresh (multiBus add zero n X) a := by
  intro s hs w
  have h1 := reached_multi (N := multiBus add zero n X) (X := X) (f := id) (fun s x j => ⟨_, rfl⟩) (fun _ _ => rfl) hs
  funext k
  refine (multiBus_out add zero n X _ w k).trans (Eq.trans ?_ (multiBus_out add zero n X _ w k).symm)
  have e : ∀ j, X.ticks.out (X.reset (s j)) w k = X.ticks.out (a j) w k := fun j => congrFun (hX j _ (h1 j) w) k
  have e' : (fun (acc : Frame α o) j c => add (acc c) (X.ticks.out ((multiBus add zero n X).reset s j) w k c)) =
      fun acc j c => add (acc c) (X.ticks.out (a j) w k c) := by
    funext acc j c
    exact congrArg (add (acc c)) (congrFun (e j) c)
  rw [e']

theorem tickFresh_reduce {i o} (op : α → α → α) (n : Nat) {X : Node α i o} {a : Fin (n + 1) → X.σ}
    (hX : ∀ j, TickFresh X (a j)) : TickFresh (reduce op n X) a := by
  intro s hs w
  have h1 := reached_multi (N := reduce op n X) (X := X) (f := id) (fun s x j => ⟨_, rfl⟩) (fun _ _ => rfl) hs
  funext k
  refine (reduce_out op n X _ w k).trans (Eq.trans ?_ (reduce_out op n X _ w k).symm)
  have e : ∀ j, X.ticks.out (X.reset (s j)) (fun k => (w k).slice j) k = X.ticks.out (a j) (fun k => (w k).slice j) k :=
    fun j => congrFun (hX j _ (h1 j) (fun k => (w k).slice j)) k
  have e' : (fun (acc : Frame α o) (j : Fin n) c => op (acc c)
        (X.ticks.out ((reduce op n X).reset s j.succ) (fun k => (w k).slice j.succ) k c)) =
      fun acc j c => op (acc c) (X.ticks.out (a j.succ) (fun k => (w k).slice j.succ) k c) := by
    funext acc j c
    exact congrArg (op (acc c)) (congrFun (e j.succ) c)
  have e0 : X.ticks.out ((reduce op n X).reset s 0) (fun k => (w k).slice 0) k = X.ticks.out (a 0) (fun k => (w k).slice 0) k := e 0
  rw [e', e0]

theorem chainTick_each {i} (X : Node α i i) : ∀ (n : Nat) (s : Fin n → X.σ) (x : Frame α i) (j : Fin n),
    ∃ y, (chainTick X n s x).1 j = (X.tick (s j) y).1 := by
  intro n
  induction n with
  | zero => intro s x j; exact j.elim0
  | succ n ih =>
    intro s x j
    refine Fin.cases ?_ ?_ j
    · exact ⟨x, rfl⟩
    · intro j
      obtain ⟨y, hy⟩ := ih (fun k => s k.succ) (X.tick (s 0) x).2 j
      exact ⟨y, hy⟩

theorem chainStream_congr {i} (X : Node α i i) : ∀ (n : Nat) (s t : Fin n → X.σ) (w : Nat → Frame α i),
    (∀ j v, X.stream (s j) v = X.stream (t j) v) → chainStream X n s w = chainStream X n t w := by
  intro n
  induction n with
  | zero => intros; rfl
  | succ n ih =>
    intro s t w h
    simp only [chainStream]
    rw [h 0 w]
    exact ih _ _ _ (fun j v => h j.succ v)

theorem tickFresh_chain {i} (n : Nat) {X : Node α i i} {a : Fin (n + 1) → X.σ} (hX : ∀ j, TickFresh X (a j)) :
    TickFresh (chain n X) a := by
  intro s hs w
  have h1 := reached_multi (N := chain n X) (X := X) (f := id) (fun s x j => chainTick_each X (n + 1) s x j) (fun _ _ => rfl) hs
  funext k
  refine (chain_out n X _ w k).trans (Eq.trans ?_ (chain_out n X _ w k).symm)
  exact congrFun (chainStream_congr X (n + 1) _ _ w (fun j v => hX j _ (h1 j) v)) k

/-! ## Graphs -/

/-- `init` is a state in which all components of the graph are as constructed, where leaf components are required to have the property. -/
def Graph.FreshAt {i o} : (G : Graph α i o) → G.node.σ → Prop
  | .leaf n, s => ResetFresh n s
  | .impulse _ one _, s => s = one
  | .binop _ x y, s => x.FreshAt s.1 ∧ y.FreshAt s.2
  | .unop _ x, s => x.FreshAt s
  | .pipe x y, s => x.FreshAt s.1 ∧ y.FreshAt s.2
  | .stack x y, s => x.FreshAt s.1 ∧ y.FreshAt s.2
  | .branch x y, s => x.FreshAt s.1 ∧ y.FreshAt s.2
  | .bus _ x y, s => x.FreshAt s.1 ∧ y.FreshAt s.2
  | .thru x, s => x.FreshAt s
  | .multiBus _ _ _ x, s => ∀ j, x.FreshAt (s j)
  | .multiStack _ x, s => ∀ j, x.FreshAt (s j)
  | .multiBranch _ x, s => ∀ j, x.FreshAt (s j)
  | .reduce _ _ x, s => ∀ j, x.FreshAt (s j)
  | .chain _ x, s => ∀ j, x.FreshAt (s j)
  | _, _ => True

theorem Graph.tickFresh {i o} (G : Graph α i o) (init : G.node.σ) (h : G.FreshAt init) : TickFresh G.node init := by
  induction G with
  | leaf n => exact ResetFresh.tickFresh h
  | multiPass n => exact tickFresh_of_eq (fun _ => True) trivial (fun _ _ _ => trivial) (fun _ _ => rfl)
  | sink n => exact tickFresh_of_eq (fun _ => True) trivial (fun _ _ _ => trivial) (fun _ _ => rfl)
  | constant n => exact tickFresh_of_eq (n := Fundsp.constant n) (fun s => s = init) rfl (fun _ _ hs => hs) (fun _ hs => hs)
  | split n => exact tickFresh_of_eq (fun _ => True) trivial (fun _ _ _ => trivial) (fun _ _ => rfl)
  | multiSplit m n => exact tickFresh_of_eq (fun _ => True) trivial (fun _ _ _ => trivial) (fun _ _ => rfl)
  | join n ops => exact tickFresh_of_eq (fun _ => True) trivial (fun _ _ _ => trivial) (fun _ _ => rfl)
  | multiJoin m n ops => exact tickFresh_of_eq (fun _ => True) trivial (fun _ _ _ => trivial) (fun _ _ => rfl)
  | reverse n => exact tickFresh_of_eq (fun _ => True) trivial (fun _ _ _ => trivial) (fun _ _ => rfl)
  | impulse n one zero => exact tickFresh_of_eq (fun _ => True) trivial (fun _ _ _ => trivial) (fun _ _ => h.symm)
  | map f => exact tickFresh_of_eq (fun _ => True) trivial (fun _ _ _ => trivial) (fun _ _ => rfl)
  | binop op x y ihx ihy => exact tickFresh_binop op (ihx _ h.1) (ihy _ h.2)
  | unop op x ih => exact tickFresh_unop op (ih _ h)
  | pipe x y ihx ihy => exact tickFresh_pipe (ihx _ h.1) (ihy _ h.2)
  | stack x y ihx ihy => exact tickFresh_stack (ihx _ h.1) (ihy _ h.2)
  | branch x y ihx ihy => exact tickFresh_branch (ihx _ h.1) (ihy _ h.2)
  | bus add x y ihx ihy => exact tickFresh_bus add (ihx _ h.1) (ihy _ h.2)
  | thru x ih => exact tickFresh_thru (ih _ h)
  | multiBus add zero n x ih => exact tickFresh_multiBus add zero n (fun j => ih _ (h j))
  | multiStack n x ih => exact tickFresh_multiStack n (fun j => ih _ (h j))
  | multiBranch n x ih => exact tickFresh_multiBranch n (fun j => ih _ (h j))
  | reduce op n x ih => exact tickFresh_reduce op n (fun j => ih _ (h j))
  | chain n x ih => exact tickFresh_chain n (fun j => ih _ (h j))

/-- **C19** (combinators): a graph of static combinators over leaf components that reset properly resets properly: after any schedule of ticks,
blocks and resets, `reset` makes it indistinguishable from the newly constructed graph. The leaves need only be block-consistent from the
states they are constructed in. -/
theorem C19_graph_at {i o} (G : Graph α i o) (init : G.node.σ) (hs : G.SoundAt init) (h : G.FreshAt init) : ResetFresh G.node init :=
  TickFresh.resetFresh (G.tickFresh init h) (C14_from_state G init hs)

/-- **C19** (combinators), with leaves that are block-consistent from every state. -/
theorem C19_graph {i o} (G : Graph α i o) (hs : G.Sound) (init : G.node.σ) (h : G.FreshAt init) : ResetFresh G.node init :=
  C19_graph_at G init (hs.at init) h

end Fundsp
