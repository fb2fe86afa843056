import Verif.Rate.Model
import Verif.Core.ResetProps
import Verif.Filter.SvfInProps
import Verif.Dyn.Props

/-!
# C105: setting the sample rate

The contract of `set_sample_rate` (`audionode.rs:52-66`): it sets the rate of the unit and of all units inside it, and setting the rate that a unit already has
leaves the unit as it is.
-/

noncomputable section
namespace Fundsp.Rate
open Fundsp.Param Fundsp.Filter

variable {i j o p : Nat}

/-! ## Specification -/

/-- One use of a unit that does not concern the sample rate. -/
inductive Use (C : Cell i o) (s : C.node.σ) : C.node.σ → Prop
  | tick (x : Frame ℝ i) : Use C s (C.node.tick s x).1
  | process (g : Garb ℝ) (size : Nat) (inp : Buf ℝ i) (out : Buf ℝ o) : Use C s (C.node.process g s size inp out).1
  | reset : Use C s (C.node.reset s)
  | op (a : C.Op) : Use C s (C.op s a)

/-- The states a unit can be in, with the sample rate it was last given. New units are at 44100 Hz. -/
inductive Reach (C : Cell i o) (init : C.node.σ) : C.node.σ → ℝ → Prop
  | new : Reach C init init 44100
  | use {s t r} : Reach C init s r → Use C s t → Reach C init t r
  | rate {s r} (r' : ℝ) : Reach C init s r → Reach C init (C.rate s r') r'

/-- Setting the rate that the unit already has, at any time, changes nothing. -/
def Keeps (C : Cell i o) (init : C.node.σ) : Prop := ∀ s r, Reach C init s r → C.rate s r = s

/-- Units built from units for which `L` holds. `P s r` says of a state `s` of the whole that each of those units inside it is in a state that it can be in when last
given the rate at which it should run while the whole runs at rate `r`: that is `r`, doubled for every oversampler around it. -/
inductive Built (L : ∀ {i o : Nat} (C : Cell i o), C.node.σ → Prop) : ∀ {i o : Nat} (C : Cell i o), C.node.σ → (C.node.σ → ℝ → Prop) → Prop
  | leaf {i o : Nat} {C : Cell i o} {c} : L C c → Built L C c (Reach C c)
  | binop {i j o : Nat} {X : Cell i o} {Y : Cell j o} {x y P Q} (op) : Built L X x P → Built L Y y Q → Built L (X.binop op Y) (x, y) (fun s r => P s.1 r ∧ Q s.2 r)
  | pipe {i j o : Nat} {X : Cell i j} {Y : Cell j o} {x y P Q} : Built L X x P → Built L Y y Q → Built L (X.pipe Y) (x, y) (fun s r => P s.1 r ∧ Q s.2 r)
  | stack {i j o p : Nat} {X : Cell i o} {Y : Cell j p} {x y P Q} : Built L X x P → Built L Y y Q → Built L (X.stack Y) (x, y) (fun s r => P s.1 r ∧ Q s.2 r)
  | branch {i o p : Nat} {X : Cell i o} {Y : Cell i p} {x y P Q} : Built L X x P → Built L Y y Q → Built L (X.branch Y) (x, y) (fun s r => P s.1 r ∧ Q s.2 r)
  | bus {i o : Nat} {X Y : Cell i o} {x y P Q} : Built L X x P → Built L Y y Q → Built L (X.bus Y) (x, y) (fun s r => P s.1 r ∧ Q s.2 r)
  | unop {i o : Nat} {X : Cell i o} {x P} (op) : Built L X x P → Built L (X.unop op) x P
  | thru {i o : Nat} {X : Cell i o} {x P} : Built L X x P → Built L X.thru x P
  | multiBus {i o : Nat} {X : Cell i o} (n : Nat) {x : Fin (n + 1) → X.node.σ} {P : Fin (n + 1) → X.node.σ → ℝ → Prop} : (∀ k, Built L X (x k) (P k)) → Built L (X.multiBus n) x (fun s r => ∀ k, P k (s k) r)
  | multiStack {i o : Nat} {X : Cell i o} (n : Nat) {x : Fin n → X.node.σ} {P : Fin n → X.node.σ → ℝ → Prop} : (∀ k, Built L X (x k) (P k)) → Built L (X.multiStack n) x (fun s r => ∀ k, P k (s k) r)
  | reduce {i o : Nat} {X : Cell i o} (op) (n : Nat) {x : Fin (n + 1) → X.node.σ} {P : Fin (n + 1) → X.node.σ → ℝ → Prop} : (∀ k, Built L X (x k) (P k)) → Built L (X.reduce op n) x (fun s r => ∀ k, P k (s k) r)
  | multiBranch {i o : Nat} {X : Cell i o} (n : Nat) {x : Fin n → X.node.σ} {P : Fin n → X.node.σ → ℝ → Prop} : (∀ k, Built L X (x k) (P k)) → Built L (X.multiBranch n) x (fun s r => ∀ k, P k (s k) r)
  | chain {i : Nat} {X : Cell i i} (n : Nat) {x : Fin (n + 1) → X.node.σ} {P : Fin (n + 1) → X.node.σ → ℝ → Prop} : (∀ k, Built L X (x k) (P k)) → Built L (X.chain n) x (fun s r => ∀ k, P k (s k) r)
  | feedback {n : Nat} {X : Cell n n} {x P} (op) : Built L X x P → Built L (X.feedback op) (x, fun _ => 0) (fun s r => P s.1 r)
  | feedback2 {n : Nat} {X Y : Cell n n} {x y P Q} (op) : Built L X x P → Built L Y y Q → Built L (X.feedback2 op Y) (x, y, fun _ => 0) (fun s r => P s.1 r ∧ Q s.2.1 r)
  | feedbackUnit {n : Nat} {X : Cell n n} {x P} (delay : ℝ) : Built L X x P → Built L X.feedbackUnit (fbuNew X x delay) (fun s r => P s.base.x r)
  | resampler {o : Nat} {X : Cell 0 o} {x P} : Built L X x P → Built L X.resampler (resNew X x) (fun s r => P s.x r)
  | oversampler {i o : Nat} {X : Cell i o} {x P} (h) : Built L X x P → Built L (X.oversampler h) (overNew X x) (fun s r => P s.x (2 * r))

/-! ## Helpers -/

/-- Any number of uses. -/
inductive Uses (C : Cell i o) (s : C.node.σ) : C.node.σ → Prop
  | nil : Uses C s s
  | cons {t u} : Uses C s t → Use C t u → Uses C s u

theorem Use.one {C : Cell i o} {s t} (h : Use C s t) : Uses C s t := .cons .nil h

theorem Uses.trans {C : Cell i o} {s t u} (h : Uses C s t) (k : Uses C t u) : Uses C s u := by
  induction k with
  | nil => exact h
  | cons _ k ih => exact .cons ih k

theorem Reach.uses {C : Cell i o} {c s t r} (h : Reach C c s r) (k : Uses C s t) : Reach C c t r := by
  induction k with
  | nil => exact h
  | cons _ k ih => exact .use ih k

/-- A part of a unit. -/
theorem reach_part {k q} {C : Cell k q} {X : Cell i o} {c : C.node.σ} {x : X.node.σ} (f : C.node.σ → X.node.σ) (ρ : ℝ → ℝ)
    (h0 : Reach X x (f c) (ρ 44100)) (hu : ∀ s t, Use C s t → Uses X (f s) (f t)) (hr : ∀ s r, f (C.rate s r) = X.rate (f s) (ρ r))
    {s r} (h : Reach C c s r) : Reach X x (f s) (ρ r) := by
  induction h with
  | new => exact h0
  | use _ u ih => exact ih.uses (hu _ _ u)
  | rate r' _ ih => rw [hr]; exact .rate _ ih

/-- An invariant of a unit. -/
theorem reach_inv {C : Cell i o} {c : C.node.σ} (I : C.node.σ → ℝ → Prop) (h0 : I c 44100) (hu : ∀ s t r, I s r → Use C s t → I t r)
    (hr : ∀ s r r', I s r → I (C.rate s r') r') {s r} (h : Reach C c s r) : I s r := by
  induction h with
  | new => exact h0
  | use _ u ih => exact hu _ _ _ ih u
  | rate r' _ ih => exact hr _ _ _ ih

theorem tickLoop_uses {k q} {σ : Type} {tick : σ → Frame ℝ k → σ × Frame ℝ q} {X : Cell i o} (f : σ → X.node.σ)
    (ht : ∀ s x, Uses X (f s) (f (tick s x).1)) (inp : Buf ℝ k) (count start : Nat) (s : σ) (out : Buf ℝ q) :
    Uses X (f s) (f (tickLoop tick inp start count s out).1) :=
  tickLoop_inv (P := fun t => Uses X (f s) (f t)) (fun _ x h => h.trans (ht _ x)) inp count start s out .nil

theorem produce_uses (X : Cell 0 o) : ∀ (m : Nat) (s : Rs.ResSt X.node.σ o), Uses X s.x (Rs.produce X.node m s).x := by
  intro m
  induction m with
  | zero => intro s; exact .nil
  | succ m ih =>
    intro s
    have := ih ⟨(X.node.tick s.x (fun _ => 0)).1, s.buffer.write (s.producer &&& 0x7f) (X.node.tick s.x (fun _ => 0)).2, s.consumer, s.producer + 1⟩
    exact Uses.trans (Use.tick (C := X) (fun _ => 0)).one this

theorem fbLoop_uses {n : Nat} (X : Cell n n) (mask : Nat) (inp : Buf ℝ n) : ∀ (m k ri wi : Nat) (sx : X.node.σ) (buf : List (Frame ℝ n)) (out : Buf ℝ n),
    Uses X sx (Delay.fbLoop 0 (· + ·) X.node mask inp k m ri wi sx buf out).1 := by
  intro m
  induction m with
  | zero => intros; exact .nil
  | succ m ih => intros; exact Uses.trans (Use.tick _).one (ih _ _ _ _ _ _)

theorem chainProcess_uses (X : Cell i i) (size : Nat) : ∀ (n idx : Nat) (g : Garb ℝ) (s : Fin n → X.node.σ) (cur buffer output : Buf ℝ i) (k : Fin n),
    Uses X (s k) ((chainProcess X.node size n idx g s cur buffer output).1 k) := by
  intro n
  induction n with
  | zero => intro _ _ _ _ _ _ k; exact k.elim0
  | succ n ih =>
    intro idx g s cur buffer output k
    rw [chainProcess]
    split
    · refine Fin.cases ?_ (fun k => ?_) k
      · exact (Use.process _ _ _ _).one
      · exact ih (idx + 1) g (fun k => s k.succ) _ _ _ k
    · refine Fin.cases ?_ (fun k => ?_) k
      · exact (Use.process _ _ _ _).one
      · exact ih (idx + 1) g (fun k => s k.succ) _ _ _ k

theorem opNth_uses (X : Cell i o) {n : Nat} (s : Fin n → X.node.σ) (a : Fin n × X.Op) (k : Fin n) : Uses X (s k) (opNth X.op s a k) := by
  unfold opNth
  split
  · exact (Use.op _).one
  · exact .nil

/-! ## Parts of each combinator

`PartsOf f` is what `reach_part` needs. -/

structure Part {k q} (C : Cell k q) (X : Cell i o) (c : C.node.σ) (x : X.node.σ) (ρ : ℝ → ℝ) (f : C.node.σ → X.node.σ) : Prop where
  init : Reach X x (f c) (ρ 44100)
  use : ∀ s t, Use C s t → Uses X (f s) (f t)
  rate : ∀ s r, f (C.rate s r) = X.rate (f s) (ρ r)

theorem Part.reach {k q} {C : Cell k q} {X : Cell i o} {c x ρ} {f : C.node.σ → X.node.σ} (h : Part C X c x ρ f) {s r} (hs : Reach C c s r) : Reach X x (f s) (ρ r) :=
  reach_part f ρ h.init h.use h.rate hs

macro "pair_use" : tactic => `(tactic| (intro s t u; cases u with
  | tick x => exact (Use.tick _).one
  | process g size inp out => exact (Use.process _ _ _ _).one
  | reset => exact Use.reset.one
  | op a => cases a with
    | inl a => first | exact (Use.op a).one | exact .nil
    | inr a => first | exact (Use.op a).one | exact .nil))

theorem part_binop (op) (X : Cell i o) (Y : Cell j o) (x y) : Part (X.binop op Y) X (x, y) x id Prod.fst ∧ Part (X.binop op Y) Y (x, y) y id Prod.snd :=
  ⟨⟨.new, by pair_use, fun _ _ => rfl⟩, ⟨.new, by pair_use, fun _ _ => rfl⟩⟩

theorem part_pipe (X : Cell i j) (Y : Cell j o) (x y) : Part (X.pipe Y) X (x, y) x id Prod.fst ∧ Part (X.pipe Y) Y (x, y) y id Prod.snd :=
  ⟨⟨.new, by pair_use, fun _ _ => rfl⟩, ⟨.new, by pair_use, fun _ _ => rfl⟩⟩

theorem part_stack (X : Cell i o) (Y : Cell j p) (x y) : Part (X.stack Y) X (x, y) x id Prod.fst ∧ Part (X.stack Y) Y (x, y) y id Prod.snd :=
  ⟨⟨.new, by pair_use, fun _ _ => rfl⟩, ⟨.new, by pair_use, fun _ _ => rfl⟩⟩

theorem part_branch (X : Cell i o) (Y : Cell i p) (x y) : Part (X.branch Y) X (x, y) x id Prod.fst ∧ Part (X.branch Y) Y (x, y) y id Prod.snd :=
  ⟨⟨.new, by pair_use, fun _ _ => rfl⟩, ⟨.new, by pair_use, fun _ _ => rfl⟩⟩

theorem part_bus (X Y : Cell i o) (x y) : Part (X.bus Y) X (x, y) x id Prod.fst ∧ Part (X.bus Y) Y (x, y) y id Prod.snd :=
  ⟨⟨.new, by pair_use, fun _ _ => rfl⟩, ⟨.new, by pair_use, fun _ _ => rfl⟩⟩

theorem part_unop (op) (X : Cell i o) (x) : Part (X.unop op) X x x id id := by
  refine ⟨.new, ?_, fun _ _ => rfl⟩
  intro s t u
  cases u with
  | tick x => exact (Use.tick (C := X) x).one
  | process g size inp out => exact (Use.process (C := X) _ _ _ _).one
  | reset => exact (Use.reset (C := X)).one
  | op a => exact (Use.op (C := X) a).one

theorem part_thru (X : Cell i o) (x) : Part X.thru X x x id id := by
  refine ⟨.new, ?_, fun _ _ => rfl⟩
  intro s t u
  cases u with
  | tick x => exact (Use.tick (C := X) x).one
  | process g size inp out =>
    show Uses X s (Fundsp.thru X.node |>.process g s size inp out).1
    unfold Fundsp.thru
    dsimp only
    split
    · exact .nil
    · split
      · exact (Use.process (C := X) _ _ _ _).one
      · exact (Use.process (C := X) _ _ _ _).one
  | reset => exact (Use.reset (C := X)).one
  | op a => exact (Use.op (C := X) a).one

theorem part_multiBus (X : Cell i o) (n : Nat) (x : Fin (n + 1) → X.node.σ) (k) : Part (X.multiBus n) X x (x k) id (fun s => s k) := by
  refine ⟨.new, ?_, fun _ _ => rfl⟩
  intro s t u
  cases u with
  | tick x => exact (Use.tick _).one
  | process g size inp out =>
    change Fin (n + 1) → X.node.σ at s
    have key : ∀ k : Fin (n + 1), Uses X (s k) (((X.multiBus n).node.process g s size inp out).1 k) := by
      intro k
      refine Fin.cases ?_ (fun k => ?_) k
      · exact (Use.process (C := X) _ _ _ _).one
      · exact (Use.process (C := X) _ _ _ _).one
    exact key k
  | reset => exact Use.reset.one
  | op a => exact opNth_uses X s a k

theorem part_reduce (op) (X : Cell i o) (n : Nat) (x : Fin (n + 1) → X.node.σ) (k) : Part (X.reduce op n) X x (x k) id (fun s => s k) := by
  refine ⟨.new, ?_, fun _ _ => rfl⟩
  intro s t u
  cases u with
  | tick x => exact (Use.tick _).one
  | process g size inp out =>
    change Fin (n + 1) → X.node.σ at s
    have key : ∀ k : Fin (n + 1), Uses X (s k) (((X.reduce op n).node.process g s size inp out).1 k) := by
      intro k
      refine Fin.cases ?_ (fun k => ?_) k
      · exact (Use.process (C := X) _ _ _ _).one
      · exact (Use.process (C := X) _ _ _ _).one
    exact key k
  | reset => exact Use.reset.one
  | op a => exact opNth_uses X s a k

theorem part_multiStack (X : Cell i o) (n : Nat) (x : Fin n → X.node.σ) (k) : Part (X.multiStack n) X x (x k) id (fun s => s k) := by
  refine ⟨.new, ?_, fun _ _ => rfl⟩
  intro s t u
  cases u with
  | tick x => exact (Use.tick _).one
  | process g size inp out => exact (Use.process _ _ _ _).one
  | reset => exact Use.reset.one
  | op a => exact opNth_uses X s a k

theorem part_multiBranch (X : Cell i o) (n : Nat) (x : Fin n → X.node.σ) (k) : Part (X.multiBranch n) X x (x k) id (fun s => s k) := by
  refine ⟨.new, ?_, fun _ _ => rfl⟩
  intro s t u
  cases u with
  | tick x => exact (Use.tick _).one
  | process g size inp out => exact (Use.process _ _ _ _).one
  | reset => exact Use.reset.one
  | op a => exact opNth_uses X s a k

theorem part_chain (X : Cell i i) (n : Nat) (x : Fin (n + 1) → X.node.σ) (k) : Part (X.chain n) X x (x k) id (fun s => s k) := by
  refine ⟨.new, ?_, fun _ _ => rfl⟩
  intro s t u
  cases u with
  | tick x =>
    obtain ⟨y, hy⟩ := chainTick_each X.node (n + 1) s x k
    show Uses X (s k) ((chainTick X.node (n + 1) s x).1 k)
    rw [hy]
    exact (Use.tick _).one
  | process g size inp out => exact chainProcess_uses X size _ _ _ _ _ _ _ k
  | reset => exact Use.reset.one
  | op a => exact opNth_uses X s a k

theorem part_feedback {n : Nat} (op) (X : Cell n n) (x) : Part (X.feedback op) X (x, fun _ => 0) x id Prod.fst := by
  refine ⟨.new, ?_, fun _ _ => rfl⟩
  intro s t u
  cases u with
  | tick x => exact (Use.tick _).one
  | process g size inp out => exact tickLoop_uses (X := X) Prod.fst (fun _ _ => (Use.tick _).one) _ _ _ _ _
  | reset => exact Use.reset.one
  | op a => exact (Use.op (C := X) a).one

theorem part_feedback2 {n : Nat} (op) (X Y : Cell n n) (x y) :
    Part (X.feedback2 op Y) X (x, y, fun _ => 0) x id (fun s => s.1) ∧ Part (X.feedback2 op Y) Y (x, y, fun _ => 0) y id (fun s => s.2.1) := by
  constructor
  · refine ⟨.new, ?_, fun _ _ => rfl⟩
    intro s t u
    cases u with
    | tick x => exact (Use.tick _).one
    | process g size inp out => exact tickLoop_uses (X := X) (fun s : X.node.σ × Y.node.σ × Frame ℝ n => s.1) (fun _ _ => (Use.tick _).one) _ _ _ _ _
    | reset => exact Use.reset.one
    | op a => cases a with
      | inl a => exact (Use.op a).one
      | inr a => exact .nil
  · refine ⟨.new, ?_, fun _ _ => rfl⟩
    intro s t u
    cases u with
    | tick x => exact (Use.tick _).one
    | process g size inp out => exact tickLoop_uses (X := Y) (fun s : X.node.σ × Y.node.σ × Frame ℝ n => s.2.1) (fun _ _ => (Use.tick _).one) _ _ _ _ _
    | reset => exact Use.reset.one
    | op a => cases a with
      | inl a => exact .nil
      | inr a => exact (Use.op a).one

theorem part_resampler (X : Cell 0 o) (x) : Part X.resampler X (resNew X x) x id (fun s => s.x) := by
  refine ⟨.rate _ .new, ?_, fun _ _ => rfl⟩
  intro s t u
  have ht : ∀ (s : Rs.ResSt X.node.σ o) (x : Frame ℝ 1), Uses X s.x (Rs.resTick X.node s x).1.x := fun s x =>
    produce_uses X (⌊s.consumer + max 0 (x 0) - (s.consumer + max 0 (x 0) - ⌊s.consumer + max 0 (x 0)⌋)⌋₊ + 3 - s.producer) ⟨s.x, s.buffer, s.consumer + max 0 (x 0), s.producer⟩
  cases u with
  | tick x => exact ht s x
  | process g size inp out => exact tickLoop_uses (X := X) (fun s : Rs.ResSt X.node.σ o => s.x) ht _ _ _ _ _
  | reset => exact Use.reset.one
  | op a => exact (Use.op (C := X) a).one

theorem part_oversampler (h) (X : Cell i o) (x) : Part (X.oversampler h) X (overNew X x) x (fun r => r * 2) (fun s => s.x) := by
  refine ⟨.rate _ .new, ?_, fun _ _ => rfl⟩
  intro s t u
  have ht : ∀ (s : Rs.OverSt X.node.σ i o) (x : Frame ℝ i), Uses X s.x (Rs.overTick h X.node s x).1.x := fun s x => Uses.trans (Use.tick _).one (Use.tick _).one
  cases u with
  | tick x => exact ht s x
  | process g size inp out => exact tickLoop_uses (X := X) (fun s : Rs.OverSt X.node.σ i o => s.x) ht _ _ _ _ _
  | reset => exact Use.reset.one
  | op a => exact (Use.op (C := X) a).one

/-- The feedback unit also remembers the rate, and passes on changes only. -/
theorem reach_feedbackUnit {n : Nat} (X : Cell n n) (x) (delay : ℝ) {s : FbuSt X.node} {r : ℝ} (h : Reach X.feedbackUnit (fbuNew X x delay) s r) :
    s.sr = r ∧ Reach X x s.base.x r := by
  refine reach_inv (C := X.feedbackUnit) (fun (s : FbuSt X.node) r => s.sr = r ∧ Reach X x s.base.x r) ?_ ?_ ?_ h
  · have e : fbuNew X x delay = ⟨Delay.fbSetup 0 (X.rate x 44100) (roundNat (delay * 44100)), 44100, delay⟩ := by
      show (if (0 : ℝ) ≠ 44100 then _ else _) = _
      rw [if_pos (by norm_num)]
    rw [e]
    exact ⟨rfl, .rate _ .new⟩
  · intro s t r ⟨h1, h2⟩ u
    cases u with
    | tick x => exact ⟨h1, h2.use (.tick _)⟩
    | process g size inp out =>
      refine ⟨h1, ?_⟩
      show Reach X x (Delay.fbProcess 0 (· + ·) X.node g s.base size inp out).1.x r
      unfold Delay.fbProcess
      dsimp only
      split
      · exact h2.use (.process _ _ _ _)
      · exact h2.uses (fbLoop_uses X _ _ _ _ _ _ _ _ _)
    | reset => exact ⟨h1, h2.use .reset⟩
    | op a => exact ⟨h1, h2.use (.op _)⟩
  · intro s r r' ⟨h1, h2⟩
    change FbuSt X.node at s
    by_cases hne : s.sr ≠ r'
    · have e : X.feedbackUnit.rate s r' = ({ s with base := Delay.fbSetup 0 (X.rate s.base.x r') (roundNat (s.delay * r')), sr := r' } : FbuSt X.node) := if_pos hne
      rw [e]
      exact ⟨rfl, .rate _ h2⟩
    · have e : X.feedbackUnit.rate s r' = s := if_neg hne
      have e' : s.sr = r' := not_not.1 hne
      rw [e]
      exact ⟨e', by rw [← e', h1]; exact h2⟩

/-! ## Theorems about all expressions -/

/-- **C105.** Whatever has been done to an expression, each of its parts runs at the rate last given to the whole, doubled by each oversampler around it. -/
theorem C105_parts {L : ∀ {i o : Nat} (C : Cell i o), C.node.σ → Prop} {C : Cell i o} {c : C.node.σ} {P : C.node.σ → ℝ → Prop} (hb : Built L C c P) :
    ∀ {s : C.node.σ} {r : ℝ}, Reach C c s r → P s r := by
  induction hb with
  | leaf _ => exact fun h => h
  | binop op _ _ ih1 ih2 => exact fun h => ⟨ih1 ((part_binop op _ _ _ _).1.reach h), ih2 ((part_binop op _ _ _ _).2.reach h)⟩
  | pipe _ _ ih1 ih2 => exact fun h => ⟨ih1 ((part_pipe _ _ _ _).1.reach h), ih2 ((part_pipe _ _ _ _).2.reach h)⟩
  | stack _ _ ih1 ih2 => exact fun h => ⟨ih1 ((part_stack _ _ _ _).1.reach h), ih2 ((part_stack _ _ _ _).2.reach h)⟩
  | branch _ _ ih1 ih2 => exact fun h => ⟨ih1 ((part_branch _ _ _ _).1.reach h), ih2 ((part_branch _ _ _ _).2.reach h)⟩
  | bus _ _ ih1 ih2 => exact fun h => ⟨ih1 ((part_bus _ _ _ _).1.reach h), ih2 ((part_bus _ _ _ _).2.reach h)⟩
  | unop op _ ih => exact fun h => ih ((part_unop op _ _).reach h)
  | @thru i o X x P _ ih => exact fun h => ih ((part_thru X x).reach h)
  | multiBus n _ ih => exact fun h k => ih k ((part_multiBus _ n _ k).reach h)
  | multiStack n _ ih => exact fun h k => ih k ((part_multiStack _ n _ k).reach h)
  | reduce op n _ ih => exact fun h k => ih k ((part_reduce op _ n _ k).reach h)
  | multiBranch n _ ih => exact fun h k => ih k ((part_multiBranch _ n _ k).reach h)
  | chain n _ ih => exact fun h k => ih k ((part_chain _ n _ k).reach h)
  | feedback op _ ih => exact fun h => ih ((part_feedback op _ _).reach h)
  | feedback2 op _ _ ih1 ih2 => exact fun h => ⟨ih1 ((part_feedback2 op _ _ _ _).1.reach h), ih2 ((part_feedback2 op _ _ _ _).2.reach h)⟩
  | feedbackUnit delay _ ih => exact fun h => ih (reach_feedbackUnit _ _ delay h).2
  | resampler _ ih => exact fun h => ih ((part_resampler _ _).reach h)
  | @oversampler i o X x P k _ ih =>
    intro s r h
    have e : P s.x (r * 2) := ih ((part_oversampler k _ _).reach h)
    rwa [mul_comm] at e

/-- **C105, part.** If setting the rate they already have disturbs none of the units in an expression, it does not disturb the expression. Missing: units that it does
disturb (`C105_violation_limiter`, `C105_violation_gain`). -/
theorem C105_unchanged_partial {C : Cell i o} {c : C.node.σ} {P : C.node.σ → ℝ → Prop} (hb : Built @Keeps C c P) : Keeps C c := by
  induction hb with
  | leaf h => exact h
  | binop op _ _ ih1 ih2 => exact fun s r h => Prod.ext (ih1 _ _ ((part_binop op _ _ _ _).1.reach h)) (ih2 _ _ ((part_binop op _ _ _ _).2.reach h))
  | pipe _ _ ih1 ih2 => exact fun s r h => Prod.ext (ih1 _ _ ((part_pipe _ _ _ _).1.reach h)) (ih2 _ _ ((part_pipe _ _ _ _).2.reach h))
  | stack _ _ ih1 ih2 => exact fun s r h => Prod.ext (ih1 _ _ ((part_stack _ _ _ _).1.reach h)) (ih2 _ _ ((part_stack _ _ _ _).2.reach h))
  | branch _ _ ih1 ih2 => exact fun s r h => Prod.ext (ih1 _ _ ((part_branch _ _ _ _).1.reach h)) (ih2 _ _ ((part_branch _ _ _ _).2.reach h))
  | bus _ _ ih1 ih2 => exact fun s r h => Prod.ext (ih1 _ _ ((part_bus _ _ _ _).1.reach h)) (ih2 _ _ ((part_bus _ _ _ _).2.reach h))
  | unop op _ ih => exact fun s r h => ih s r ((part_unop op _ _).reach h)
  | @thru i o X x P _ ih => exact fun s r h => ih s r ((part_thru X x).reach h)
  | multiBus n _ ih => exact fun s r h => funext fun k => ih k _ _ ((part_multiBus _ n _ k).reach h)
  | multiStack n _ ih => exact fun s r h => funext fun k => ih k _ _ ((part_multiStack _ n _ k).reach h)
  | reduce op n _ ih => exact fun s r h => funext fun k => ih k _ _ ((part_reduce op _ n _ k).reach h)
  | multiBranch n _ ih => exact fun s r h => funext fun k => ih k _ _ ((part_multiBranch _ n _ k).reach h)
  | chain n _ ih => exact fun s r h => funext fun k => ih k _ _ ((part_chain _ n _ k).reach h)
  | feedback op _ ih => exact fun s r h => Prod.ext (ih _ _ ((part_feedback op _ _).reach h)) rfl
  | feedback2 op _ _ ih1 ih2 =>
    exact fun s r h => Prod.ext (ih1 _ _ ((part_feedback2 op _ _ _ _).1.reach h)) (Prod.ext (ih2 _ _ ((part_feedback2 op _ _ _ _).2.reach h)) rfl)
  | feedbackUnit delay _ _ =>
    intro s r h
    have := (reach_feedbackUnit _ _ delay h).1
    exact if_neg (not_not.2 this)
  | @resampler o X x P _ ih =>
    intro s r h
    have e := ih _ _ ((part_resampler _ _).reach h)
    show ({ s with x := X.rate s.x r } : Rs.ResSt X.node.σ o) = s
    have e' : X.rate s.x r = s.x := e
    rw [e']
    rfl
  | @oversampler i o X x P k _ ih =>
    intro s r h
    have e' : X.rate s.x (r * 2) = s.x := ih _ _ ((part_oversampler k _ _).reach h)
    show ({ s with x := X.rate s.x (r * 2) } : Rs.OverSt X.node.σ i o) = s
    rw [e']
    rfl

/-! ## Units that use the sample rate

For each, what the rate last given determines, as a formula in that rate, and that the rate it already has does not disturb it. -/

/-- Uses of a unit of Param/Model. -/
theorem ofComp_inv {C : Comp i o} {reset : C.σ → C.σ} {c : C.σ} (I : C.σ → ℝ → Prop) (h0 : I c 44100) (ht : ∀ s x r, I s r → I (C.tick s x).1 r)
    (hz : ∀ s r, I s r → I (reset s) r) (hs : ∀ s a r, I s r → I (C.set s a) r) (hr : ∀ s r r', I s r → I (C.rate s r') r')
    {s : C.σ} {r : ℝ} (h : Reach (Cell.ofComp C reset) c s r) : I s r := by
  refine reach_inv (C := Cell.ofComp C reset) I h0 ?_ hr h
  intro s t r hI u
  cases u with
  | tick x => exact ht _ _ _ hI
  | process g size inp out => exact tickLoop_inv (P := fun s => I s r) (fun s x h => ht s x r h) _ _ _ _ _ hI
  | reset => exact hz _ _ hI
  | op a => exact hs _ _ _ hI

/-- **C105.** `lowpole`, `lowpole_hz`: the pole is that of the cutoff at the rate last given. -/
theorem C105_lowpole (n : Nat) (f : ℝ) {s : LowpoleFull} {r : ℝ} (h : Reach (lowpoleCell n) (lowpoleNew f) s r) :
    s.base.coeff = Real.exp (-(2 * Real.pi) * s.base.cutoff / r) ∧ (lowpoleCell n).rate s r = s := by
  have key : s.sr = r ∧ s.base.coeff = poleCoeff s.sr s.base.cutoff := by
    refine ofComp_inv (C := lowpoleComp n) (fun (s : LowpoleFull) r => s.sr = r ∧ s.base.coeff = poleCoeff s.sr s.base.cutoff) ⟨rfl, rfl⟩ ?_ ?_ ?_ ?_ h
    · intro s x r ⟨h1, h2⟩
      refine ⟨h1, ?_⟩
      change LowpoleFull at s
      show (lowpoleTick (poleCoeff s.sr) n s.base x).1.coeff = poleCoeff s.sr (lowpoleTick (poleCoeff s.sr) n s.base x).1.cutoff
      unfold lowpoleTick
      dsimp only
      split
      · split
        · rfl
        · exact h2
      · exact h2
    · intro s r h; exact h
    · intro s a r h
      cases a <;> first | exact h | exact ⟨h.1, rfl⟩
    · intro s r r' _; exact ⟨rfl, rfl⟩
  obtain ⟨k1, k2⟩ := key
  refine ⟨by rw [k2, k1]; rfl, ?_⟩
  show ({ base := { s.base with cutoff := s.base.cutoff, coeff := poleCoeff r s.base.cutoff }, sr := r } : LowpoleFull) = s
  rw [← k1, ← k2]

/-- **C105.** `highpole`, `highpole_hz`. -/
theorem C105_highpole (n : Nat) (f : ℝ) {s : HighpoleFull} {r : ℝ} (h : Reach (highpoleCell n) (highpoleNew f) s r) :
    s.base.coeff = Real.exp (-(2 * Real.pi) * s.cutoff / r) ∧ (highpoleCell n).rate s r = s := by
  have key : s.sr = r ∧ s.base.coeff = poleCoeff s.sr s.cutoff := by
    refine ofComp_inv (C := highpoleComp n) (fun (s : HighpoleFull) r => s.sr = r ∧ s.base.coeff = poleCoeff s.sr s.cutoff) ⟨rfl, rfl⟩ ?_ ?_ ?_ ?_ h
    · intro s x r ⟨h1, h2⟩
      change HighpoleFull at s
      have e : (s.follow n x).sr = r ∧ (s.follow n x).base.coeff = poleCoeff (s.follow n x).sr (s.follow n x).cutoff := by
        unfold HighpoleFull.follow
        dsimp only
        split
        · split
          · exact ⟨h1, rfl⟩
          · exact ⟨h1, h2⟩
        · exact ⟨h1, h2⟩
      exact e
    · intro s r h; exact h
    · intro s a r h
      cases a <;> first | exact h | exact ⟨h.1, rfl⟩
    · intro s r r' _; exact ⟨rfl, rfl⟩
  obtain ⟨k1, k2⟩ := key
  refine ⟨by rw [k2, k1]; rfl, ?_⟩
  show ({ base := { s.base with coeff := poleCoeff r s.cutoff }, cutoff := s.cutoff, sr := r } : HighpoleFull) = s
  rw [← k1, ← k2]

/-- **C105.** `dcblock`, `dcblock_hz`. -/
theorem C105_dcblock (f : ℝ) {s : DcFull} {r : ℝ} (h : Reach dcCell (dcNew f) s r) :
    s.base.coeff = 1 - 2 * Real.pi / r * s.cutoff ∧ dcCell.rate s r = s := by
  have key : s.sr = r ∧ s.base.coeff = dcCoeff s.sr s.cutoff := by
    refine ofComp_inv (C := dcComp) (fun (s : DcFull) r => s.sr = r ∧ s.base.coeff = dcCoeff s.sr s.cutoff) ⟨rfl, rfl⟩ ?_ ?_ ?_ ?_ h
    · intro s x r h; exact h
    · intro s r h; exact h
    · intro s a r h
      cases a <;> first | exact h | exact ⟨h.1, rfl⟩
    · intro s r r' _; exact ⟨rfl, rfl⟩
  obtain ⟨k1, k2⟩ := key
  refine ⟨by rw [k2, k1]; rfl, ?_⟩
  show ({ base := { s.base with coeff := dcCoeff r s.cutoff }, cutoff := s.cutoff, sr := r } : DcFull) = s
  rw [← k1, ← k2]

/-- **C105.** `butterpass`, `butterpass_hz`: the coefficients are those of the cutoff at the rate last given. -/
theorem C105_butterpass (n : Nat) (f : ℝ) {s : ButterFull} {r : ℝ} (h : Reach (butterCell n) (butterNew f) s r) :
    s.biquad.coefs = butterLowpass r s.cutoff ∧ (butterCell n).rate s r = s := by
  have key : s.sr = r ∧ s.biquad.coefs = butterLowpass s.sr s.cutoff := by
    refine ofComp_inv (C := butterComp n) (fun (s : ButterFull) r => s.sr = r ∧ s.biquad.coefs = butterLowpass s.sr s.cutoff) ⟨rfl, rfl⟩ ?_ ?_ ?_ ?_ h
    · intro s x r ⟨h1, h2⟩
      change ButterFull at s
      have e : (s.follow n x).sr = r ∧ (s.follow n x).biquad.coefs = butterLowpass (s.follow n x).sr (s.follow n x).cutoff := by
        unfold ButterFull.follow
        dsimp only
        split
        · split
          · exact ⟨h1, rfl⟩
          · exact ⟨h1, h2⟩
        · exact ⟨h1, h2⟩
      exact e
    · intro s r h; exact h
    · intro s a r h
      cases a <;> first | exact h | exact ⟨h.1, rfl⟩
    · intro s r r' _; exact ⟨rfl, rfl⟩
  obtain ⟨k1, k2⟩ := key
  refine ⟨by rw [k2, k1], ?_⟩
  show ({ biquad := { s.biquad with coefs := butterLowpass r s.cutoff }, sr := r, cutoff := s.cutoff } : ButterFull) = s
  rw [← k1, ← k2]

/-- **C105.** `resonator`, `resonator_hz`. -/
theorem C105_resonator (n : Nat) (f q : ℝ) {s : ResonatorFull} {r : ℝ} (h : Reach (resonatorCell n) (resonatorNew f q) s r) :
    s.biquad.coefs = resonatorCoefs r s.center s.q ∧ (resonatorCell n).rate s r = s := by
  have key : s.sr = r ∧ s.biquad.coefs = resonatorCoefs s.sr s.center s.q := by
    refine ofComp_inv (C := resonatorComp n) (fun (s : ResonatorFull) r => s.sr = r ∧ s.biquad.coefs = resonatorCoefs s.sr s.center s.q) ⟨rfl, rfl⟩ ?_ ?_ ?_ ?_ h
    · intro s x r ⟨h1, h2⟩
      change ResonatorFull at s
      have e : (s.follow n x).sr = r ∧ (s.follow n x).biquad.coefs = resonatorCoefs (s.follow n x).sr (s.follow n x).center (s.follow n x).q := by
        unfold ResonatorFull.follow
        dsimp only
        split
        · split
          · exact ⟨h1, rfl⟩
          · exact ⟨h1, h2⟩
        · exact ⟨h1, h2⟩
      exact e
    · intro s r h; exact h
    · intro s a r h; exact h
    · intro s r r' _; exact ⟨rfl, rfl⟩
  obtain ⟨k1, k2⟩ := key
  refine ⟨by rw [k2, k1], ?_⟩
  show ({ biquad := { s.biquad with coefs := resonatorCoefs r s.center s.q }, sr := r, center := s.center, q := s.q } : ResonatorFull) = s
  rw [← k1, ← k2]

/-- **C105.** `follow`: the response time holds at the rate last given, also while it starts. -/
theorem C105_follow (t : ℝ) {s : FollowFull} {r : ℝ} (h : Reach followCell (followNew t) s r) :
    s.base.coeff = halfwayCoeff (s.time * r) ∧ followCell.rate s r = s := by
  have key : s.sr = r ∧ s.base.coeff = halfwayCoeff (s.time * s.sr) ∧ (s.base.coeffNow < 1 → s.base.coeffNow = s.base.coeff) := by
    refine ofComp_inv (C := followComp) (fun (s : FollowFull) r => s.sr = r ∧ s.base.coeff = halfwayCoeff (s.time * s.sr) ∧ (s.base.coeffNow < 1 → s.base.coeffNow = s.base.coeff))
      ?_ ?_ ?_ ?_ ?_ h
    · refine ⟨rfl, rfl, fun hlt => absurd hlt ?_⟩
      show ¬ (if (1 : ℝ) < 1 then _ else (1 : ℝ)) < 1
      rw [if_neg (lt_irrefl _)]
      exact lt_irrefl _
    · intro s x r h; exact ⟨h.1, h.2.1, fun _ => rfl⟩
    · intro s r h; exact ⟨h.1, h.2.1, fun hlt => absurd hlt (lt_irrefl _)⟩
    · intro s a r h
      change FollowFull at s
      cases a <;> first | exact h | skip
      rename_i t
      refine ⟨h.1, rfl, ?_⟩
      show (if s.base.coeffNow < 1 then halfwayCoeff (t * s.sr) else s.base.coeffNow) < 1 → (if s.base.coeffNow < 1 then halfwayCoeff (t * s.sr) else s.base.coeffNow) = halfwayCoeff (t * s.sr)
      split
      · exact fun _ => rfl
      · exact fun hlt => absurd hlt (by assumption)
    · intro s r r' _
      change FollowFull at s
      refine ⟨rfl, rfl, ?_⟩
      show (if s.base.coeffNow < 1 then halfwayCoeff (s.time * r') else s.base.coeffNow) < 1 → (if s.base.coeffNow < 1 then halfwayCoeff (s.time * r') else s.base.coeffNow) = halfwayCoeff (s.time * r')
      split
      · exact fun _ => rfl
      · exact fun hlt => absurd hlt (by assumption)
  obtain ⟨k1, k2, k3⟩ := key
  refine ⟨by rw [k2, k1], ?_⟩
  show ({ base := { s.base with coeff := halfwayCoeff (s.time * r), coeffNow := if s.base.coeffNow < 1 then halfwayCoeff (s.time * r) else s.base.coeffNow }, time := s.time, sr := r } : FollowFull) = s
  rw [← k1, ← k2]
  by_cases hlt : s.base.coeffNow < 1
  · rw [if_pos hlt, ← k3 hlt]
    have : ({ s.base with coeff := s.base.coeffNow, coeffNow := s.base.coeffNow } : FollowSt ℝ) = s.base := by rw [k3 hlt]; conv_rhs => rw [show s.base = ⟨s.base.v1, s.base.v2, s.base.v3, s.base.coeff, s.base.coeffNow⟩ from rfl, k3 hlt]
    rw [this]
  · rw [if_neg hlt]

/-- **C105.** `afollow`: both response times hold at the rate last given. -/
theorem C105_afollow (a b : ℝ) {s : AFollowFull} {r : ℝ} (h : Reach afollowCell (afollowNew a b) s r) :
    s.base.acoeff = halfwayCoeff (s.atime * r) ∧ s.base.rcoeff = halfwayCoeff (s.rtime * r) ∧ afollowCell.rate s r = s := by
  let I : AFollowFull → ℝ → Prop := fun s r => s.sr = r ∧ s.base.acoeff = halfwayCoeff (s.atime * s.sr) ∧ s.base.rcoeff = halfwayCoeff (s.rtime * s.sr) ∧
    (s.base.acoeffNow < 1 → s.base.acoeffNow = s.base.acoeff ∧ s.base.rcoeffNow = s.base.rcoeff)
  have hset : ∀ (s : AFollowFull) (a b : ℝ), I (s.setTime a b) s.sr := by
    intro s a b
    refine ⟨rfl, rfl, rfl, ?_⟩
    show (if s.base.acoeffNow < 1 then halfwayCoeff (a * s.sr) else s.base.acoeffNow) < 1 → (if s.base.acoeffNow < 1 then halfwayCoeff (a * s.sr) else s.base.acoeffNow) = halfwayCoeff (a * s.sr) ∧
      (if s.base.acoeffNow < 1 then halfwayCoeff (b * s.sr) else s.base.rcoeffNow) = halfwayCoeff (b * s.sr)
    by_cases hlt : s.base.acoeffNow < 1
    · rw [if_pos hlt, if_pos hlt]; exact fun _ => ⟨rfl, rfl⟩
    · rw [if_neg hlt]; exact fun h => absurd h hlt
  have key : I s r := by
    refine ofComp_inv (C := afollowComp) I ?_ ?_ ?_ ?_ ?_ h
    · exact hset { base := _, atime := a, rtime := b, sr := 44100 } a b
    · intro s x r h; exact ⟨h.1, h.2.1, h.2.2.1, fun _ => ⟨rfl, rfl⟩⟩
    · intro s r h; exact ⟨h.1, h.2.1, h.2.2.1, fun hlt => absurd hlt (lt_irrefl _)⟩
    · intro s a r h
      change AFollowFull at s
      cases a <;> first | exact h | skip
      rename_i a b
      have e := hset s a b
      rw [h.1] at e
      exact e
    · intro s r r' _
      change AFollowFull at s
      exact hset { s with sr := r' } s.atime s.rtime
  obtain ⟨k1, k2, k3, k4⟩ := key
  refine ⟨by rw [k2, k1], by rw [k3, k1], ?_⟩
  show ({ base := { s.base with
      acoeff := halfwayCoeff (s.atime * r), rcoeff := halfwayCoeff (s.rtime * r),
      acoeffNow := if s.base.acoeffNow < 1 then halfwayCoeff (s.atime * r) else s.base.acoeffNow,
      rcoeffNow := if s.base.acoeffNow < 1 then halfwayCoeff (s.rtime * r) else s.base.rcoeffNow }, atime := s.atime, rtime := s.rtime, sr := r } : AFollowFull) = s
  rw [← k1, ← k2, ← k3]
  obtain ⟨⟨v1, v2, v3, ac, rc, an, rn⟩, at', rt, sr⟩ := s
  dsimp only at k4 ⊢
  by_cases hlt : an < 1
  · rw [if_pos hlt, if_pos hlt, ← (k4 hlt).1, ← (k4 hlt).2]
  · rw [if_neg hlt, if_neg hlt]

/-- **C105.** `bandrez_hz`, `lowrez_hz`: both coefficients are those of cutoff and resonance at the rate last given. -/
theorem C105_rez (bandpass cutoff q : ℝ) {s : RezSt} {r : ℝ} (h : Reach rezCell (rezNew bandpass cutoff q) s r) :
    s.f = 2 * Real.sin (Real.pi * s.cutoff / r) ∧ s.fb = s.q + s.q / (1 - s.f) ∧ rezCell.rate s r = s := by
  have key : s.sampleRate = r ∧ s.f = 2 * Real.sin (Real.pi * s.cutoff / s.sampleRate) ∧ s.fb = s.q + s.q / (1 - s.f) := by
    refine ofComp_inv (C := rezComp1) (fun (s : RezSt) r => s.sampleRate = r ∧ s.f = 2 * Real.sin (Real.pi * s.cutoff / s.sampleRate) ∧ s.fb = s.q + s.q / (1 - s.f))
      ⟨rfl, rfl, rfl⟩ ?_ ?_ ?_ ?_ h
    · intro s x r h; exact h
    · intro s r h; exact h
    · intro s a r h
      cases a <;> first | exact h | exact ⟨h.1, rfl, rfl⟩
    · intro s r r' _; exact ⟨rfl, rfl, rfl⟩
  obtain ⟨k1, k2, k3⟩ := key
  refine ⟨by rw [k2, k1], k3, ?_⟩
  show ({ s with sampleRate := r, f := 2 * Real.sin (Real.pi * s.cutoff / r), fb := s.q + s.q / (1 - 2 * Real.sin (Real.pi * s.cutoff / r)) } : RezSt) = s
  rw [← k1, ← k2, ← k3]

/-- **C105.** Filters with inputs (`lowpass`, `bell` and so on): the coefficients are those of the current parameters at the rate last given. -/
theorem C105_svf (m : SvfMode) (cutoff q gain : ℝ) {s : SvfSt} {r : ℝ} (h : Reach (svfCell m) (SvfSt.new m ⟨44100, cutoff, q, gain⟩) s r) :
    s.p.sr = r ∧ s.coefs = m.coefs ⟨r, s.p.cutoff, s.p.q, s.p.gain⟩ ∧ (svfCell m).rate s r = s := by
  have key : s.p.sr = r ∧ s.coefs = m.coefs s.p := by
    have ht : ∀ (s : SvfSt) (x : Frame ℝ m.arity) (r : ℝ), s.p.sr = r ∧ s.coefs = m.coefs s.p → (s.tick m x).1.p.sr = r ∧ (s.tick m x).1.coefs = m.coefs (s.tick m x).1.p := by
      intro s x r ⟨h1, h2⟩
      show (s.latch m x).p.sr = r ∧ (s.latch m x).coefs = m.coefs (s.latch m x).p
      unfold SvfSt.latch SvfSt.updateInputs
      split
      · split
        · split
          · exact ⟨h1, rfl⟩
          · exact ⟨h1, h2⟩
        · split
          · exact ⟨h1, rfl⟩
          · exact ⟨h1, h2⟩
      · exact ⟨h1, h2⟩
    refine reach_inv (C := svfCell m) (fun (s : SvfSt) r => s.p.sr = r ∧ s.coefs = m.coefs s.p) ⟨rfl, rfl⟩ ?_ ?_ h
    · intro s t r hI u
      cases u with
      | tick x => exact ht s x r hI
      | process g size inp out => exact tickLoop_inv (P := fun s : SvfSt => s.p.sr = r ∧ s.coefs = m.coefs s.p) (fun s x h => ht s x r h) _ _ _ _ _ hI
      | reset => exact hI
      | op a => exact hI
    · intro s r r' _; exact ⟨rfl, rfl⟩
  obtain ⟨k1, k2⟩ := key
  refine ⟨k1, by rw [k2, ← k1], ?_⟩
  show ({ s with p := { s.p with sr := r }, coefs := m.coefs { s.p with sr := r } } : SvfSt) = s
  rw [← k1, ← k2]

/-- **C105.** `ramp`: one sample lasts one over the rate last given, and the phase is kept. -/
theorem C105_ramp (rnd : BitVec 64 → ℝ) {s : Osc.OscSt} {r : ℝ} (h : Reach (rampCell rnd) (Osc.OscSt.new rnd) s r) :
    s.sampleDuration = 1 / r ∧ (rampCell rnd).rate s r = s := by
  have key : s.sampleDuration = 1 / r := by
    refine reach_inv (C := rampCell rnd) (fun (s : Osc.OscSt) r => s.sampleDuration = 1 / r) rfl ?_ ?_ h
    · intro s t r hI u
      cases u with
      | tick x => exact hI
      | process g size inp out => exact tickLoop_inv (P := fun s : Osc.OscSt => s.sampleDuration = 1 / r) (fun s x h => h) _ _ _ _ _ hI
      | reset => exact hI
      | op a => exact hI
    · intro s r r' _; rfl
  refine ⟨key, ?_⟩
  show ({ s with sampleDuration := 1 / r } : Osc.OscSt) = s
  rw [← key]

/-- The setters of a fixed filter other than that of the gain alone. -/
def NotGain : FixedSet → Prop
  | .gain _ | .sampleRate _ => False
  | _ => True

/-- **C105, part.** Filters with fixed parameters (`lowpass_hz`, `bell_hz` and so on). Missing: the setter of the gain (`C105_violation_gain`). -/
theorem C105_fixed_partial (m : SvfMode) (cutoff q gain : ℝ) {s : FixedSt} {r : ℝ} (h : Reach (fixedSvfCell m NotGain) (FixedSt.new m ⟨44100, cutoff, q, gain⟩) s r) :
    s.coefs = m.coefs ⟨r, s.p.cutoff, s.p.q, s.p.gain⟩ ∧ (fixedSvfCell m NotGain).rate s r = s := by
  have key : s.p.sr = r ∧ s.coefs = m.coefs s.p := by
    refine reach_inv (C := fixedSvfCell m NotGain) (fun (s : FixedSt) r => s.p.sr = r ∧ s.coefs = m.coefs s.p) ⟨rfl, rfl⟩ ?_ ?_ h
    · intro s t r hI u
      cases u with
      | tick x => exact hI
      | process g size inp out => exact tickLoop_inv (P := fun s : FixedSt => s.p.sr = r ∧ s.coefs = m.coefs s.p) (fun s x h => h) _ _ _ _ _ hI
      | reset => exact hI
      | op a =>
        obtain ⟨a, ha⟩ := a
        cases a with
        | gain _ => exact absurd ha id
        | sampleRate _ => exact absurd ha id
        | center c => exact ⟨hI.1, rfl⟩
        | centerQ c q => exact ⟨hI.1, rfl⟩
        | centerQGain c q g => exact ⟨hI.1, rfl⟩
        | q q => exact ⟨hI.1, rfl⟩
    · intro s r r' _; exact ⟨rfl, rfl⟩
  obtain ⟨k1, k2⟩ := key
  refine ⟨by rw [k2, ← k1], ?_⟩
  show ({ s with p := { s.p with sr := r }, coefs := m.coefs { s.p with sr := r } } : FixedSt) = s
  rw [← k1, ← k2]

/-! ## Where the code does not keep the contract -/

/-- **C105, negative.** Giving a limiter that has been running the rate it already has empties it: the next `L` samples, its lookahead, are silence, whatever is
played, although without the call a signal with headroom would go on. -/
theorem C105_violation_limiter {n L : Nat} {a r sr lookahead : ℝ} (hL : Dyn.limLength sr lookahead = L) (ha : 0 ≤ a ∧ a ≤ 1) (hr : 0 ≤ r ∧ r ≤ 1)
    (x : Nat → Frame ℝ n) (hx : ∀ k, Dyn.amp (x k) ≤ 10 / 11) (k : Nat) (hk : L ≤ k) {s : Dyn.LimSt n} (hs : Dyn.limRun (Dyn.limNew n L a r) x k = some s) :
    Dyn.limOut (Dyn.limNew n L a r) x k = some (x (k - L)) ∧
      ∀ m < L, Dyn.limOut (limSetRate lookahead a r s sr) (fun m => x (k + m)) m = some (fun _ => 0) := by
  have h1 : 1 ≤ L := by rw [← hL]; exact le_max_left _ _
  refine ⟨by rw [Dyn.C46_transparent h1 ha hr x hx, if_neg (by omega)], fun m hm => ?_⟩
  obtain ⟨t, ht, hok⟩ := Dyn.limRun_ok h1 (Dyn.limNew_ok (n := n) h1 a r x) k
  obtain rfl : s = t := Option.some.inj (hs.symm.trans ht)
  obtain ⟨q1, q2, q3, q4, q5⟩ := (Dyn.limReset_ok (x := fun m => x (k + m)) h1 hs).1
  have e : (limSetRate lookahead a r s sr).red = (Dyn.limReset s).red := by
    show Dyn.rbClear 0 (if Dyn.limLength sr lookahead ≠ s.red.length then _ else s.red) = Dyn.rbClear 0 s.red
    rw [if_neg (by rw [hL, hok.len]; exact not_not.2 rfl)]
  have hok' : Dyn.LimOK L (fun m => x (k + m)) 0 (limSetRate lookahead a r s sr) := ⟨by rw [e]; exact q1, q2, q3, q4, by rw [e]; exact q5⟩
  obtain ⟨peak, hpk⟩ := Dyn.exists_peak h1 (fun m => x (k + m))
  rw [Dyn.lim_out h1 hok' hpk, if_pos hm]

/-- The case of the previous theorem for a lookahead of ten milliseconds at 44100 Hz: 441 samples of a constant signal are lost. -/
example : ∃ s, Dyn.limRun (Dyn.limNew 1 441 (1 / 2) (1 / 2)) (fun _ _ => 1 / 2) 1000 = some s ∧
    Dyn.limOut (Dyn.limNew 1 441 (1 / 2) (1 / 2)) (fun _ _ => 1 / 2) 1000 = some (fun _ => 1 / 2) ∧
    ∀ m < 441, Dyn.limOut (limSetRate 0.01 (1 / 2) (1 / 2) s 44100) (fun _ _ => 1 / 2) m = some (fun _ => 0) := by
  obtain ⟨s, hs, _⟩ := Dyn.limRun_ok (L := 441) (by norm_num) (Dyn.limNew_ok (n := 1) (by norm_num) (1 / 2) (1 / 2) (fun _ _ => 1 / 2)) 1000
  have hl : Dyn.limLength 44100 0.01 = 441 := by
    unfold Dyn.limLength
    have : ⌊(44100 : ℝ) * 0.01 + 1 / 2⌋₊ = 441 := by rw [Nat.floor_eq_iff (by norm_num)]; norm_num
    rw [this]; rfl
  have ha : Dyn.amp (fun _ => 1 / 2 : Frame ℝ 1) ≤ 10 / 11 := by
    simp only [Dyn.amp, Fin.foldl_succ, Fin.foldl_zero, abs_of_nonneg (by norm_num : (0:ℝ) ≤ 1 / 2)]
    norm_num
  exact ⟨s, hs, C105_violation_limiter hl (by norm_num) (by norm_num) (fun _ _ => 1 / 2) (fun _ => ha) 1000 (by norm_num) hs⟩

/-- **C105, negative.** A bell whose gain has been set from 1 to 4 passes a first sample 1 as 1; after it is given the rate it already has, it makes it 8/5. -/
theorem C105_violation_gain : ∃ s : FixedSt, Reach (fixedSvfCell .bell (fun _ => True)) (FixedSt.new .bell ⟨44100, 11025, 1, 1⟩) s 44100 ∧
    fixedSvf.stream s (fun _ _ => 1) 0 0 = 1 ∧ fixedSvf.stream ((fixedSvfCell .bell (fun _ => True)).rate s 44100) (fun _ _ => 1) 0 0 = 8 / 5 := by
  have htan : Real.tan (Real.pi * 11025 / 44100) = 1 := by rw [show Real.pi * 11025 / 44100 = Real.pi / 4 by ring]; exact Real.tan_pi_div_four
  have h4 : √(4 : ℝ) = 2 := by rw [show (4 : ℝ) = 2 ^ 2 by norm_num]; exact Real.sqrt_sq (by norm_num)
  refine ⟨_, .use .new (.op (C := fixedSvfCell .bell (fun _ => True)) ⟨.gain 4, trivial⟩), ?_, ?_⟩
  · show (svfTick (SvfMode.bell.coefs ⟨44100, 11025, 1, 1⟩) (0, 0) 1).2 = 1
    simp only [SvfMode.coefs, svfBell, svfCoefs, svfTick, htan, Real.sqrt_one]
    norm_num
  · show (svfTick (SvfMode.bell.coefs ⟨44100, 11025, 1, 4⟩) (0, 0) 1).2 = 8 / 5
    simp only [SvfMode.coefs, svfBell, svfCoefs, svfTick, htan, h4]
    norm_num

/-! ## Cases -/

/-- A lowpole piped to a twice oversampled lowpole. -/
def caseCell (h : Nat → ℝ) : Cell 1 1 := (lowpoleCell 0).pipe (((lowpoleCell 0).oversampler h).oversampler h)

/-- The first filter runs at the rate of the whole, the one inside the oversamplers at four times that, and the rate it already has does not disturb the whole. -/
example (h : Nat → ℝ) (s : (caseCell h).node.σ) (r : ℝ)
    (hs : Reach (caseCell h) (lowpoleNew 440, overNew ((lowpoleCell 0).oversampler h) (overNew (lowpoleCell 0) (lowpoleNew 1000))) s r) :
    (show LowpoleFull from s.1).base.coeff = Real.exp (-(2 * Real.pi) * (show LowpoleFull from s.1).base.cutoff / r) ∧
      (show LowpoleFull from s.2.x.x).base.coeff = Real.exp (-(2 * Real.pi) * (show LowpoleFull from s.2.x.x).base.cutoff / (2 * (2 * r))) ∧
      (caseCell h).rate s r = s := by
  have hl : ∀ f, Keeps (lowpoleCell 0) (lowpoleNew f) := fun f s r hs => (C105_lowpole 0 f hs).2
  have b : Built @Keeps (caseCell h) _ _ := .pipe (.leaf (hl 440)) (.oversampler h (.oversampler h (.leaf (hl 1000))))
  have hp := C105_parts b hs
  exact ⟨(C105_lowpole 0 440 hp.1).1, (C105_lowpole 0 1000 hp.2).1, C105_unchanged_partial b s r hs⟩

/-- Feedback around a follower with a delay, in parallel with a lowpole. -/
example : Keeps ((lowpoleCell 0).branch followCell.feedbackUnit) (lowpoleNew 440, fbuNew followCell (followNew 0.1) 0.5) :=
  C105_unchanged_partial (.branch (.leaf fun _ _ hs => (C105_lowpole 0 440 hs).2) (.feedbackUnit 0.5 (.leaf fun _ _ hs => (C105_follow 0.1 hs).2)))

/-- Such a unit can be given another rate, run, and be given that rate again. -/
example : ∃ s : LowpoleFull, Reach (lowpoleCell 0) (lowpoleNew 440) s 48000 ∧ s.base.value ≠ 0 ∧ (lowpoleCell 0).rate s 48000 = s := by
  have hr : Reach (lowpoleCell 0) (lowpoleNew 440) _ 48000 := .use (.rate 48000 .new) (.tick (fun _ => 1))
  refine ⟨_, hr, ?_, (C105_lowpole 0 440 hr).2⟩
  show (1 - poleCoeff 48000 440) * 1 + poleCoeff 48000 440 * 0 ≠ 0
  have : poleCoeff 48000 440 < 1 := Real.exp_lt_one_iff.2 (by have := Real.pi_pos; linarith)
  intro e
  linarith

end Fundsp.Rate
