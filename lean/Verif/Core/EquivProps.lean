import Verif.Core.Equiv
import Verif.Core.Props
import Verif.Core.Reset
import Verif.Osc.Props
import Mathlib.Analysis.SpecialFunctions.Trigonometric.Basic

/-! **C97**: the equivalent expressions of `/repo/README.md:1570-1586`. -/

namespace Fundsp.Equiv
open Fundsp Fundsp.Expr

variable {α : Type}

/-! ## Specification -/

/-- Nothing that the user can do shows a difference: any input, any sequence of single-sample calls and resets. -/
def Same {i o} (A B : Node α i o) (a : A.σ) (b : B.σ) : Prop :=
  ∀ (w : Nat → Frame α i) (cs : List (Call α i o)), (∀ c ∈ cs, c = .tick ∨ c = .reset) → (A.exec w cs 0 a).2 = (B.exec w cs 0 b).2

/-- The same with blocks, which may be cut differently on the two sides: only the samples and the places of the resets are the same. -/
def SameBlocks {i o} (A B : Node α i o) (a : A.σ) (b : B.σ) : Prop :=
  ∀ (w : Nat → Frame α i) (cs ds : List (Call α i o)), (∀ c ∈ cs, c.ok) → (∀ c ∈ ds, c.ok) → unblock cs = unblock ds →
    (A.exec w cs 0 a).2 = (B.exec w ds 0 b).2

/-! ## Bisimulation -/

/-- Related states give equal samples and stay related. -/
structure Bisim {i o} (A B : Node α i o) (R : A.σ → B.σ → Prop) : Prop where
  tick : ∀ a b x, R a b → R (A.tick a x).1 (B.tick b x).1 ∧ (A.tick a x).2 = (B.tick b x).2
  reset : ∀ a b, R a b → R (A.reset a) (B.reset b)

theorem Bisim.same {i o} {A B : Node α i o} {R : A.σ → B.σ → Prop} (h : Bisim A B R) {a : A.σ} {b : B.σ} (hab : R a b) : Same A B a b := by
  intro w cs
  suffices ∀ t a b, R a b → (∀ c ∈ cs, c = .tick ∨ c = .reset) → (A.exec w cs t a).2 = (B.exec w cs t b).2 from fun hc => this 0 a b hab hc
  induction cs with
  | nil => intro t a b _ _; rfl
  | cons c cs ih =>
    intro t a b hab hc
    have hcs : ∀ c ∈ cs, c = Call.tick ∨ c = Call.reset := fun c hm => hc c (List.mem_cons_of_mem _ hm)
    rcases hc c List.mem_cons_self with rfl | rfl
    · obtain ⟨h1, h2⟩ := h.tick a b (w t) hab
      show (A.tick a (w t)).2 :: _ = (B.tick b (w t)).2 :: _
      rw [h2, ih _ _ _ h1 hcs]
    · exact ih t _ _ (h.reset a b hab) hcs

/-- Being the same is itself a bisimulation. -/
theorem bisim_same {i o} (A B : Node α i o) : Bisim A B (Same A B) where
  tick a b x h := by
    constructor
    · intro w cs hc
      have := h (fun k => if k = 0 then x else w (k - 1)) (.tick :: cs) (by
        intro c hm
        rcases List.mem_cons.1 hm with rfl | hm
        · exact .inl rfl
        · exact hc c hm)
      have e : ∀ (N : Node α i o) (n : N.σ), (N.exec (fun k => if k = 0 then x else w (k - 1)) (.tick :: cs) 0 n).2 =
          (N.tick n x).2 :: (N.exec w cs 0 (N.tick n x).1).2 := by
        intro N n
        show (N.tick n x).2 :: (N.exec _ cs (0 + 1) (N.tick n x).1).2 = _
        rw [exec_shift N _ cs (0 + 1)]
        have : (fun k => (fun k => if k = 0 then x else w (k - 1)) (0 + 1 + k)) = w := by
          funext k
          show (if 0 + 1 + k = 0 then x else w (0 + 1 + k - 1)) = w k
          rw [if_neg (by omega)]
          congr 1
          omega
        rw [this]
      rw [e A a, e B b] at this
      exact (List.cons.inj this).2
    · have := h (fun _ => x) [.tick] (by intro c hm; rcases List.mem_singleton.1 hm with rfl; exact .inl rfl)
      exact (List.cons.inj this).1
  reset a b h := by
    intro w cs hc
    exact h w (.reset :: cs) (by
      intro c hm
      rcases List.mem_cons.1 hm with rfl | hm
      · exact .inr rfl
      · exact hc c hm)

theorem Same.blocks {i o} {A B : Node α i o} {a : A.σ} {b : B.σ} (h : Same A B a b) (hA : BlockEqualsTick A) (hB : BlockEqualsTick B) : SameBlocks A B a b := by
  intro w cs ds hc hd e
  rw [hA w cs hc a, hB w ds hd b, e]
  exact h w _ (unblock_noBlock ds)

/-! ## Equivalence and congruence -/

/-- **C97** equality of expressions is an equivalence. -/
theorem C97_equivalence {i o} (A B C : Node α i o) (a : A.σ) (b : B.σ) (c : C.σ) :
    Same A A a a ∧ (Same A B a b → Same B A b a) ∧ (Same A B a b → Same B C b c → Same A C a c) :=
  ⟨fun _ _ _ => rfl, fun h w cs hc => (h w cs hc).symm, fun h g w cs hc => (h w cs hc).trans (g w cs hc)⟩

/-- **C97** equal expressions may replace each other inside any graph: every operator gives equal results for equal operands, whatever the operands do. -/
theorem C97_congruence :
    (∀ {i j o} (X X' : Node α i j) (Y Y' : Node α j o) s s' t t', Same X X' s s' → Same Y Y' t t' → Same (pipe X Y) (pipe X' Y') (s, t) (s', t')) ∧
    (∀ {i j o p} (X X' : Node α i o) (Y Y' : Node α j p) s s' t t', Same X X' s s' → Same Y Y' t t' → Same (stack X Y) (stack X' Y') (s, t) (s', t')) ∧
    (∀ {i o p} (X X' : Node α i o) (Y Y' : Node α i p) s s' t t', Same X X' s s' → Same Y Y' t t' → Same (branch X Y) (branch X' Y') (s, t) (s', t')) ∧
    (∀ {i o} (add : α → α → α) (X X' Y Y' : Node α i o) s s' t t', Same X X' s s' → Same Y Y' t t' → Same (bus add X Y) (bus add X' Y') (s, t) (s', t')) ∧
    (∀ {i j o} (op : α → α → α) (X X' : Node α i o) (Y Y' : Node α j o) s s' t t', Same X X' s s' → Same Y Y' t t' →
      Same (binop op X Y) (binop op X' Y') (s, t) (s', t')) ∧
    (∀ {i o} (op : α → α) (X X' : Node α i o) s s', Same X X' s s' → Same (unop op X) (unop op X') s s') ∧
    (∀ {i o} (X X' : Node α i o) s s', Same X X' s s' → Same (thru X) (thru X') s s') := by
  refine ⟨?_, ?_, ?_, ?_, ?_, ?_, ?_⟩
  · intro i j o X X' Y Y' s s' t t' hx hy
    refine Bisim.same (A := pipe X Y) (B := pipe X' Y') (R := fun a b => Same X X' a.1 b.1 ∧ Same Y Y' a.2 b.2) ⟨?_, ?_⟩ ⟨hx, hy⟩
    · intro a b x h
      obtain ⟨h1, h2⟩ := (bisim_same X X').tick _ _ x h.1
      obtain ⟨h3, h4⟩ := (bisim_same Y Y').tick _ _ (X.tick a.1 x).2 h.2
      rw [h2] at h3 h4
      refine ⟨⟨h1, ?_⟩, ?_⟩
      · show Same Y Y' (Y.tick a.2 (X.tick a.1 x).2).1 (Y'.tick b.2 (X'.tick b.1 x).2).1
        rw [h2]; exact h3
      · show (Y.tick a.2 (X.tick a.1 x).2).2 = (Y'.tick b.2 (X'.tick b.1 x).2).2
        rw [h2]; exact h4
    · intro a b h
      exact ⟨(bisim_same X X').reset _ _ h.1, (bisim_same Y Y').reset _ _ h.2⟩
  · intro i j o p X X' Y Y' s s' t t' hx hy
    refine Bisim.same (A := stack X Y) (B := stack X' Y') (R := fun a b => Same X X' a.1 b.1 ∧ Same Y Y' a.2 b.2) ⟨?_, ?_⟩ ⟨hx, hy⟩
    · intro a b x h
      obtain ⟨h1, h2⟩ := (bisim_same X X').tick _ _ x.takeL h.1
      obtain ⟨h3, h4⟩ := (bisim_same Y Y').tick _ _ x.takeR h.2
      exact ⟨⟨h1, h3⟩, congrArg₂ Frame.join h2 h4⟩
    · intro a b h
      exact ⟨(bisim_same X X').reset _ _ h.1, (bisim_same Y Y').reset _ _ h.2⟩
  · intro i o p X X' Y Y' s s' t t' hx hy
    refine Bisim.same (A := branch X Y) (B := branch X' Y') (R := fun a b => Same X X' a.1 b.1 ∧ Same Y Y' a.2 b.2) ⟨?_, ?_⟩ ⟨hx, hy⟩
    · intro a b x h
      obtain ⟨h1, h2⟩ := (bisim_same X X').tick _ _ x h.1
      obtain ⟨h3, h4⟩ := (bisim_same Y Y').tick _ _ x h.2
      exact ⟨⟨h1, h3⟩, congrArg₂ Frame.join h2 h4⟩
    · intro a b h
      exact ⟨(bisim_same X X').reset _ _ h.1, (bisim_same Y Y').reset _ _ h.2⟩
  · intro i o add X X' Y Y' s s' t t' hx hy
    refine Bisim.same (A := bus add X Y) (B := bus add X' Y') (R := fun a b => Same X X' a.1 b.1 ∧ Same Y Y' a.2 b.2) ⟨?_, ?_⟩ ⟨hx, hy⟩
    · intro a b x h
      obtain ⟨h1, h2⟩ := (bisim_same X X').tick _ _ x h.1
      obtain ⟨h3, h4⟩ := (bisim_same Y Y').tick _ _ x h.2
      exact ⟨⟨h1, h3⟩, congrArg₂ (fun (u v : Frame α o) => fun c => add (u c) (v c)) h2 h4⟩
    · intro a b h
      exact ⟨(bisim_same X X').reset _ _ h.1, (bisim_same Y Y').reset _ _ h.2⟩
  · intro i j o op X X' Y Y' s s' t t' hx hy
    refine Bisim.same (A := binop op X Y) (B := binop op X' Y') (R := fun a b => Same X X' a.1 b.1 ∧ Same Y Y' a.2 b.2) ⟨?_, ?_⟩ ⟨hx, hy⟩
    · intro a b x h
      obtain ⟨h1, h2⟩ := (bisim_same X X').tick _ _ x.takeL h.1
      obtain ⟨h3, h4⟩ := (bisim_same Y Y').tick _ _ x.takeR h.2
      exact ⟨⟨h1, h3⟩, congrArg₂ (fun (u v : Frame α o) => fun c => op (u c) (v c)) h2 h4⟩
    · intro a b h
      exact ⟨(bisim_same X X').reset _ _ h.1, (bisim_same Y Y').reset _ _ h.2⟩
  · intro i o op X X' s s' hx
    refine Bisim.same (A := unop op X) (B := unop op X') (R := fun a b => Same X X' a b) ⟨?_, ?_⟩ hx
    · intro a b x h
      obtain ⟨h1, h2⟩ := (bisim_same X X').tick _ _ x h
      exact ⟨h1, congrArg (fun (u : Frame α o) => fun c => op (u c)) h2⟩
    · intro a b h
      exact (bisim_same X X').reset _ _ h
  · intro i o X X' s s' hx
    refine Bisim.same (A := thru X) (B := thru X') (R := fun a b => Same X X' a b) ⟨?_, ?_⟩ hx
    · intro a b x h
      obtain ⟨h1, h2⟩ := (bisim_same X X').tick _ _ x h
      exact ⟨h1, congrArg (fun (u : Frame α o) => fun c : Fin i => if h : c.1 < o then u ⟨c.1, h⟩ else x c) h2⟩
    · intro a b h
      exact (bisim_same X X').reset _ _ h

/-! ## The table -/

/-- **C97, first row.** `(pass() ^ mul(c)) >> x + y` and `x & mul(c) >> y` for any two components in the places of the oscillators, when the corresponding components
start from the same states (missing for the claim as written: the oscillators of the two expressions do not, see `C97_violation_bus`). -/
theorem C97_bus_partial [Add α] [Mul α] (X Y : Node α 1 1) (s : X.σ) (t : Y.σ) (c : Frame α 1) :
    Same (split1 X Y) (bus1 X Y) (((), ((), c)), (s, t)) (s, (((), c), t)) ∧
    (BlockEqualsTick X → BlockEqualsTick Y →
      SameBlocks (split1 X Y) (bus1 X Y) (((), ((), c)), (s, t)) (s, (((), c), t))) := by
  have key : Same (split1 X Y) (bus1 X Y) (((), ((), c)), (s, t)) (s, (((), c), t)) := by
    refine Bisim.same (A := split1 X Y) (B := bus1 X Y)
      (R := fun a b => a.2.1 = b.1 ∧ a.2.2 = b.2.2 ∧ a.1.2.2 = b.2.1.2) ⟨?_, ?_⟩ ⟨rfl, rfl, rfl⟩
    · rintro ⟨⟨u, v, c⟩, s, t⟩ ⟨s', ⟨v', c'⟩, t'⟩ x ⟨h1, h2, h3⟩
      simp only at h1 h2 h3
      subst h1 h2 h3
      have e1 : ∀ (p q : Frame α 1), Frame.takeL (Frame.join p q) = p := by intro p q; funext k; match k with | 0 => rfl
      have e2 : ∀ (p q : Frame α 1), Frame.takeR (Frame.join p q) = q := by intro p q; funext k; match k with | 0 => rfl
      have f1 : Frame.takeL (Frame.join x ((mul1 : Node α 1 1).tick ((), c) x).2) = x := e1 _ _
      have f2 : Frame.takeR (Frame.join x ((mul1 : Node α 1 1).tick ((), c) x).2) = ((mul1 : Node α 1 1).tick ((), c) x).2 := e2 _ _
      refine ⟨⟨congrArg (fun v => (X.tick s v).1) f1, congrArg (fun v => (Y.tick t v).1) f2, rfl⟩, ?_⟩
      exact congrArg₂ (fun v u => fun k => (X.tick s v).2 k + (Y.tick t u).2 k) f1 f2
    · rintro ⟨⟨u, v, c⟩, s, t⟩ ⟨s', ⟨v', c'⟩, t'⟩ ⟨h1, h2, h3⟩
      simp only at h1 h2 h3
      subst h1 h2 h3
      exact ⟨rfl, rfl, rfl⟩
  refine ⟨key, fun hX hY => key.blocks ?_ ?_⟩
  · exact C14_block_equals_tick (.pipe (.branch (.multiPass 1) (.binop (fun a b => a * b) (.multiPass 1) (.constant 1) : Graph α 1 1))
      (.binop (fun a b => a + b) (.leaf X) (.leaf Y)) : Graph α 1 1) ⟨⟨trivial, trivial, trivial⟩, hX, hY⟩
  · exact C14_block_equals_tick (.bus (fun a b => a + b) (.leaf X) (.pipe (.binop (fun a b => a * b) (.multiPass 1) (.constant 1) : Graph α 1 1) (.leaf Y)) : Graph α 1 1)
      (by simp only [Graph.Sound]; exact ⟨hX, ⟨trivial, trivial⟩, hY⟩)

/-- **C97, rows two to seven**, for any components in the places of the filters and generators. -/
theorem C97_table [Add α] [Mul α] [Neg α] (a b : α) (c d : Frame α 1) :
    -- `--sink()-a^sink()&---sink()*b` is `sink()`
    SameBlocks (sinks a b) (sink 1) ((), ((), ())) () ∧
    -- `constant(c) | dc(d)` is `constant((c, d))`
    SameBlocks (twoDc : Node α 0 2) (constant 2) (c, d) (fun k => if k.1 = 0 then c 0 else d 0) ∧
    -- `sink() | x` is `x | sink()` for a generator `x`, here with one output
    (∀ (X : Node α 0 1) (s : X.σ), BlockEqualsTick X → SameBlocks (sinkLeft X) (sinkRight X) ((), s) (s, ())) ∧
    -- `(x ^ (sink() | pass())) >> y` is `!x >> y`
    (∀ (X Y : Node α 2 1) (s : X.σ) (t : Y.σ), BlockEqualsTick X → BlockEqualsTick Y →
      SameBlocks (bypass X Y) (bypassThru X Y) ((s, ((), ())), t) (s, t)) ∧
    -- `!sink()` is `pass()`
    SameBlocks (thru (sink 1) : Node α 1 1) (multiPass 1) () () ∧
    -- `!(x | y)` is `!z` for generators
    (∀ (X Y Z : Node α 0 1) (s : X.σ) (t : Y.σ) (u : Z.σ), SameBlocks (thruStack X Y) (thruOne Z) (s, t) u) := by
  refine ⟨?_, ?_, ?_, ?_, ?_, ?_⟩
  · refine Same.blocks (Bisim.same (A := sinks a b) (B := sink 1) (R := fun _ _ => True) ⟨fun _ _ _ _ => ⟨trivial, ?_⟩, fun _ _ _ => trivial⟩ trivial) ?_ ?_
    · funext c; exact c.elim0
    · exact C14_block_equals_tick (.branch (.unop (fun x => x + -a) (.unop (fun x => -x) (.unop (fun x => -x) (.sink 1))))
        (.bus (fun x y => x + y) (.sink 1) (.unop (fun x => x * b) (.unop (fun x => -x) (.unop (fun x => -x) (.unop (fun x => -x) (.sink 1)))))) : Graph α 1 0)
        (by simp only [Graph.Sound, and_self])
    · exact C14_block_equals_tick (.sink 1 : Graph α 1 0) trivial
  · refine Same.blocks (Bisim.same (A := (twoDc : Node α 0 2)) (B := constant 2)
      (R := fun x y => y = (fun k : Fin 2 => if k.1 = 0 then x.1 (0 : Fin 1) else x.2 (0 : Fin 1))) ⟨?_, ?_⟩ rfl) ?_ ?_
    · rintro ⟨x, y⟩ z w rfl
      refine ⟨rfl, ?_⟩
      funext k
      show Frame.join x y k = if k.1 = 0 then x 0 else y 0
      match k with
      | 0 => rfl
      | 1 => rfl
    · rintro ⟨x, y⟩ z rfl
      rfl
    · exact C14_block_equals_tick (.stack (.constant 1) (.constant 1) : Graph α 0 2) ⟨trivial, trivial⟩
    · exact C14_block_equals_tick (.constant 2 : Graph α 0 2) trivial
  · intro X s hX
    refine Same.blocks (Bisim.same (A := sinkLeft X) (B := sinkRight X) (R := fun x y => x.2 = y.1) ⟨?_, ?_⟩ rfl) ?_ ?_
    · rintro ⟨u, s⟩ ⟨s', u'⟩ x h
      simp only at h
      subst h
      have e : (Frame.takeR (i := 1) (j := 0) x) = Frame.takeL (i := 0) (j := 1) x := by funext c; exact c.elim0
      refine ⟨congrArg (fun v => (X.tick s v).1) e, ?_⟩
      show Frame.join (i := 0) (j := 1) (fun c => c.elim0) (X.tick s (Frame.takeR (i := 1) (j := 0) x)).2 = Frame.join (i := 1) (j := 0) (X.tick s (Frame.takeL (i := 0) (j := 1) x)).2 (fun c => c.elim0)
      rw [e]
      funext c
      match c with
      | 0 => rfl
    · rintro ⟨u, s⟩ ⟨s', u'⟩ h
      simp only at h
      subst h
      rfl
    · exact C14_block_equals_tick (.stack (.sink 1) (.leaf X) : Graph α 1 1) ⟨trivial, hX⟩
    · exact C14_block_equals_tick (.stack (.leaf X) (.sink 1) : Graph α 1 1) ⟨hX, trivial⟩
  · intro X Y s t hX hY
    refine Same.blocks (Bisim.same (A := bypass X Y) (B := bypassThru X Y) (R := fun x y => x.1.1 = y.1 ∧ x.2 = y.2) ⟨?_, ?_⟩ ⟨rfl, rfl⟩) ?_ ?_
    · rintro ⟨⟨s, u, v⟩, t⟩ ⟨s', t'⟩ x ⟨h1, h2⟩
      simp only at h1 h2
      subst h1 h2
      have e : (Frame.join (X.tick s x).2 (Frame.join (i := 0) (j := 1) (fun c => c.elim0) (Frame.takeR (i := 1) (j := 1) x)) : Frame α 2) =
          fun c : Fin 2 => if h : c.1 < 1 then (X.tick s x).2 ⟨c.1, h⟩ else x c := by
        funext c
        match c with
        | 0 => rfl
        | 1 => rfl
      exact ⟨⟨rfl, congrArg (fun v => (Y.tick t v).1) e⟩, congrArg (fun v => (Y.tick t v).2) e⟩
    · rintro ⟨⟨s, u, v⟩, t⟩ ⟨s', t'⟩ ⟨h1, h2⟩
      simp only at h1 h2
      subst h1 h2
      exact ⟨rfl, rfl⟩
    · exact C14_block_equals_tick (.pipe (.branch (.leaf X) (.stack (.sink 1) (.multiPass 1) : Graph α 2 1)) (.leaf Y) : Graph α 2 1) ⟨⟨hX, trivial, trivial⟩, hY⟩
    · exact C14_block_equals_tick (.pipe (.thru (.leaf X)) (.leaf Y) : Graph α 2 1) ⟨hX, hY⟩
  · refine Same.blocks (Bisim.same (A := (thru (sink 1) : Node α 1 1)) (B := multiPass 1) (R := fun _ _ => True) ⟨fun _ _ _ _ => ⟨trivial, ?_⟩, fun _ _ _ => trivial⟩ trivial) ?_ ?_
    · funext c; rfl
    · exact C14_block_equals_tick (.thru (.sink 1) : Graph α 1 1) trivial
    · exact C14_block_equals_tick (.multiPass 1 : Graph α 1 1) trivial
  · intro X Y Z s t u w cs ds hc hd e
    have len : ∀ (N : Node α 0 0) (cs : List (Call α 0 0)) (n : N.σ) (k : Nat), (N.exec w cs k n).2.length = schedLen cs := by
      intro N cs
      induction cs with
      | nil => intro n k; rfl
      | cons c cs ih =>
        intro n k
        cases c with
        | tick => show ((N.tick n (w k)).2 :: _).length = 1 + _; rw [List.length_cons, ih]; omega
        | reset => show _ = 0 + _; rw [Nat.zero_add]; exact ih _ _
        | block size tail old g =>
          show (_ ++ (N.exec w cs (k + size) _).2).length = size + _
          rw [List.length_append, ih]; simp
    refine List.ext_getElem ?_ fun k h1 h2 => by funext c; exact c.elim0
    exact (len _ _ _ _).trans (((schedLen_unblock cs).symm.trans ((congrArg schedLen e).trans (schedLen_unblock ds))).trans (len _ _ _ _).symm)

/-- The filters may be the real ones: here two one-sample averages that also look at their second input, and a manual bypass. -/
example : SameBlocks (bypass (Node.ofTick (i := 2) (o := 1) Int (fun _ => 0) (fun s x => (x 0, fun _ => s * x 1)))
      (Node.ofTick (i := 2) (o := 1) Int (fun _ => 0) (fun s x => (x 0, fun _ => s + x 1))))
    (bypassThru (Node.ofTick (i := 2) (o := 1) Int (fun _ => 0) (fun s x => (x 0, fun _ => s * x 1)))
      (Node.ofTick (i := 2) (o := 1) Int (fun _ => 0) (fun s x => (x 0, fun _ => s + x 1)))) (((5 : Int), ((), ())), (7 : Int)) ((5 : Int), (7 : Int)) :=
  (C97_table (0 : Int) 0 (fun _ => 0) (fun _ => 0)).2.2.2.1 _ _ _ _ ((tickBlock_iff _).1 (tickBlock_ofTick _ _)) ((tickBlock_iff _).1 (tickBlock_ofTick _ _))

/-- Sine oscillators with given phases satisfy the first row, blocks included. -/
example (rnd : BitVec 64 → ℝ) (p q : ℝ) :
    SameBlocks (split1 (Osc.sine rnd) (Osc.sine rnd)) (bus1 (Osc.sine rnd) (Osc.sine rnd))
      (((), ((), fun _ => (2 : ℝ))), ((Osc.OscSt.withPhase rnd p : Osc.OscSt), (Osc.OscSt.withPhase rnd q : Osc.OscSt)))
      ((Osc.OscSt.withPhase rnd p : Osc.OscSt), (((), fun _ => (2 : ℝ)), (Osc.OscSt.withPhase rnd q : Osc.OscSt))) :=
  (C97_bus_partial (Osc.sine rnd) (Osc.sine rnd) _ _ _).2 (Osc.C52_sine_block_equals_tick rnd) (Osc.C52_sine_block_equals_tick rnd)

/-! ## The first row as written -/

theorem split_hashes : sineHashes splitTree = [0x51c41a87a4f7224#64, 0xb8d7f4642525bcb9#64] := by decide +kernel
theorem bus_hashes : sineHashes busTree = [0x440433cd836b2cc3#64, 0xd4cecb3439860f72#64] := by decide +kernel

theorem rnd1_of (h : BitVec 64) (n : Nat) (e : (Hash.rnd1Word h >>> 11).toNat = n) : rnd1 h = n * (1 / 2 ^ 53) := by
  rw [rnd1, e]

theorem sin_sum (a b : ℝ) : Real.sin (a * (2 * Real.pi)) + Real.sin (b * (2 * Real.pi)) = 2 * (Real.sin ((a + b) * Real.pi) * Real.cos ((a - b) * Real.pi)) := by
  have e1 : a * (2 * Real.pi) = (a + b) * Real.pi + (a - b) * Real.pi := by ring
  have e2 : b * (2 * Real.pi) = (a + b) * Real.pi - (a - b) * Real.pi := by ring
  rw [e1, e2, Real.sin_add, Real.sin_sub]
  ring

/-- **C97 fails for the first row as written.** The oscillators get their initial phases from the structure of the graph, which differs. Whatever the input, the first
sample of `(pass() ^ mul(2.0)) >> sine() + sine()` is positive and the first sample of `sine() & mul(2.0) >> sine()` is negative. -/
theorem C97_violation_bus (x : Frame ℝ 1) :
    0 < ((split1 (Osc.sine rnd1) (Osc.sine rnd1)).tick (splitState (sineHashes splitTree)) x).2 0 ∧
    ((bus1 (Osc.sine rnd1) (Osc.sine rnd1)).tick (busState (sineHashes busTree)) x).2 0 < 0 := by
  have pp := Real.pi_pos
  have f1 : ((split1 (Osc.sine rnd1) (Osc.sine rnd1)).tick (splitState (sineHashes splitTree)) x).2 0 =
      Real.sin (rnd1 0x51c41a87a4f7224#64 * (2 * Real.pi)) + Real.sin (rnd1 0xb8d7f4642525bcb9#64 * (2 * Real.pi)) := by
    rw [split_hashes]; rfl
  have f2 : ((bus1 (Osc.sine rnd1) (Osc.sine rnd1)).tick (busState (sineHashes busTree)) x).2 0 =
      Real.sin (rnd1 0x440433cd836b2cc3#64 * (2 * Real.pi)) + Real.sin (rnd1 0xd4cecb3439860f72#64 * (2 * Real.pi)) := by
    rw [bus_hashes]; rfl
  rw [f1, f2, sin_sum, sin_sum, rnd1_of _ 6178101975136997 (by decide +kernel), rnd1_of _ 2655901486301490 (by decide +kernel),
    rnd1_of _ 124337333320384 (by decide +kernel), rnd1_of _ 8836082877538469 (by decide +kernel)]
  constructor
  · refine mul_pos (by norm_num) (mul_pos (Real.sin_pos_of_pos_of_lt_pi ?_ ?_) (Real.cos_pos_of_mem_Ioo ⟨?_, ?_⟩)) <;> norm_num <;> nlinarith
  · refine mul_neg_of_pos_of_neg (by norm_num) (mul_neg_of_pos_of_neg (Real.sin_pos_of_pos_of_lt_pi ?_ ?_) ?_)
    · norm_num; nlinarith
    · norm_num; nlinarith
    · rw [← Real.cos_neg]
      refine Real.cos_neg_of_pi_div_two_lt_of_lt ?_ ?_ <;> norm_num <;> nlinarith

end Fundsp.Equiv
