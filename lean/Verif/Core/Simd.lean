import Verif.Core.Props

/-! Nodes with state invariants, and the common shape of SIMD `process` functions: whole eight-sample items first, then
`process_remainder` (`audionode.rs:104-121`). -/

namespace Fundsp

variable {α : Type} {i o : Nat}

/-- Observable equality of block processing and ticking, from states satisfying `P`. -/
def BlockEqualsTickOn (n : Node α i o) (P : n.σ → Prop) : Prop :=
  ∀ (w : Nat → Frame α i) (cs : List (Call α i o)), (∀ c ∈ cs, c.ok) → ∀ s : n.σ, P s →
    (n.exec w cs 0 s).2 = (n.exec w (unblock cs) 0 s).2

/-- `P` holds along every execution. -/
structure Node.Closed (n : Node α i o) (P : n.σ → Prop) : Prop where
  reset : ∀ s, P s → P (n.reset s)
  tick : ∀ s x, P s → P (n.tick s x).1

/-- `process` from a `P` state is exactly `size` ticks: same frames, same final state. -/
def ExactProcess (n : Node α i o) (P : n.σ → Prop) : Prop :=
  ∀ g s size inp out, size ≤ 64 → P s →
    (n.process g s size inp out).1 = n.ticks.st s inp.frame size ∧
    ∀ k, k < size → (n.process g s size inp out).2.frame k = n.ticks.out s inp.frame k

theorem Node.Closed.st {n : Node α i o} {P : n.σ → Prop} (h : n.Closed P) (w : Nat → Frame α i) {s : n.σ} (hs : P s) :
    ∀ k, P (n.ticks.st s w k)
  | 0 => hs
  | k + 1 => h.tick _ _ (h.st w hs k)

theorem exec_of_rel {n : Node α i o} {R : n.σ → n.σ → Prop} (hreset : ∀ s t, R s t → R (n.reset s) (n.reset t))
    (hI : Implements n n.ticks R) (w : Nat → Frame α i) (cs : List (Call α i o)) (hc : ∀ c ∈ cs, c.ok) :
    ∀ t s m, R s m → (n.exec w cs t s).2 = (n.exec w (unblock cs) t m).2 := by
  induction cs with
  | nil => intros; rfl
  | cons c cs ih =>
    have ihc := ih (fun c' h' => hc c' (List.mem_cons_of_mem _ h'))
    intro t s m hR
    cases c with
    | tick =>
      obtain ⟨h1, h2⟩ := hI.tick s m (w t) hR
      simp only [Node.exec, unblock]
      rw [ihc _ _ _ h1, h2]
    | reset =>
      simp only [Node.exec, unblock]
      exact ihc _ _ _ (hreset _ _ hR)
    | block size tail old g =>
      have hs : size ≤ 64 := hc _ (List.mem_cons_self ..)
      obtain ⟨h1, h2⟩ := hI.process g s m size (blockInput w t size tail) old hs hR
      have hin : ∀ j, j < size → (blockInput w t size tail).frame j = w (t + j) := by
        intro j hj; funext ch; simp [Buf.frame, blockInput, hj]
      rw [n.ticks.st_congr m _ (fun k => w (t + k)) size hin] at h1
      simp only [Node.exec, unblock]
      rw [exec_replicate_tick, ihc _ _ _ h1]
      congr 1
      apply List.map_congr_left
      intro k hk
      have hk' := List.mem_range.1 hk
      rw [h2 k hk']
      exact n.ticks.out_congr m _ _ k (fun j hj => hin j (by omega))

theorem implements_exact {n : Node α i o} {P : n.σ → Prop} (hc : n.Closed P) (hp : ExactProcess n P) :
    Implements n n.ticks (fun s m => s = m ∧ P s) where
  tick := by rintro s m x ⟨rfl, h⟩; exact ⟨⟨rfl, hc.tick s x h⟩, rfl⟩
  process := by
    rintro g s m size inp out hs ⟨rfl, h⟩
    obtain ⟨a, b⟩ := hp g s size inp out hs h
    exact ⟨⟨a, by rw [a]; exact hc.st _ h size⟩, b⟩

theorem blockEqualsTickOn_of_exact {n : Node α i o} {P : n.σ → Prop} (hc : n.Closed P) (hp : ExactProcess n P) :
    BlockEqualsTickOn n P := by
  intro w cs hcs s hs
  refine exec_of_rel (R := fun s m => s = m ∧ P s) ?_ (implements_exact hc hp) w cs hcs 0 s s ⟨rfl, hs⟩
  rintro s t ⟨rfl, h⟩; exact ⟨rfl, hc.reset s h⟩

/-- Without an invariant this is the property required of leaves in C14. -/
theorem blockEqualsTick_of_exact {n : Node α i o} (hp : ExactProcess n (fun _ => True)) : BlockEqualsTick n := by
  intro w cs hcs s
  exact blockEqualsTickOn_of_exact ⟨fun _ _ => trivial, fun _ _ _ => trivial⟩ hp w cs hcs s trivial

/-- The node restricted to the states satisfying an invariant; outside it `process` and `tick` agree by the code's own types. -/
def Node.sub (n : Node α i o) (P : n.σ → Prop) (h : n.Closed P)
    (hp : ∀ g s size inp out, P s → P (n.process g s size inp out).1) : Node α i o where
  σ := { s : n.σ // P s }
  reset s := ⟨n.reset s.1, h.reset _ s.2⟩
  tick s x := (⟨(n.tick s.1 x).1, h.tick _ _ s.2⟩, (n.tick s.1 x).2)
  process g s size inp out := (⟨(n.process g s.1 size inp out).1, hp _ _ _ _ _ s.2⟩, (n.process g s.1 size inp out).2)

/-- A restricted node may be used as a leaf of a combinator graph (C14). -/
theorem blockEqualsTick_sub {n : Node α i o} {P : n.σ → Prop} (h : n.Closed P) (hp : ExactProcess n P)
    (hp' : ∀ g s size inp out, P s → P (n.process g s size inp out).1) : BlockEqualsTick (n.sub P h hp') := by
  have hst : ∀ (w : Nat → Frame α i) (s : { s : n.σ // P s }) k, ((n.sub P h hp').ticks.st s w k).1 = n.ticks.st s.1 w k := by
    intro w s k
    induction k with
    | zero => rfl
    | succ k ih =>
      show (n.tick ((n.sub P h hp').ticks.st s w k).1 (w k)).1 = (n.tick (n.ticks.st s.1 w k) (w k)).1
      rw [ih]
  refine blockEqualsTick_of_exact ?_
  intro g s size inp out hs _
  obtain ⟨a, b⟩ := hp g s.1 size inp out hs s.2
  refine ⟨Subtype.ext (a.trans (hst _ _ _).symm), fun k hk => (b k hk).trans ?_⟩
  show (n.tick (n.ticks.st s.1 inp.frame k) (inp.frame k)).2 = (n.tick ((n.sub P h hp').ticks.st s inp.frame k).1 (inp.frame k)).2
  exact congrArg (fun t => (n.tick t (inp.frame k)).2) (hst inp.frame s k).symm

/-! ### Items, then remainder -/

/-- `for j in 0..items { ... output.set(channel, j, ..) }`: item `j` consumes samples `8 j .. 8 j + 8` of the input and sets item `j` of
the output. -/
def itemLoop {σ : Type} (item : σ → (Nat → Frame α i) → σ × (Nat → Frame α o)) (inp : Buf α i) : Nat → Nat → σ → Buf α o → σ × Buf α o
  | _, 0, s, out => (s, out)
  | j, n + 1, s, out =>
    let r := item s (fun k => inp.frame (8 * j + k))
    itemLoop item inp (j + 1) n r.1 (fun c k => if 8 * j ≤ k ∧ k < 8 * j + 8 then r.2 (k - 8 * j) c else out c k)

/-- A `process` made of full SIMD items followed by `process_remainder`. -/
def simdProcess {σ : Type} (item : σ → (Nat → Frame α i) → σ × (Nat → Frame α o)) (tick : σ → Frame α i → σ × Frame α o) :
    Garb α → σ → Nat → Buf α i → Buf α o → σ × Buf α o :=
  fun _ s size inp out =>
    let r := itemLoop item inp 0 (fullSimdItems size) s out
    tickLoop tick inp (8 * fullSimdItems size) (size - 8 * fullSimdItems size) r.1 r.2

/-- An item is eight ticks. -/
def ItemExact {σ : Type} (item : σ → (Nat → Frame α i) → σ × (Nat → Frame α o)) (tick : σ → Frame α i → σ × Frame α o)
    (P : σ → Prop) : Prop :=
  ∀ s x, P s → (item s x).1 = (Mealy.mk σ tick).st s x 8 ∧ ∀ k, k < 8 → (item s x).2 k = (Mealy.mk σ tick).out s x k

theorem itemLoop_spec {σ : Type} {item : σ → (Nat → Frame α i) → σ × (Nat → Frame α o)} {tick : σ → Frame α i → σ × Frame α o}
    {P : σ → Prop} (hP : ∀ s x, P s → P (tick s x).1) (h : ItemExact item tick P) (inp : Buf α i) : ∀ n j s out, P s →
    (itemLoop item inp j n s out).1 = (Mealy.mk σ tick).st s (fun k => inp.frame (8 * j + k)) (8 * n) ∧
    (∀ k, k < 8 * n → (itemLoop item inp j n s out).2.frame (8 * j + k) = (Mealy.mk σ tick).out s (fun k => inp.frame (8 * j + k)) k) ∧
    (∀ k, k < 8 * j ∨ 8 * j + 8 * n ≤ k → (itemLoop item inp j n s out).2.frame k = out.frame k) := by
  have hPst : ∀ (w : Nat → Frame α i) s, P s → ∀ k, P ((Mealy.mk σ tick).st s w k) := by
    intro w s hs k
    induction k with
    | zero => exact hs
    | succ k ih => exact hP _ _ ih
  intro n
  induction n with
  | zero => intro j s out _; exact ⟨rfl, fun k hk => absurd hk (by omega), fun k _ => rfl⟩
  | succ n ih =>
    intro j s out hs
    obtain ⟨h1, h2⟩ := h s (fun k => inp.frame (8 * j + k)) hs
    have hs' : P (item s (fun k => inp.frame (8 * j + k))).1 := by rw [h1]; exact hPst _ _ hs _
    obtain ⟨a, b, c⟩ := ih (j + 1) _ (fun c k => if 8 * j ≤ k ∧ k < 8 * j + 8 then (item s (fun k => inp.frame (8 * j + k))).2 (k - 8 * j) c else out c k) hs'
    have e : (fun k => inp.frame (8 * (j + 1) + k)) = fun k => inp.frame (8 * j + (8 + k)) := by
      funext k; congr 1; omega
    rw [e] at a b
    refine ⟨?_, ?_, ?_⟩
    · show (itemLoop item inp (j + 1) n _ _).1 = _
      rw [a, h1, show 8 * (n + 1) = 8 + 8 * n by omega, Mealy.st_add]
    · intro k hk
      show (itemLoop item inp (j + 1) n _ _).2.frame _ = _
      by_cases hk8 : k < 8
      · rw [c _ (Or.inl (by omega))]
        rw [← h2 k hk8]
        funext ch
        show (if 8 * j ≤ 8 * j + k ∧ 8 * j + k < 8 * j + 8 then _ else _) = _
        rw [if_pos ⟨by omega, by omega⟩, Nat.add_sub_cancel_left]
      · obtain ⟨d, rfl⟩ : ∃ d, k = 8 + d := ⟨k - 8, by omega⟩
        have := b d (by omega)
        rw [show 8 * j + (8 + d) = 8 * (j + 1) + d by omega, this, Mealy.out_add, h1]
    · intro k hk
      show (itemLoop item inp (j + 1) n _ _).2.frame _ = _
      rw [c k (by omega)]
      funext ch
      show (if _ then _ else _) = _
      rw [if_neg (by omega)]
      rfl

/-- SIMD processing is ticking if items are. -/
theorem simdProcess_exact {σ : Type} {item : σ → (Nat → Frame α i) → σ × (Nat → Frame α o)} {tick : σ → Frame α i → σ × Frame α o}
    {P : σ → Prop} (hP : ∀ s x, P s → P (tick s x).1) (h : ItemExact item tick P) (g : Garb α) (s : σ) (size : Nat) (inp : Buf α i)
    (out : Buf α o) (hs : P s) :
    (simdProcess item tick g s size inp out).1 = (Mealy.mk σ tick).st s inp.frame size ∧
    ∀ k, k < size → (simdProcess item tick g s size inp out).2.frame k = (Mealy.mk σ tick).out s inp.frame k := by
  have hf := eight_fullSimdItems_le size
  obtain ⟨a, b, c⟩ := itemLoop_spec hP h inp (fullSimdItems size) 0 s out hs
  simp only [Nat.mul_zero, Nat.zero_add] at a b c
  obtain ⟨a', b', c'⟩ := tickLoop_spec tick (Mealy.mk σ tick) Eq (by rintro s m x rfl; exact ⟨rfl, rfl⟩) inp
    (size - 8 * fullSimdItems size) (8 * fullSimdItems size) (itemLoop item inp 0 (fullSimdItems size) s out).1 _
    (itemLoop item inp 0 (fullSimdItems size) s out).2 rfl
  have ef : (fun k => inp.frame k) = inp.frame := rfl
  rw [ef] at a b
  refine ⟨?_, ?_⟩
  · show (tickLoop _ _ _ _ _ _).1 = _
    rw [a', a, ← Mealy.st_add, Nat.add_sub_cancel' hf]
  · intro k hk
    show (tickLoop _ _ _ _ _ _).2.frame k = _
    by_cases hk8 : k < 8 * fullSimdItems size
    · rw [c' k (Or.inl hk8), b k hk8]
    · obtain ⟨d, rfl⟩ : ∃ d, k = 8 * fullSimdItems size + d := ⟨k - 8 * fullSimdItems size, by omega⟩
      rw [b' d (by omega), a, ← Mealy.out_add]

end Fundsp
