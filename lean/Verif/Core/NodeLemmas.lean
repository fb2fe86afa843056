import Verif.Core.Node

namespace Fundsp

theorem le_eight_simdItems (n : Nat) : n ≤ 8 * simdItems n := by
  unfold simdItems; rw [Nat.shiftRight_eq_div_pow]; omega

theorem lt_eight_simdItems {k n : Nat} (h : k < n) : k < 8 * simdItems n :=
  Nat.lt_of_lt_of_le h (le_eight_simdItems n)

theorem eight_fullSimdItems_le (n : Nat) : 8 * fullSimdItems n ≤ n := by
  unfold fullSimdItems; rw [Nat.shiftRight_eq_div_pow]; omega

theorem Mealy.st_congr {α i o} (M : Mealy α i o) (m : M.S) (w w' : Nat → Frame α i) (k : Nat)
    (h : ∀ j, j < k → w j = w' j) : M.st m w k = M.st m w' k := by
  induction k with
  | zero => rfl
  | succ k ih =>
    simp only [Mealy.st]
    rw [ih (fun j hj => h j (by omega)), h k (by omega)]

theorem Mealy.out_congr {α i o} (M : Mealy α i o) (m : M.S) (w w' : Nat → Frame α i) (k : Nat)
    (h : ∀ j, j ≤ k → w j = w' j) : M.out m w k = M.out m w' k := by
  simp only [Mealy.out]
  rw [M.st_congr m w w' k (fun j hj => h j (by omega)), h k (by omega)]

theorem Mealy.st_add {α i o} (M : Mealy α i o) (m : M.S) (w : Nat → Frame α i) (a b : Nat) :
    M.st m w (a + b) = M.st (M.st m w a) (fun k => w (a + k)) b := by
  induction b with
  | zero => rfl
  | succ b ih => rw [Nat.add_succ]; simp only [Mealy.st]; rw [ih]

theorem Mealy.out_add {α i o} (M : Mealy α i o) (m : M.S) (w : Nat → Frame α i) (a b : Nat) :
    M.out m w (a + b) = M.out (M.st m w a) (fun k => w (a + k)) b := by
  simp only [Mealy.out]; rw [M.st_add]

/-- The tick loop implements the machine, for a simulation preserved by `tick`. -/
theorem tickLoop_spec {α i o} {σ : Type} (tick : σ → Frame α i → σ × Frame α o) (M : Mealy α i o)
    (R : σ → M.S → Prop)
    (ht : ∀ s m x, R s m → R (tick s x).1 (M.step m x).1 ∧ (tick s x).2 = (M.step m x).2)
    (inp : Buf α i) (count : Nat) :
    ∀ start s m out, R s m →
      R (tickLoop tick inp start count s out).1 (M.st m (fun k => inp.frame (start + k)) count) ∧
      (∀ k, k < count → (tickLoop tick inp start count s out).2.frame (start + k)
          = M.out m (fun k => inp.frame (start + k)) k) ∧
      (∀ k, k < start ∨ start + count ≤ k → (tickLoop tick inp start count s out).2.frame k = out.frame k) := by
  induction count with
  | zero => intro start s m out h; exact ⟨h, by intro k hk; omega, by intro k _; rfl⟩
  | succ count ih =>
    intro start s m out h
    obtain ⟨h1, h2⟩ := ht s m (inp.frame start) h
    obtain ⟨a, b, c⟩ := ih (start + 1) _ _ (setSample start (tick s (inp.frame start)).2 out) h1
    have e : (fun k => inp.frame (start + 1 + k)) = fun k => inp.frame (start + (1 + k)) := by
      funext k; rw [Nat.add_assoc]
    rw [e] at a b
    have hst : M.st m (fun k => inp.frame (start + k)) 1 = (M.step m (inp.frame start)).1 := by
      simp [Mealy.st]
    refine ⟨?_, ?_, ?_⟩
    · simp only [tickLoop]
      rw [Nat.add_comm count 1, M.st_add, hst]; exact a
    · intro k hk
      simp only [tickLoop]
      cases k with
      | zero =>
        rw [c _ (Or.inl (by omega))]
        simp only [Nat.add_zero, Mealy.out, Mealy.st]
        rw [← h2]; funext ch; simp [Buf.frame, setSample]
      | succ k =>
        rw [Nat.add_comm k 1, M.out_add, hst, ← Nat.add_assoc, b k (by omega)]
    · intro k hk
      simp only [tickLoop]
      rw [c k (by omega)]
      funext ch
      simp only [Buf.frame, setSample]
      rw [if_neg (by omega)]

/-- A node using the default `process` implements whatever its `tick` implements. -/
theorem implements_ofTick {α i o} {σ : Type} (reset : σ → σ) (tick : σ → Frame α i → σ × Frame α o)
    (M : Mealy α i o) (R : σ → M.S → Prop)
    (ht : ∀ s m x, R s m → R (tick s x).1 (M.step m x).1 ∧ (tick s x).2 = (M.step m x).2) :
    Implements (Node.ofTick σ reset tick) M R where
  tick := ht
  process := by
    intro g s m size inp out _ h
    obtain ⟨a, b, _⟩ := tickLoop_spec tick M R ht inp size 0 s m out h
    simp only [Nat.zero_add] at a b
    exact ⟨a, b⟩

end Fundsp
