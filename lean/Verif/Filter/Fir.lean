import Verif.Filter.Model
import Mathlib.Algebra.BigOperators.Fin
import Mathlib.Algebra.BigOperators.Ring.Finset

/-! C43: FIR convolution. -/

namespace Fundsp.Filter

/-- Specification: the input `d` samples before time `n`, silence before the start. -/
def pastInput {α : Type} (zero : α) (x : Nat → α) (n d : Nat) : α := if d ≤ n then x (n - d) else zero

theorem fir_state {α : Type} (zero : α) (add mul : α → α → α) {N : Nat} (w v : Frame α N) (x : Nat → Frame α 1) (k : Nat) (i : Fin N) :
    ((firNode zero add mul w).ticks.st v x k : Frame α N) i
      = if h : i.1 + k < N then v ⟨i.1 + k, h⟩ else x (i.1 + k - N) 0 := by
  induction k generalizing i with
  | zero => simp [Mealy.st, i.2]
  | succ k ih =>
    show (if h : i.1 + 1 < N then ((firNode zero add mul w).ticks.st v x k : Frame α N) ⟨i.1 + 1, h⟩ else x k 0) = _
    by_cases h : i.1 + 1 < N
    · rw [dif_pos h, ih]
      simp only [show i.1 + 1 + k = i.1 + (k + 1) by omega]
    · rw [dif_neg h, dif_neg (by omega)]
      rw [show i.1 + (k + 1) - N = k by have := i.2; omega]

theorem fir_out {α : Type} (zero : α) (add mul : α → α → α) {N : Nat} (w v : Frame α N) (x : Nat → Frame α 1) (k : Nat) :
    (firNode zero add mul w).ticks.out v x k 0
      = (List.finRange N).foldl (fun acc i => add acc (mul (w i) (if h : i.1 + (k + 1) < N then v ⟨i.1 + (k + 1), h⟩ else x (i.1 + (k + 1) - N) 0))) zero := by
  have e : (firNode zero add mul w).ticks.out v x k 0
      = (List.finRange N).foldl (fun acc i => add acc (mul (w i) (((firNode zero add mul w).ticks.st v x (k + 1) : Frame α N) i))) zero := rfl
  rw [e]
  congr 1
  funext acc i
  rw [fir_state]

/-- **C43.** After a reset in any state, the output at time `n` is the convolution sum: weight `i` of `N` multiplies the input `N - 1 - i`
samples earlier, accumulated in order from zero. Sample arithmetic is arbitrary (so this is bit exact). -/
theorem C43_convolution {α : Type} (zero : α) (add mul : α → α → α) {N : Nat} (w v : Frame α N) (x : Nat → Frame α 1) (n : Nat) :
    (firNode zero add mul w).ticks.out ((firNode zero add mul w).reset v) x n 0
      = (List.finRange N).foldl (fun acc i => add acc (mul (w i) (pastInput zero (fun k => x k 0) n (N - 1 - i.1)))) zero := by
  refine (fir_out zero add mul w _ x n).trans ?_
  congr 1
  funext acc i
  have := i.2
  congr 2
  unfold pastInput
  by_cases h : i.1 + (n + 1) < N
  · rw [dif_pos h, if_neg (by omega)]; rfl
  · rw [dif_neg h, if_pos (by omega)]
    rw [show i.1 + (n + 1) - N = n - (N - 1 - i.1) by omega]

theorem foldl_sum {K : Type} [Field K] {N : Nat} (f : Fin N → K) : ∀ (l : List (Fin N)) (a : K), l.foldl (fun acc i => acc + f i) a = a + (l.map f).sum
  | [], a => by simp
  | i :: l, a => by rw [List.foldl_cons, foldl_sum f l, List.map_cons, List.sum_cons, add_assoc]

theorem foldl_finSum {K : Type} [Field K] {N : Nat} (f : Fin N → K) : (List.finRange N).foldl (fun acc i => acc + f i) 0 = ∑ i, f i := by
  rw [foldl_sum, zero_add, ← List.ofFn_eq_map, List.sum_ofFn]

/-- **C43.** In exact arithmetic the output for a constant input is the sum of weights times the input, once the filter is filled. -/
theorem C43_dc_gain {K : Type} [Field K] {N : Nat} (w v : Frame K N) (x : K) (n : Nat) (hn : N ≤ n + 1) :
    (firNode (0 : K) (· + ·) (· * ·) w).ticks.out v (fun _ _ => x) n 0 = (∑ i, w i) * x := by
  rw [fir_out, Finset.sum_mul, ← foldl_finSum]
  congr 1
  funext acc i
  have := i.2
  rw [dif_neg (by omega)]

/-- **C43.** Block processing gives the same. -/
theorem C43_block {α : Type} (zero : α) (add mul : α → α → α) {N : Nat} (w : Frame α N) : BlockEqualsTick (firNode zero add mul w) :=
  (tickBlock_iff _).1 (tickBlock_ofTick _ _)

/-- The newest input meets the last weight. -/
example : (firNode (0 : Int) (· + ·) (· * ·) (![1, 10, 100] : Frame Int 3)).ticks.out (fun _ => 0) (fun k _ => (k : Int) + 1) 3 0 = 432 := by decide

end Fundsp.Filter
