import Verif.Float.Lemmas
import Verif.Core.TickBlock
import Mathlib.Algebra.BigOperators.Fin
import Mathlib.Algebra.Order.BigOperators.Group.Finset
import Mathlib.Algebra.BigOperators.Field
import Mathlib.Algebra.Order.BigOperators.Ring.Finset

/-!
# Averages in floating point: model

Samples are the numbers with `p` significant bits, and `Join` and `MultiJoin` (`Core/Combinators.lean`) are taken with rounded operations.
-/

noncomputable section
namespace Fundsp.Fl

/-- Floating point numbers with `p` bits. -/
def F (p : ℕ) : Type := { x : ℝ // Rep p x }

/-- The nearest number. -/
def F.of {p : ℕ} (hp : 1 ≤ p) (x : ℝ) : F p := ⟨rnd p x, rep_rnd hp x⟩

/-- Operations of `Join` and `MultiJoin` in floating point: addition and division by `N as f32` at `audionode.rs:616-620` and `672-676`, `z` and multiplication at
`audionode.rs:623-629` and `680-688`. The conversion of `N` is exact for any number of channels that occurs. -/
def flAvg (p : ℕ) (hp : 1 ≤ p) (N : ℕ) : AvgOps (F p) N where
  add x y := F.of hp (x.1 + y.1)
  mul x y := F.of hp (x.1 * y.1)
  divN x := F.of hp (x.1 / N)
  z := F.of hp (1 / N)

/-! ## Lemmas -/

theorem rnd_scale {p : ℕ} (x : ℝ) (j : ℤ) : rnd p (x * 2 ^ j) = rnd p x * 2 ^ j := by
  by_cases h0 : x = 0
  · rw [h0, zero_mul, rnd_zero, zero_mul]
  · obtain ⟨k, h1, h2⟩ := exists_binade h0
    have hj : (0 : ℝ) < 2 ^ j := by positivity
    have e1 : (2 : ℝ) ^ (k + j) = 2 ^ k * 2 ^ j := zpow_add₀ (by norm_num) _ _
    have e2 : (2 : ℝ) ^ (k + j + 1) = 2 ^ (k + 1) * 2 ^ j := by rw [← zpow_add₀ (by norm_num)]; congr 1; ring
    have e3 : (2 : ℝ) ^ (k + j - p + 1) = 2 ^ (k - p + 1) * 2 ^ j := by rw [← zpow_add₀ (by norm_num)]; congr 1; ring
    rw [rnd_of h1 h2, rnd_of (k := k + j) (by rw [abs_mul, abs_of_pos hj, e1]; exact mul_le_mul_of_nonneg_right h1 hj.le)
      (by rw [abs_mul, abs_of_pos hj, e2]; exact mul_lt_mul_of_pos_right h2 hj), e3, mul_div_mul_right _ _ hj.ne', mul_assoc]

theorem rnd_rel {p : ℕ} (x : ℝ) : |rnd p x - x| ≤ 2 ^ (-(p : ℤ)) * |x| := by
  by_cases h0 : x = 0
  · rw [h0, rnd_zero]; simp
  · obtain ⟨k, h1, h2⟩ := exists_binade h0
    refine (rnd_err_of h2).trans ?_
    rw [show k - (p : ℤ) = -(p : ℤ) + k by ring, zpow_add₀ (by norm_num)]
    exact mul_le_mul_of_nonneg_left h1 (by positivity)

/-- The sum rounded at every step. -/
theorem fold_err {p : ℕ} (hp : 1 ≤ p) {u : ℝ} (hu : u = 2 ^ (-(p : ℤ))) {n : ℕ} (x0 : F p) (f : Fin n → F p) :
    |(Fin.foldl n (fun acc i => F.of hp (acc.1 + (f i).1)) x0).1 - (x0.1 + ∑ i, (f i).1)| ≤ ((1 + u) ^ n - 1) * (|x0.1| + ∑ i, |(f i).1|) := by
  have hu0 : 0 < u := by rw [hu]; positivity
  induction n with
  | zero => simp
  | succ n ih =>
    rw [Fin.foldl_succ_last]
    have h := ih (fun i => f i.castSucc)
    obtain ⟨S, hS⟩ : ∃ S, S = Fin.foldl n (fun acc i => F.of hp (acc.1 + (f i.castSucc).1)) x0 := ⟨_, rfl⟩
    rw [← hS] at h ⊢
    rw [Fin.sum_univ_castSucc, Fin.sum_univ_castSucc]
    obtain ⟨s, hs⟩ : ∃ s, s = x0.1 + ∑ i : Fin n, (f i.castSucc).1 := ⟨_, rfl⟩
    obtain ⟨A, hA⟩ : ∃ A, A = |x0.1| + ∑ i : Fin n, |(f i.castSucc).1| := ⟨_, rfl⟩
    rw [← hs, ← hA] at h
    have hA0 : 0 ≤ A := by rw [hA]; positivity
    have hsA : |s| ≤ A := by
      rw [hs, hA]
      exact (abs_add_le _ _).trans (add_le_add le_rfl (Finset.abs_sum_le_sum_abs _ _))
    rw [← add_assoc, ← add_assoc, ← hs, ← hA]
    obtain ⟨y, hy⟩ : ∃ y, y = (f (Fin.last n)).1 := ⟨_, rfl⟩
    rw [← hy]
    show |rnd p (S.1 + y) - (s + y)| ≤ _
    have h1 := rnd_rel (p := p) (S.1 + y)
    rw [← hu] at h1
    have h2 : |S.1 + y| ≤ |S.1 - s| + (A + |y|) := by
      calc |S.1 + y| = |(S.1 - s) + (s + y)| := by congr 1; ring
        _ ≤ |S.1 - s| + |s + y| := abs_add_le _ _
        _ ≤ _ := by linarith [abs_add_le s y]
    have h3 : |rnd p (S.1 + y) - (s + y)| ≤ |rnd p (S.1 + y) - (S.1 + y)| + |S.1 - s| := by
      calc |rnd p (S.1 + y) - (s + y)| = |(rnd p (S.1 + y) - (S.1 + y)) + (S.1 - s)| := by congr 1; ring
        _ ≤ _ := abs_add_le _ _
    have h4 := mul_le_mul_of_nonneg_left h2 hu0.le
    have hq : 1 ≤ (1 + u) ^ n := one_le_pow₀ (by linarith)
    have hyy := abs_nonneg y
    have h5 : |S.1 - s| * (1 + u) ≤ ((1 + u) ^ n - 1) * A * (1 + u) := mul_le_mul_of_nonneg_right h (by linarith)
    have h6 : 0 ≤ ((1 + u) ^ n - 1) * |y| * (1 + u) := mul_nonneg (mul_nonneg (by linarith) hyy) (by linarith)
    rw [pow_succ]
    nlinarith

end Fundsp.Fl
