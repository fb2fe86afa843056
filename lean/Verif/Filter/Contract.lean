import Mathlib.Analysis.SpecificLimits.Basic
import Mathlib.Tactic.Linarith
import Mathlib.Tactic.Positivity

/-! Convergence of contractions. -/

namespace Fundsp.Filter
open _root_.Filter Topology

theorem geom_bound {c m : ℝ} (hc : 0 ≤ c) (hc1 : c < 1) {u : ℕ → ℝ} (h : ∀ n, u (n + 1) ≤ c * u n + (1 - c) * m) (k : ℕ) :
    u k ≤ c ^ k * (u 0 - m) + m := by
  induction k with
  | zero => simp
  | succ k ih =>
    have := mul_le_mul_of_nonneg_left ih hc
    have e : c ^ (k + 1) * (u 0 - m) = c * (c ^ k * (u 0 - m)) := by ring
    linarith [h k]

/-- `u(n+1) ≤ c u(n) + e(n)` with `c < 1` and `e → 0` forces `u → 0`. -/
theorem tendsto_of_contraction {c : ℝ} (hc : 0 ≤ c) (hc1 : c < 1) {u e : ℕ → ℝ} (hu : ∀ n, 0 ≤ u n)
    (h : ∀ n, u (n + 1) ≤ c * u n + e n) (he : Tendsto e atTop (𝓝 0)) : Tendsto u atTop (𝓝 0) := by
  rw [Metric.tendsto_atTop]
  intro ε hε
  have h1 : 0 < 1 - c := by linarith
  obtain ⟨N, hN⟩ := (Metric.tendsto_atTop.1 he) ((1 - c) * (ε / 2)) (by positivity)
  have hstep : ∀ n, u (N + (n + 1)) ≤ c * u (N + n) + (1 - c) * (ε / 2) := by
    intro n
    have a := h (N + n)
    have b := hN (N + n) (by omega)
    rw [Real.dist_eq, sub_zero, abs_lt] at b
    have e : N + (n + 1) = N + n + 1 := by omega
    rw [e]; linarith [b.2]
  have hb := geom_bound (u := fun n => u (N + n)) hc hc1 hstep
  have ht : Tendsto (fun k => c ^ k * (u (N + 0) - ε / 2)) atTop (𝓝 0) := by
    simpa using (tendsto_pow_atTop_nhds_zero_of_lt_one hc hc1).mul_const (u (N + 0) - ε / 2)
  obtain ⟨M, hM⟩ := (Metric.tendsto_atTop.1 ht) (ε / 2) (by positivity)
  refine ⟨N + M, fun n hn => ?_⟩
  have a := hM (n - N) (by omega)
  have b := hb (n - N)
  rw [Real.dist_eq, sub_zero, abs_lt] at a
  have e : N + (n - N) = n := by omega
  beta_reduce at b
  rw [e] at b
  rw [Real.dist_eq, sub_zero, abs_of_nonneg (hu n)]
  linarith [a.2]

end Fundsp.Filter
