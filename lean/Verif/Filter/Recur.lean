import Verif.Filter.Contract
import Mathlib.Analysis.Complex.Basic
import Mathlib.Analysis.SpecialFunctions.Complex.Circle
import Mathlib.Analysis.SpecialFunctions.Sqrt
import Mathlib.Analysis.SpecialFunctions.Trigonometric.Basic
import Mathlib.Tactic.LinearCombination
import Mathlib.Tactic.FieldSimp
import Mathlib.Topology.Algebra.Monoid
import Mathlib.Algebra.BigOperators.Group.Finset.Basic

/-! Stable linear recurrences driven by complex exponentials. -/

namespace Fundsp.Filter
open _root_.Filter Topology

/-- Specification. The stream `x` is (asymptotically) a constant `d` plus the real part of the complex exponential `A w^k`. -/
def AsympExp (w A : ℂ) (d : ℝ) (x : ℕ → ℝ) : Prop := Tendsto (fun k => x k - d - (A * w ^ k).re) atTop (𝓝 0)

theorem AsympExp.exact (w A : ℂ) : AsympExp w A 0 (fun k => (A * w ^ k).re) := by
  unfold AsympExp; simp

theorem AsympExp.const (w : ℂ) (d : ℝ) : AsympExp w 0 d (fun _ => d) := by
  unfold AsympExp; simp

theorem AsympExp.congr_tail {w A : ℂ} {d : ℝ} {x y : ℕ → ℝ} (h : AsympExp w A d x) (N : ℕ) (e : ∀ k, N ≤ k → y k = x k) : AsympExp w A d y := by
  refine h.congr' ?_
  filter_upwards [eventually_ge_atTop N] with k hk
  rw [e k hk]

theorem AsympExp.add {w A B : ℂ} {c d : ℝ} {x y : ℕ → ℝ} (hx : AsympExp w A c x) (hy : AsympExp w B d y) :
    AsympExp w (A + B) (c + d) (fun k => x k + y k) := by
  have := Tendsto.add hx hy
  rw [add_zero] at this
  refine this.congr (fun k => ?_)
  rw [add_mul, Complex.add_re]; ring

theorem AsympExp.smul {w A : ℂ} {d : ℝ} {x : ℕ → ℝ} (c : ℝ) (hx : AsympExp w A d x) : AsympExp w (c * A) (c * d) (fun k => c * x k) := by
  have := Tendsto.const_mul c hx
  rw [mul_zero] at this
  refine this.congr (fun k => ?_)
  rw [mul_assoc, Complex.re_ofReal_mul]; ring

/-- Advancing the stream by one sample multiplies the amplitude by `w`. -/
theorem AsympExp.next {w A : ℂ} {d : ℝ} {x : ℕ → ℝ} (hx : AsympExp w A d x) : AsympExp w (A * w) d (fun k => x (k + 1)) := by
  have := hx.comp (tendsto_add_atTop_nat 1)
  refine this.congr (fun k => ?_)
  show x (k + 1) - d - (A * w ^ (k + 1)).re = _
  rw [pow_succ']; ring_nf

theorem AsympExp.of_next {w A : ℂ} {d : ℝ} {x : ℕ → ℝ} (h : AsympExp w (A * w) d (fun k => x (k + 1))) : AsympExp w A d x := by
  unfold AsympExp at *
  rw [← tendsto_add_atTop_iff_nat 1]
  refine h.congr (fun k => ?_)
  rw [pow_succ']; ring_nf

/-- Delaying the stream by `n` samples divides the amplitude by `w^n`. -/
theorem AsympExp.delay {w A : ℂ} {d : ℝ} (hw : w ≠ 0) {x y : ℕ → ℝ} (hx : AsympExp w A d x) (n : ℕ) (h : ∀ k, y (k + n) = x k) :
    AsympExp w (A * (w⁻¹) ^ n) d y := by
  induction n generalizing y with
  | zero => rw [pow_zero, mul_one]; have e : y = x := funext h; rwa [e]
  | succ n ih =>
    apply AsympExp.of_next
    have e : A * w⁻¹ ^ (n + 1) * w = A * w⁻¹ ^ n := by rw [pow_succ]; field_simp
    rw [e]
    exact ih (fun k => by rw [← h k]; congr 1)

theorem AsympExp.sum {w : ℂ} {N : ℕ} {A : Fin N → ℂ} {d : Fin N → ℝ} {x : Fin N → ℕ → ℝ} (h : ∀ i, AsympExp w (A i) (d i) (x i)) :
    AsympExp w (∑ i, A i) (∑ i, d i) (fun k => ∑ i, x i k) := by
  have : Tendsto (fun k => ∑ i, (x i k - d i - (A i * w ^ k).re)) atTop (𝓝 (∑ _i : Fin N, 0)) := tendsto_finsetSum _ (fun i _ => h i)
  rw [Finset.sum_const_zero] at this
  refine this.congr (fun k => ?_)
  rw [Finset.sum_mul, Complex.re_sum, Finset.sum_sub_distrib, Finset.sum_sub_distrib]

/-- The roots of a real quadratic meeting the stability triangle are inside the unit circle. -/
theorem stable_roots {a1 a2 : ℝ} (h2 : |a2| < 1) (h1 : |a1| < 1 + a2) :
    ∃ r s : ℂ, ‖r‖ < 1 ∧ ‖s‖ < 1 ∧ r + s = -(a1 : ℂ) ∧ r * s = a2 := by
  rw [abs_lt] at h1 h2
  rcases lt_or_ge (a1 ^ 2 - 4 * a2) 0 with hd | hd
  · -- conjugate pair
    obtain ⟨t, ht⟩ : ∃ t : ℝ, t ^ 2 = 4 * a2 - a1 ^ 2 := ⟨√(4 * a2 - a1 ^ 2), Real.sq_sqrt (by linarith)⟩
    have hn : ∀ u : ℝ, u ^ 2 = t ^ 2 → ‖(⟨-a1 / 2, u / 2⟩ : ℂ)‖ < 1 := by
      intro u hu
      have e : ‖(⟨-a1 / 2, u / 2⟩ : ℂ)‖ ^ 2 = a2 := by
        rw [Complex.sq_norm, Complex.normSq_mk]; nlinarith
      nlinarith [norm_nonneg (⟨-a1 / 2, u / 2⟩ : ℂ)]
    refine ⟨⟨-a1 / 2, t / 2⟩, ⟨-a1 / 2, (-t) / 2⟩, hn t rfl, hn (-t) (by ring), ?_, ?_⟩
    · apply Complex.ext
      · simp
      · simp; ring
    · apply Complex.ext
      · simp [Complex.mul_re]; nlinarith
      · simp [Complex.mul_im]; ring
  · obtain ⟨t, ht, ht0⟩ : ∃ t : ℝ, t ^ 2 = a1 ^ 2 - 4 * a2 ∧ 0 ≤ t := ⟨√(a1 ^ 2 - 4 * a2), Real.sq_sqrt (by linarith), Real.sqrt_nonneg _⟩
    have h3 : t < 2 + a1 := by
      have : t ^ 2 < (2 + a1) ^ 2 := by nlinarith
      nlinarith
    have h4 : t < 2 - a1 := by
      have : t ^ 2 < (2 - a1) ^ 2 := by nlinarith
      nlinarith
    refine ⟨(((-a1 + t) / 2 : ℝ) : ℂ), (((-a1 - t) / 2 : ℝ) : ℂ), ?_, ?_, ?_, ?_⟩
    · rw [Complex.norm_real, Real.norm_eq_abs, abs_lt]; constructor <;> linarith
    · rw [Complex.norm_real, Real.norm_eq_abs, abs_lt]; constructor <;> linarith
    · push_cast; ring
    · rw [← Complex.ofReal_mul]; congr 1; nlinarith

/-- A stable driven second order recurrence with vanishing drive vanishes. -/
theorem recur_vanish {a1 a2 : ℝ} (h2 : |a2| < 1) (h1 : |a1| < 1 + a2) {e d : ℕ → ℝ}
    (h : ∀ k, e (k + 2) = d k - a1 * e (k + 1) - a2 * e k) (hd : Tendsto d atTop (𝓝 0)) : Tendsto e atTop (𝓝 0) := by
  obtain ⟨r, s, hr, hs, hsum, hprod⟩ := stable_roots h2 h1
  have hrec : ∀ k, ((e (k + 2) : ℝ) : ℂ) = d k + (r + s) * e (k + 1) - r * s * e k := by
    intro k; rw [h k, hsum, hprod]; push_cast; ring
  have u0 : Tendsto (fun k => ‖(e (k + 1) : ℂ) - r * e k‖) atTop (𝓝 0) := by
    refine tendsto_of_contraction (c := ‖s‖) (e := fun k => |d k|) (norm_nonneg _) hs (fun _ => norm_nonneg _) (fun k => ?_) (by simpa using hd.abs)
    have e1 : (e (k + 1 + 1) : ℂ) - r * e (k + 1) = s * ((e (k + 1) : ℂ) - r * e k) + d k := by
      have := hrec k
      rw [show k + 1 + 1 = k + 2 from rfl, this]; ring
    rw [e1]
    refine (norm_add_le _ _).trans ?_
    rw [norm_mul, Complex.norm_real, Real.norm_eq_abs]
  have e0 : Tendsto (fun k => ‖(e k : ℂ)‖) atTop (𝓝 0) := by
    refine tendsto_of_contraction (c := ‖r‖) (e := fun k => ‖(e (k + 1) : ℂ) - r * e k‖) (norm_nonneg _) hr (fun _ => norm_nonneg _) (fun k => ?_) u0
    have e1 : (e (k + 1) : ℂ) = r * e k + ((e (k + 1) : ℂ) - r * e k) := by ring
    calc ‖(e (k + 1) : ℂ)‖ = ‖r * e k + ((e (k + 1) : ℂ) - r * e k)‖ := by rw [← e1]
      _ ≤ _ := (norm_add_le _ _).trans (by rw [norm_mul])
  have e1 : Tendsto (fun k => |e k|) atTop (𝓝 0) := by simpa [Complex.norm_real] using e0
  exact (tendsto_zero_iff_abs_tendsto_zero _).2 e1

/-- The characteristic polynomial of a stable recurrence does not vanish on the unit circle. -/
theorem char_ne_zero {a1 a2 : ℝ} (h2 : |a2| < 1) (h1 : |a1| < 1 + a2) {w : ℂ} (hw : ‖w‖ = 1) : w ^ 2 + a1 * w + a2 ≠ 0 := by
  obtain ⟨r, s, hr, hs, hsum, hprod⟩ := stable_roots h2 h1
  have e : w ^ 2 + a1 * w + a2 = (w - r) * (w - s) := by
    linear_combination w * hsum - hprod
  rw [e]
  refine mul_ne_zero (fun h => ?_) (fun h => ?_)
  · rw [sub_eq_zero] at h; rw [h] at hw; linarith
  · rw [sub_eq_zero] at h; rw [h] at hw; linarith

/-- Response of a stable second order recurrence. -/
theorem recur_response {a1 a2 b0 b1 b2 G : ℝ} (h2 : |a2| < 1) (h1 : |a1| < 1 + a2) {w A H : ℂ} {d : ℝ} {x y : ℕ → ℝ}
    (h : ∀ k, y (k + 2) = b0 * x (k + 2) + b1 * x (k + 1) + b2 * x k - a1 * y (k + 1) - a2 * y k)
    (hH : H * (w ^ 2 + a1 * w + a2) = b0 * w ^ 2 + b1 * w + b2) (hG : G * (1 + a1 + a2) = b0 + b1 + b2)
    (hx : AsympExp w A d x) : AsympExp w (A * H) (d * G) y := by
  have e0 := hx.smul b2
  have e1 := hx.next.smul b1
  have e2 := hx.next.next.smul b0
  have hd := (e2.add e1).add e0
  refine recur_vanish h2 h1 (d := fun k => b0 * x (k + 2) + b1 * x (k + 1) + b2 * x k - (b0 * d + b1 * d + b2 * d)
    - (((b0 * (A * w * w) + b1 * (A * w) + b2 * A) * w ^ k).re)) (fun k => ?_) hd
  rw [h k]
  have key : ((A * H * w ^ (k + 2)).re) = ((b0 * (A * w * w) + b1 * (A * w) + b2 * A) * w ^ k).re
      - a1 * (A * H * w ^ (k + 1)).re - a2 * (A * H * w ^ k).re := by
    rw [← Complex.re_ofReal_mul, ← Complex.re_ofReal_mul, ← Complex.sub_re, ← Complex.sub_re]
    congr 1
    have : w ^ (k + 2) = w ^ k * w ^ 2 := by ring
    rw [this, pow_succ]
    linear_combination (A * w ^ k) * hH
  rw [key]
  linear_combination (-d) * hG

/-- First order case. -/
theorem recur_response1 {c b0 b1 G : ℝ} (hc : |c| < 1) {w A H : ℂ} {d : ℝ} {x y : ℕ → ℝ}
    (h : ∀ k, y (k + 1) = b0 * x (k + 1) + b1 * x k + c * y k)
    (hH : H * (w - c) = b0 * w + b1) (hG : G * (1 - c) = b0 + b1) (hx : AsympExp w A d x) : AsympExp w (A * H) (d * G) y := by
  refine recur_response (a1 := -c) (a2 := 0) (b0 := b0) (b1 := b1) (b2 := 0) (by simp) (by simpa using hc) (fun k => ?_) ?_ ?_ hx
  · rw [h (k + 1)]; ring
  · push_cast; linear_combination w * hH
  · linear_combination hG

/-- On the unit circle the specification determines the amplitude. -/
theorem AsympExp.unique {w H K : ℂ} (hw : ‖w‖ = 1) (h : ∀ A : ℂ, ∃ (x : ℕ → ℝ) (d : ℝ), AsympExp w (A * H) d x ∧ AsympExp w (A * K) d x) : H = K := by
  have key : ∀ A : ℂ, Tendsto (fun k => (A * (H - K) * w ^ k).re) atTop (𝓝 0) := by
    intro A
    obtain ⟨x, d, h1, h2⟩ := h A
    have := Tendsto.sub h2 h1
    rw [sub_zero] at this
    refine this.congr (fun k => ?_)
    rw [mul_sub, sub_mul, Complex.sub_re]; ring
  have hre := key 1
  have him := key Complex.I
  have hn : Tendsto (fun k => ‖(H - K) * w ^ k‖ ^ 2) atTop (𝓝 0) := by
    have := (hre.pow 2).add (him.pow 2)
    norm_num at this
    refine this.congr (fun k => ?_)
    rw [Complex.sq_norm, Complex.normSq_apply]
    simp only [Complex.mul_re, Complex.mul_im, Complex.sub_re, Complex.sub_im]
    ring
  have hc : (fun k : ℕ => ‖(H - K) * w ^ k‖ ^ 2) = fun _ => ‖H - K‖ ^ 2 := by
    funext k
    rw [norm_mul, norm_pow, hw, one_pow, mul_one]
  rw [hc] at hn
  have := tendsto_nhds_unique hn tendsto_const_nhds
  have h0 : ‖H - K‖ = 0 := by
    have : ‖H - K‖ ^ 2 = 0 := this.symm
    exact pow_eq_zero_iff (two_ne_zero) |>.1 this
  exact sub_eq_zero.1 (norm_eq_zero.1 h0)

end Fundsp.Filter
