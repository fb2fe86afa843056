import Verif.Math.Props
import Mathlib.Analysis.Calculus.MeanValue
import Mathlib.Analysis.Calculus.Deriv.Mul
import Mathlib.Analysis.Calculus.Deriv.Add
import Mathlib.Analysis.Calculus.Deriv.Pow

/-! C33: how fast spline noise can change. -/

noncomputable section
namespace Fundsp.Math

theorem spline_deriv (y0 y1 y2 y3 x : ℝ) : HasDerivAt (spline y0 y1 y2 y3)
    ((-1 + 4 * x - 3 * x ^ 2) / 2 * y0 + (-10 * x + 9 * x ^ 2) / 2 * y1 + (1 + 8 * x - 9 * x ^ 2) / 2 * y2 + (-2 * x + 3 * x ^ 2) / 2 * y3) x := by
  have e : spline y0 y1 y2 y3 = fun x => y1 + (1 / 2 * (y2 - y0)) * x + (1 / 2 * (2 * y0 - 5 * y1 + 4 * y2 - y3)) * x ^ 2
      + (1 / 2 * (3 * (y1 - y2) + y3 - y0)) * x ^ 3 := by
    funext x; unfold spline; ring
  rw [e]
  have h := ((((hasDerivAt_id x).const_mul (1 / 2 * (y2 - y0))).const_add y1).add
    ((hasDerivAt_pow 2 x).const_mul (1 / 2 * (2 * y0 - 5 * y1 + 4 * y2 - y3)))).add ((hasDerivAt_pow 3 x).const_mul (1 / 2 * (3 * (y1 - y2) + y3 - y0)))
  refine h.congr_deriv ?_
  norm_num
  ring

theorem spline_slope {y0 y1 y2 y3 x : ℝ} (h0 : |y0| ≤ 1) (h1 : |y1| ≤ 1) (h2 : |y2| ≤ 1) (h3 : |y3| ≤ 1) (hx0 : 0 ≤ x) (hx1 : x ≤ 1) :
    |(-1 + 4 * x - 3 * x ^ 2) / 2 * y0 + (-10 * x + 9 * x ^ 2) / 2 * y1 + (1 + 8 * x - 9 * x ^ 2) / 2 * y2 + (-2 * x + 3 * x ^ 2) / 2 * y3| ≤ 3 := by
  have b : ∀ c y : ℝ, |y| ≤ 1 → |c * y| ≤ |c| := fun c y h => by
    rw [abs_mul]; exact mul_le_of_le_one_right (abs_nonneg _) h
  have t1 := abs_add_le ((-1 + 4 * x - 3 * x ^ 2) / 2 * y0 + (-10 * x + 9 * x ^ 2) / 2 * y1 + (1 + 8 * x - 9 * x ^ 2) / 2 * y2) ((-2 * x + 3 * x ^ 2) / 2 * y3)
  have t2 := abs_add_le ((-1 + 4 * x - 3 * x ^ 2) / 2 * y0 + (-10 * x + 9 * x ^ 2) / 2 * y1) ((1 + 8 * x - 9 * x ^ 2) / 2 * y2)
  have t3 := abs_add_le ((-1 + 4 * x - 3 * x ^ 2) / 2 * y0) ((-10 * x + 9 * x ^ 2) / 2 * y1)
  have c0 := b ((-1 + 4 * x - 3 * x ^ 2) / 2) y0 h0
  have c1 := b ((-10 * x + 9 * x ^ 2) / 2) y1 h1
  have c2 := b ((1 + 8 * x - 9 * x ^ 2) / 2) y2 h2
  have c3 := b ((-2 * x + 3 * x ^ 2) / 2) y3 h3
  have s1 : |(-10 * x + 9 * x ^ 2) / 2| = (10 * x - 9 * x ^ 2) / 2 := by rw [abs_of_nonpos (by nlinarith)]; ring
  have s2 : |(1 + 8 * x - 9 * x ^ 2) / 2| = (1 + 8 * x - 9 * x ^ 2) / 2 := abs_of_nonneg (by nlinarith)
  have q : |(-1 + 4 * x - 3 * x ^ 2) / 2| + |(-2 * x + 3 * x ^ 2) / 2| ≤ 3 - (1 + 18 * x - 18 * x ^ 2) / 2 := by
    rcases le_total x (1 / 3) with a | a
    · rw [abs_of_nonpos (by nlinarith), abs_of_nonpos (by nlinarith)]; nlinarith [sq_nonneg (x - 4 / 9)]
    · rcases le_total x (2 / 3) with c | c
      · rw [abs_of_nonneg (by nlinarith), abs_of_nonpos (by nlinarith)]; nlinarith [sq_nonneg (x - 1 / 2)]
      · rw [abs_of_nonneg (by nlinarith), abs_of_nonneg (by nlinarith)]; nlinarith [sq_nonneg (x - 5 / 9)]
  linarith

theorem spline_lip {y0 y1 y2 y3 : ℝ} (h0 : |y0| ≤ 1) (h1 : |y1| ≤ 1) (h2 : |y2| ≤ 1) (h3 : |y3| ≤ 1) {x z : ℝ} (hx0 : 0 ≤ x) (hx1 : x ≤ 1) (hz0 : 0 ≤ z) (hz1 : z ≤ 1) :
    |spline y0 y1 y2 y3 z - spline y0 y1 y2 y3 x| ≤ 3 * |z - x| := by
  have := Convex.norm_image_sub_le_of_norm_hasDerivWithin_le (f := spline y0 y1 y2 y3) (s := Set.Icc 0 1) (C := 3)
    (fun x _ => (spline_deriv y0 y1 y2 y3 x).hasDerivWithinAt) (fun x hx => by rw [Real.norm_eq_abs]; exact spline_slope h0 h1 h2 h3 hx.1 hx.2) (convex_Icc 0 1)
    (show x ∈ Set.Icc (0 : ℝ) 1 from ⟨hx0, hx1⟩) (show z ∈ Set.Icc (0 : ℝ) 1 from ⟨hz0, hz1⟩)
  simpa only [Real.norm_eq_abs] using this

/-- **C33.** Spline noise changes by at most 2.4 per unit of its argument, for every seed. -/
theorem C33_spline_noise_slope (hash64a : BitVec 64 → BitVec 64) (rnd2 : BitVec 64 → ℝ) (seed : BitVec 64) (x z : ℝ) :
    |splineNoise hash64a rnd2 seed z - splineNoise hash64a rnd2 seed x| ≤ 2.4 * |z - x| := by
  have hp : ∀ i, |getPoint hash64a seed i| ≤ 1 := by
    intro i
    have a := hash11_range hash64a (attoHash seed (BitVec.ofInt 64 i))
    exact abs_le.2 ⟨a.1, a.2.le⟩
  obtain ⟨P, hP⟩ : ∃ P : ℤ → ℝ, P = getPoint hash64a seed := ⟨_, rfl⟩
  have hp' : ∀ i, |P i| ≤ 1 := by rw [hP]; exact hp
  obtain ⟨f, hf⟩ : ∃ f : ℝ → ℝ, f = fun x => spline (P (⌊x⌋ - 1)) (P ⌊x⌋) (P (⌊x⌋ + 1)) (P (⌊x⌋ + 2)) (x - ⌊x⌋) := ⟨_, rfl⟩
  have key : ∀ x z : ℝ, x ≤ z → |f z - f x| ≤ 3 * (z - x) := by
    intro x z hxz
    have x0 := Int.floor_le x
    have x1 := Int.lt_floor_add_one x
    have z0 := Int.floor_le z
    have z1 := Int.lt_floor_add_one z
    rcases (Int.floor_mono hxz).lt_or_eq with h | h
    · have a := spline_lip (hp' (⌊x⌋ - 1)) (hp' ⌊x⌋) (hp' (⌊x⌋ + 1)) (hp' (⌊x⌋ + 2)) (x := x - ⌊x⌋) (z := 1) (by linarith) (by linarith) (by norm_num) (by norm_num)
      have c := spline_lip (hp' (⌊z⌋ - 1)) (hp' ⌊z⌋) (hp' (⌊z⌋ + 1)) (hp' (⌊z⌋ + 2)) (x := 0) (z := z - ⌊z⌋) (by norm_num) (by norm_num) (by linarith) (by linarith)
      have e1 : spline (P (⌊x⌋ - 1)) (P ⌊x⌋) (P (⌊x⌋ + 1)) (P (⌊x⌋ + 2)) 1 = P (⌊x⌋ + 1) := by unfold spline; ring
      have e0 : spline (P (⌊z⌋ - 1)) (P ⌊z⌋) (P (⌊z⌋ + 1)) (P (⌊z⌋ + 2)) 0 = P ⌊z⌋ := by unfold spline; ring
      rw [e1, abs_of_nonneg (by linarith : 0 ≤ 1 - (x - ⌊x⌋))] at a
      rw [e0, abs_of_nonneg (by linarith : 0 ≤ z - ⌊z⌋ - 0)] at c
      have b : |P ⌊z⌋ - P (⌊x⌋ + 1)| ≤ 3 * ((⌊z⌋ : ℝ) - (⌊x⌋ + 1)) := by
        rcases (Int.add_one_le_of_lt h).lt_or_eq with g | g
        · have t := abs_sub (P ⌊z⌋) (P (⌊x⌋ + 1))
          have : ((⌊x⌋ : ℝ) + 1) + 1 ≤ ⌊z⌋ := by exact_mod_cast g
          linarith [hp' ⌊z⌋, hp' (⌊x⌋ + 1)]
        · rw [← g]; push_cast; simp
      have e : f z - f x = (f z - P ⌊z⌋) + (P ⌊z⌋ - P (⌊x⌋ + 1)) + (P (⌊x⌋ + 1) - f x) := by ring
      rw [e]
      have t1 := abs_add_le ((f z - P ⌊z⌋) + (P ⌊z⌋ - P (⌊x⌋ + 1))) (P (⌊x⌋ + 1) - f x)
      have t2 := abs_add_le (f z - P ⌊z⌋) (P ⌊z⌋ - P (⌊x⌋ + 1))
      have ex : f x = spline (P (⌊x⌋ - 1)) (P ⌊x⌋) (P (⌊x⌋ + 1)) (P (⌊x⌋ + 2)) (x - ⌊x⌋) := by rw [hf]
      have ez : f z = spline (P (⌊z⌋ - 1)) (P ⌊z⌋) (P (⌊z⌋ + 1)) (P (⌊z⌋ + 2)) (z - ⌊z⌋) := by rw [hf]
      rw [← ex] at a
      rw [← ez] at c
      linarith
    · have a := spline_lip (hp' (⌊x⌋ - 1)) (hp' ⌊x⌋) (hp' (⌊x⌋ + 1)) (hp' (⌊x⌋ + 2)) (x := x - ⌊x⌋) (z := z - ⌊z⌋) (by linarith) (by linarith) (by linarith) (by linarith)
      rw [hf]
      simp only
      rw [← h] at a ⊢
      rw [show z - (⌊x⌋ : ℝ) - (x - ⌊x⌋) = z - x by ring, abs_of_nonneg (by linarith : 0 ≤ z - x)] at a
      exact a
  have key2 : |f (z + rnd2 seed) - f (x + rnd2 seed)| ≤ 3 * |z - x| := by
    rcases le_total x z with h | h
    · rw [abs_of_nonneg (by linarith : 0 ≤ z - x)]
      have := key (x + rnd2 seed) (z + rnd2 seed) (by linarith)
      linarith
    · rw [abs_of_nonpos (by linarith : z - x ≤ 0), abs_sub_comm]
      have := key (z + rnd2 seed) (x + rnd2 seed) (by linarith)
      linarith
  have ef : ∀ x, splineNoise hash64a rnd2 seed x = f (x + rnd2 seed) * (1 / 1.25) := by
    intro x; rw [hf, hP]; rfl
  rw [ef, ef, ← sub_mul, abs_mul]
  have : |(1 / 1.25 : ℝ)| = 4 / 5 := by rw [abs_of_nonneg] <;> norm_num
  rw [this]
  norm_num at key2 ⊢
  linarith

example (x : ℝ) : |splineNoise id (fun _ => 1 / 3) 5 (x + 1 / 1000) - splineNoise id (fun _ => 1 / 3) 5 x| ≤ 0.0024 := by
  have h := C33_spline_noise_slope id (fun _ => 1 / 3) 5 x (x + 1 / 1000)
  rw [add_sub_cancel_left, abs_of_pos (by norm_num : (0 : ℝ) < 1 / 1000)] at h
  linarith

end Fundsp.Math
