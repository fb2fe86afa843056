import Verif.Math.Model
import Mathlib.Analysis.Calculus.Deriv.MeanValue
import Mathlib.Analysis.Calculus.Deriv.Pow
import Mathlib.Tactic.Linarith
import Mathlib.Tactic.Positivity
import Mathlib.Tactic.FieldSimp

/-! Properties C30–C34 over the reals. -/

noncomputable section
namespace Fundsp.Math

/-! ## C30 Easing functions -/

/-- An easing curve of the unit interval: hits 0 and 1, is strictly increasing, stays in the interval, is point symmetric
about (1/2, 1/2) and flat at both ends. -/
structure EaseCurve (f : ℝ → ℝ) : Prop where
  zero : f 0 = 0
  one : f 1 = 1
  mono : StrictMonoOn f (Set.Icc 0 1)
  maps : Set.MapsTo f (Set.Icc 0 1) (Set.Icc 0 1)
  onto : Set.SurjOn f (Set.Icc 0 1) (Set.Icc 0 1)
  symm : ∀ x, f x + f (1 - x) = 1
  slope0 : HasDerivAt f 0 0
  slope1 : HasDerivAt f 0 1

/-- Any function with derivative `k * (x * (1 - x)) ^ (n + 1)`, symmetric, from 0 is an easing curve. -/
theorem easeCurve_of (f : ℝ → ℝ) (k : ℝ) (n : ℕ) (hk : 0 < k) (h0 : f 0 = 0) (hs : ∀ x, f x + f (1 - x) = 1)
    (hd : ∀ x, HasDerivAt f (k * (x * (1 - x)) ^ (n + 1)) x) : EaseCurve f := by
  have h1 : f 1 = 1 := by have := hs 1; simp [h0] at this; exact this
  have hc : ContinuousOn f (Set.Icc 0 1) := fun x _ => (hd x).continuousAt.continuousWithinAt
  have hm : StrictMonoOn f (Set.Icc 0 1) := by
    apply strictMonoOn_of_deriv_pos (convex_Icc 0 1) hc
    intro x hx
    rw [interior_Icc] at hx
    rw [(hd x).deriv]
    have : 0 < x * (1 - x) := mul_pos hx.1 (by linarith [hx.2])
    positivity
  refine ⟨h0, h1, hm, ?_, ?_, hs, ?_, ?_⟩
  · intro x hx
    constructor
    · rw [← h0]; exact hm.monotoneOn (by simp) hx hx.1
    · rw [← h1]; exact hm.monotoneOn hx (by simp) hx.2
  · have := intermediate_value_Icc (zero_le_one) hc
    rw [h0, h1] at this
    exact this
  · simpa using hd 0
  · simpa using hd 1

theorem hasDerivAt_poly {f g : ℝ → ℝ} {x d d' : ℝ} (h : HasDerivAt g d x) (hf : f = g) (hd : d = d') : HasDerivAt f d' x := by
  subst hf; subst hd; exact h

theorem smooth3_deriv (x : ℝ) : HasDerivAt smooth3 (6 * (x * (1 - x))) x := by
  refine hasDerivAt_poly (((hasDerivAt_pow 2 x).const_mul 3).sub ((hasDerivAt_pow 3 x).const_mul 2)) ?_ ?_
  · funext y; simp only [smooth3, Pi.sub_apply]; ring
  · norm_num; ring

theorem smooth5_deriv (x : ℝ) : HasDerivAt smooth5 (30 * (x * (1 - x)) ^ 2) x := by
  refine hasDerivAt_poly ((((hasDerivAt_pow 5 x).const_mul 6).sub ((hasDerivAt_pow 4 x).const_mul 15)).add
    ((hasDerivAt_pow 3 x).const_mul 10)) ?_ ?_
  · funext y; simp only [smooth5, Pi.sub_apply, Pi.add_apply]; ring
  · norm_num; ring

theorem smooth7_deriv (x : ℝ) : HasDerivAt smooth7 (140 * (x * (1 - x)) ^ 3) x := by
  refine hasDerivAt_poly (((((hasDerivAt_pow 4 x).const_mul 35).sub ((hasDerivAt_pow 5 x).const_mul 84)).add
    ((hasDerivAt_pow 6 x).const_mul 70)).sub ((hasDerivAt_pow 7 x).const_mul 20)) ?_ ?_
  · funext y; simp only [smooth7, Pi.sub_apply, Pi.add_apply]; ring
  · norm_num; ring

theorem smooth9_deriv (x : ℝ) : HasDerivAt smooth9 (630 * (x * (1 - x)) ^ 4) x := by
  refine hasDerivAt_poly ((((((hasDerivAt_pow 9 x).const_mul 70).sub ((hasDerivAt_pow 8 x).const_mul 315)).add
    ((hasDerivAt_pow 7 x).const_mul 540)).sub ((hasDerivAt_pow 6 x).const_mul 420)).add ((hasDerivAt_pow 5 x).const_mul 126)) ?_ ?_
  · funext y; simp only [smooth9, Pi.sub_apply, Pi.add_apply]; ring
  · norm_num; ring

/-- **C30** -/
theorem C30_smooth3 : EaseCurve smooth3 :=
  easeCurve_of _ 6 0 (by norm_num) (by simp [smooth3]) (fun x => by simp only [smooth3]; ring) (by simpa using smooth3_deriv)
/-- **C30** -/
theorem C30_smooth5 : EaseCurve smooth5 :=
  easeCurve_of _ 30 1 (by norm_num) (by simp [smooth5]) (fun x => by simp only [smooth5]; ring) smooth5_deriv
/-- **C30** -/
theorem C30_smooth7 : EaseCurve smooth7 :=
  easeCurve_of _ 140 2 (by norm_num) (by simp [smooth7]) (fun x => by simp only [smooth7]; ring) smooth7_deriv
/-- **C30** -/
theorem C30_smooth9 : EaseCurve smooth9 :=
  easeCurve_of _ 630 3 (by norm_num) (by simp [smooth9]) (fun x => by simp only [smooth9]; ring) smooth9_deriv

/-- **C30** `uparc` and `downarc` trace quarter circles, are monotone, mutually inverse and mirror images. -/
theorem C30_arcs : uparc 0 = 0 ∧ uparc 1 = 1 ∧ downarc 0 = 0 ∧ downarc 1 = 1 ∧
    MonotoneOn uparc (Set.Icc 0 1) ∧ MonotoneOn downarc (Set.Icc 0 1) ∧
    (∀ x, downarc x = 1 - uparc (1 - x)) ∧
    (∀ x ∈ Set.Icc (0 : ℝ) 1, uparc x ∈ Set.Icc (0 : ℝ) 1 ∧ x ^ 2 + (1 - uparc x) ^ 2 = 1) ∧
    (∀ x ∈ Set.Icc (0 : ℝ) 1, downarc (uparc x) = x ∧ uparc (downarc x) = x) := by
  have mirror : ∀ x, downarc x = 1 - uparc (1 - x) := by
    intro x
    have : 1 - (1 - x) * (1 - x) = (2 - x) * x := by ring
    simp [uparc, downarc, this]
  have um : MonotoneOn uparc (Set.Icc 0 1) := by
    intro x hx y hy hxy
    unfold uparc
    have : Real.sqrt (max 0 (1 - y * y)) ≤ Real.sqrt (max 0 (1 - x * x)) := by
      apply Real.sqrt_le_sqrt
      apply max_le_max (le_refl _)
      nlinarith [hx.1, hy.1]
    linarith
  have circ : ∀ x ∈ Set.Icc (0 : ℝ) 1, uparc x ∈ Set.Icc (0 : ℝ) 1 ∧ x ^ 2 + (1 - uparc x) ^ 2 = 1 := by
    intro x hx
    have h : 0 ≤ 1 - x * x := by nlinarith [hx.1, hx.2]
    have h1 : Real.sqrt (1 - x * x) ≤ 1 := by
      rw [Real.sqrt_le_left (by norm_num)]; nlinarith [hx.1]
    have h2 := Real.sqrt_nonneg (1 - x * x)
    have h3 := Real.sq_sqrt h
    unfold uparc
    rw [max_eq_right h]
    refine ⟨⟨by linarith, by linarith⟩, ?_⟩
    nlinarith
  have inv : ∀ x ∈ Set.Icc (0 : ℝ) 1, downarc (uparc x) = x := by
    intro x hx
    obtain ⟨h1, h2⟩ := circ x hx
    unfold downarc
    have : (2 - uparc x) * uparc x = x ^ 2 := by nlinarith
    rw [this, max_eq_right (sq_nonneg x), Real.sqrt_sq hx.1]
  refine ⟨by simp [uparc], by simp [uparc], by simp [downarc], by norm_num [downarc], um, ?_, mirror, circ, ?_⟩
  · intro x hx y hy hxy
    rw [mirror, mirror]
    have := um (a := 1 - y) (b := 1 - x) ⟨by linarith [hy.2], by linarith [hy.1]⟩ ⟨by linarith [hx.2], by linarith [hx.1]⟩ (by linarith)
    linarith
  · intro x hx
    refine ⟨inv x hx, ?_⟩
    have h' : (1 - x) ∈ Set.Icc (0 : ℝ) 1 := ⟨by linarith [hx.2], by linarith [hx.1]⟩
    have := inv (1 - x) h'
    rw [mirror] at this
    rw [mirror x]
    linarith

theorem sineEase_eq (x : ℝ) : sineEase x = 4 * (x * (2 - x)) / (5 - x * (2 - x)) := by
  have hpi : Real.pi ≠ 0 := Real.pi_ne_zero
  unfold sineEase
  have e1 : 16 * (x * (Real.pi * 0.5)) * (Real.pi - x * (Real.pi * 0.5)) = Real.pi ^ 2 * (4 * (x * (2 - x))) := by ring
  have e2 : 5 * Real.pi * Real.pi - 4 * (x * (Real.pi * 0.5)) * (Real.pi - x * (Real.pi * 0.5)) = Real.pi ^ 2 * (5 - x * (2 - x)) := by ring
  simp only [e1, e2]
  exact mul_div_mul_left _ _ (pow_ne_zero 2 hpi)

/-- **C30** `sine_ease` hits its endpoints, is monotone, stays in the unit interval and preserves power within 0.4 %. -/
theorem C30_sine_ease : sineEase 0 = 0 ∧ sineEase 1 = 1 ∧ MonotoneOn sineEase (Set.Icc 0 1) ∧
    ∀ x ∈ Set.Icc (0 : ℝ) 1, sineEase x ∈ Set.Icc (0 : ℝ) 1 ∧ |sineEase x ^ 2 + sineEase (1 - x) ^ 2 - 1| ≤ 4 / 1000 := by
  have mono : MonotoneOn sineEase (Set.Icc 0 1) := by
    intro x hx y hy hxy
    rw [sineEase_eq, sineEase_eq]
    have hx' : 0 < 5 - x * (2 - x) := by nlinarith [hx.1, hx.2]
    have hy' : 0 < 5 - y * (2 - y) := by nlinarith [hy.1, hy.2]
    have ht : x * (2 - x) ≤ y * (2 - y) := by nlinarith [hx.1, hx.2, hy.1, hy.2]
    rw [div_le_div_iff₀ hx' hy']
    nlinarith
  have h0 : sineEase 0 = 0 := by rw [sineEase_eq]; norm_num
  have h1 : sineEase 1 = 1 := by rw [sineEase_eq]; norm_num
  refine ⟨h0, h1, mono, ?_⟩
  intro x hx
  refine ⟨⟨?_, ?_⟩, ?_⟩
  · rw [← h0]; exact mono (by simp) hx hx.1
  · rw [← h1]; exact mono hx (by simp) hx.2
  · -- with s = x (1 - x): t₁ + t₂ = 1 + 2 s and t₁ t₂ = s (2 + s)
    rw [sineEase_eq, sineEase_eq]
    have e : (1 - x) * (2 - (1 - x)) = 1 - x ^ 2 := by ring
    rw [e]
    have hd1 : 0 < 5 - x * (2 - x) := by nlinarith [hx.1, hx.2]
    have hd2 : 0 < 5 - (1 - x ^ 2) := by nlinarith [hx.1, hx.2]
    have key : (4 * (x * (2 - x)) / (5 - x * (2 - x))) ^ 2 + (4 * (1 - x ^ 2) / (5 - (1 - x ^ 2))) ^ 2 - 1 =
        ((4 * (x * (2 - x))) ^ 2 * (5 - (1 - x ^ 2)) ^ 2 + (4 * (1 - x ^ 2)) ^ 2 * (5 - x * (2 - x)) ^ 2
          - ((5 - x * (2 - x)) * (5 - (1 - x ^ 2))) ^ 2) / ((5 - x * (2 - x)) * (5 - (1 - x ^ 2))) ^ 2 := by
      field_simp
    have hs0 : 0 ≤ x * (1 - x) := mul_nonneg hx.1 (by linarith [hx.2])
    have hs1 : x * (1 - x) ≤ 1 / 4 := by nlinarith [sq_nonneg (2 * x - 1)]
    generalize hs : x * (1 - x) = s at hs0 hs1
    have e1 : (5 - x * (2 - x)) * (5 - (1 - x ^ 2)) = 20 - 8 * s + s ^ 2 := by rw [← hs]; ring
    have e2 : (4 * (x * (2 - x))) ^ 2 * (5 - (1 - x ^ 2)) ^ 2 + (4 * (1 - x ^ 2)) ^ 2 * (5 - x * (2 - x)) ^ 2 =
        16 * ((5 * (1 + 2 * s) - 2 * (s * (2 + s))) ^ 2 - 2 * (s * (2 + s)) * (20 - 8 * s + s ^ 2)) := by rw [← hs]; ring
    rw [key, e1, e2]
    have hpos : 0 < (20 - 8 * s + s ^ 2) ^ 2 := by
      have : 0 < 20 - 8 * s + s ^ 2 := by nlinarith
      positivity
    rw [abs_le]
    constructor
    · rw [le_div_iff₀ hpos]
      nlinarith [mul_nonneg hs0 (sub_nonneg.2 hs1), mul_nonneg (mul_nonneg hs0 hs0) (sub_nonneg.2 hs1), pow_nonneg hs0 3, pow_nonneg hs0 4]
    · rw [div_le_iff₀ hpos]
      nlinarith [mul_nonneg hs0 (sub_nonneg.2 hs1), mul_nonneg (mul_nonneg hs0 hs0) (sub_nonneg.2 hs1), pow_nonneg hs0 3, pow_nonneg hs0 4]

/-! ## C31 Interpolation -/

/-- **C31** `lerp` hits its endpoints, stays between them for `t` in 0...1, is affine in `t`, and `delerp` inverts it both ways. -/
theorem C31_lerp (a b : ℝ) : lerp a b 0 = a ∧ lerp a b 1 = b ∧
    (∀ t ∈ Set.Icc (0 : ℝ) 1, min a b ≤ lerp a b t ∧ lerp a b t ≤ max a b) ∧
    (∀ s t w, lerp a b (lerp s t w) = lerp (lerp a b s) (lerp a b t) w) ∧
    (a ≠ b → ∀ t, delerp a b (lerp a b t) = t) ∧ (a ≠ b → ∀ x, lerp a b (delerp a b x) = x) := by
  refine ⟨by simp [lerp], by simp [lerp], ?_, fun s t w => by simp only [lerp]; ring, ?_, ?_⟩
  · intro t ht
    have h1 : 0 ≤ 1 - t := by linarith [ht.2]
    unfold lerp
    constructor
    · nlinarith [mul_le_mul_of_nonneg_right (min_le_left a b) h1, mul_le_mul_of_nonneg_right (min_le_right a b) ht.1]
    · nlinarith [mul_le_mul_of_nonneg_right (le_max_left a b) h1, mul_le_mul_of_nonneg_right (le_max_right a b) ht.1]
  · intro hab t
    have : b - a ≠ 0 := sub_ne_zero.2 (Ne.symm hab)
    unfold delerp lerp
    field_simp
    ring
  · intro hab x
    have : b - a ≠ 0 := sub_ne_zero.2 (Ne.symm hab)
    unfold delerp lerp
    field_simp
    ring

/-- **C31** the variants with parameter in -1...1. -/
theorem C31_lerp11 (a b : ℝ) : lerp11 a b (-1) = a ∧ lerp11 a b 1 = b ∧
    (∀ t ∈ Set.Icc (-1 : ℝ) 1, min a b ≤ lerp11 a b t ∧ lerp11 a b t ≤ max a b) ∧
    (a ≠ b → ∀ t, delerp11 a b (lerp11 a b t) = t) ∧ (a ≠ b → ∀ x, lerp11 a b (delerp11 a b x) = x) := by
  obtain ⟨h0, h1, h2, _, h3, h4⟩ := C31_lerp a b
  have e : ∀ x, delerp11 a b x = delerp a b x * 2 - 1 := fun x => rfl
  refine ⟨?_, ?_, ?_, ?_, ?_⟩
  · unfold lerp11; norm_num; exact h0
  · unfold lerp11; norm_num; exact h1
  · intro t ht
    exact h2 _ ⟨by linarith [ht.1], by linarith [ht.2]⟩
  · intro hab t
    rw [e, lerp11, h3 hab]; ring
  · intro hab x
    rw [e, lerp11]
    have : (delerp a b x * 2 - 1) * (1 / 2) + 1 / 2 = delerp a b x := by ring
    rw [this, h4 hab]

/-- **C31** exponential interpolation between positive endpoints. -/
theorem C31_xerp (a b : ℝ) (ha : 0 < a) (hb : 0 < b) : xerp a b 0 = a ∧ xerp a b 1 = b ∧ xerp a b (1 / 2) ^ 2 = a * b ∧
    (∀ t, 0 < xerp a b t) ∧
    (∀ t ∈ Set.Icc (0 : ℝ) 1, min a b ≤ xerp a b t ∧ xerp a b t ≤ max a b) ∧
    (a ≠ b → ∀ t, dexerp a b (xerp a b t) = t) ∧ (a ≠ b → ∀ x, 0 < x → xerp a b (dexerp a b x) = x) := by
  have hl : a ≠ b → Real.log (b / a) ≠ 0 := by
    intro hab h
    rw [Real.log_div hb.ne' ha.ne', sub_eq_zero] at h
    exact hab (Real.log_injOn_pos ha hb h.symm)
  have hd : Real.log (b / a) = Real.log b - Real.log a := Real.log_div hb.ne' ha.ne'
  refine ⟨by simp [xerp, lerp, Real.exp_log ha], by simp [xerp, lerp, Real.exp_log hb], ?_, fun t => Real.exp_pos _, ?_, ?_, ?_⟩
  · have : lerp (Real.log a) (Real.log b) (1 / 2) = (Real.log a + Real.log b) / 2 := by unfold lerp; ring
    rw [xerp, this, ← Real.exp_nat_mul]
    have : ((2 : ℕ) : ℝ) * ((Real.log a + Real.log b) / 2) = Real.log a + Real.log b := by push_cast; ring
    rw [this, Real.exp_add, Real.exp_log ha, Real.exp_log hb]
  · intro t ht
    obtain ⟨h1, h2⟩ := (C31_lerp (Real.log a) (Real.log b)).2.2.1 t ht
    constructor
    · rw [← Real.exp_log (lt_min ha hb)]
      apply Real.exp_le_exp.2
      refine le_trans (le_min ?_ ?_) h1
      · exact Real.log_le_log (lt_min ha hb) (min_le_left _ _)
      · exact Real.log_le_log (lt_min ha hb) (min_le_right _ _)
    · rw [← Real.exp_log (lt_max_of_lt_left (b := a) (c := b) ha)]
      apply Real.exp_le_exp.2
      refine le_trans h2 (max_le ?_ ?_)
      · exact Real.log_le_log ha (le_max_left _ _)
      · exact Real.log_le_log hb (le_max_right _ _)
  · intro hab t
    unfold dexerp xerp
    rw [Real.log_div (Real.exp_ne_zero _) ha.ne', Real.log_exp, hd]
    have := hl hab
    rw [hd] at this
    unfold lerp
    field_simp
    ring
  · intro hab x hx
    unfold xerp dexerp
    rw [Real.log_div hx.ne' ha.ne', hd]
    have := hl hab
    rw [hd] at this
    have e : lerp (Real.log a) (Real.log b) ((Real.log x - Real.log a) / (Real.log b - Real.log a)) = Real.log x := by
      unfold lerp
      field_simp
      ring
    rw [e, Real.exp_log hx]

/-- **C31** the exponential variants with parameter in -1...1. -/
theorem C31_xerp11 (a b : ℝ) (ha : 0 < a) (hb : 0 < b) : xerp11 a b (-1) = a ∧ xerp11 a b 1 = b ∧
    (∀ t ∈ Set.Icc (-1 : ℝ) 1, min a b ≤ xerp11 a b t ∧ xerp11 a b t ≤ max a b) ∧
    (a ≠ b → ∀ t, dexerp11 a b (xerp11 a b t) = t) ∧ (a ≠ b → ∀ x, 0 < x → xerp11 a b (dexerp11 a b x) = x) := by
  obtain ⟨h0, h1, _, _, h2, h3, h4⟩ := C31_xerp a b ha hb
  have e : ∀ x, dexerp11 a b x = dexerp a b x * 2 - 1 := fun x => rfl
  have e' : ∀ t, xerp11 a b t = xerp a b (t * (1 / 2) + 1 / 2) := fun t => rfl
  refine ⟨?_, ?_, ?_, ?_, ?_⟩
  · rw [e']; norm_num; exact h0
  · rw [e']; norm_num; exact h1
  · intro t ht
    exact h2 _ ⟨by linarith [ht.1], by linarith [ht.2]⟩
  · intro hab t
    rw [e, e', h3 hab]; ring
  · intro hab x hx
    rw [e, e']
    have : (dexerp a b x * 2 - 1) * (1 / 2) + 1 / 2 = dexerp a b x := by ring
    rw [this, h4 hab x hx]

/-- **C31** `clamp` returns the nearest point of the interval: it lies in it and is the identity on it. -/
theorem C31_clamp (x0 x1 : ℝ) (h : x0 ≤ x1) (x : ℝ) : x0 ≤ clamp x0 x1 x ∧ clamp x0 x1 x ≤ x1 ∧
    (x0 ≤ x → x ≤ x1 → clamp x0 x1 x = x) ∧ (x ≤ x0 → clamp x0 x1 x = x0) ∧ (x1 ≤ x → clamp x0 x1 x = x1) ∧
    (∀ y, x0 ≤ y → y ≤ x1 → |clamp x0 x1 x - x| ≤ |y - x|) ∧
    clamp01 x = clamp 0 1 x ∧ clamp11 x = clamp (-1) 1 x := by
  refine ⟨le_min (le_max_right _ _) h, min_le_right _ _, ?_, ?_, ?_, ?_, rfl, rfl⟩
  · intro h0 h1; simp [clamp, h0, h1]
  · intro h0; simp [clamp, h0, h]
  · intro h1; unfold clamp; exact min_eq_right (le_max_of_le_left h1)
  · intro y hy0 hy1
    unfold clamp
    rcases le_total x x0 with h0 | h0
    · rw [max_eq_right h0, min_eq_left h, abs_of_nonneg (by linarith)]
      exact le_trans (by linarith) (le_abs_self _)
    · rw [max_eq_left h0]
      rcases le_total x x1 with h1 | h1
      · rw [min_eq_left h1]; simp
      · rw [min_eq_right h1, abs_of_nonpos (by linarith)]
        exact le_trans (by linarith) (neg_le_abs _)

example : xerp 1 4 (1 / 2) ^ 2 = 4 := by rw [(C31_xerp 1 4 (by norm_num) (by norm_num)).2.2.1]; norm_num

/-! ## C32 Splines -/

/-- **C32** `spline` interpolates `y1`, `y2` with centered slopes, and reproduces quadratics (hence lines). -/
theorem C32_spline (y0 y1 y2 y3 : ℝ) : spline y0 y1 y2 y3 0 = y1 ∧ spline y0 y1 y2 y3 1 = y2 ∧
    HasDerivAt (spline y0 y1 y2 y3) ((y2 - y0) / 2) 0 ∧ HasDerivAt (spline y0 y1 y2 y3) ((y3 - y1) / 2) 1 ∧
    (∀ a b c : ℝ, ∀ x, (fun x => a + b * x + c * x ^ 2) x =
      spline (a - b + c) a (a + b + c) (a + 2 * b + 4 * c) x) ∧
    (∀ x ∈ Set.Icc (0 : ℝ) 1, ∀ M, |y0| ≤ M → |y1| ≤ M → |y2| ≤ M → |y3| ≤ M → |spline y0 y1 y2 y3 x| ≤ 5 / 4 * M) := by
  have hd : ∀ x, HasDerivAt (spline y0 y1 y2 y3)
      ((y2 - y0) / 2 + (2 * y0 - 5 * y1 + 4 * y2 - y3) * x + 3 / 2 * (3 * (y1 - y2) + y3 - y0) * x ^ 2) x := by
    intro x
    refine hasDerivAt_poly ((((hasDerivAt_const x y1).add ((hasDerivAt_pow 1 x).const_mul ((y2 - y0) / 2))).add
      ((hasDerivAt_pow 2 x).const_mul ((2 * y0 - 5 * y1 + 4 * y2 - y3) / 2))).add
      ((hasDerivAt_pow 3 x).const_mul ((3 * (y1 - y2) + y3 - y0) / 2))) ?_ ?_
    · funext t; simp only [spline, Pi.add_apply]; ring
    · norm_num; ring
  refine ⟨by simp [spline], by simp only [spline]; ring, ?_, ?_, fun a b c x => by simp only [spline]; ring, ?_⟩
  · simpa using hd 0
  · have := hd 1
    refine hasDerivAt_poly this rfl ?_
    ring
  · intro x hx M h0 h1 h2 h3
    have e : spline y0 y1 y2 y3 x = -(x * (1 - x) ^ 2 / 2) * y0 + ((2 - 5 * x ^ 2 + 3 * x ^ 3) / 2) * y1
        + (x * (1 + 4 * x - 3 * x ^ 2) / 2) * y2 - (x ^ 2 * (1 - x) / 2) * y3 := by simp only [spline]; ring
    have hx1 : 0 ≤ 1 - x := by linarith [hx.2]
    have w0 : 0 ≤ x * (1 - x) ^ 2 / 2 := by have := hx.1; positivity
    have w1 : 0 ≤ (2 - 5 * x ^ 2 + 3 * x ^ 3) / 2 := by
      have : (2 - 5 * x ^ 2 + 3 * x ^ 3) = (1 - x) * (2 * (1 - x ^ 2) + 2 * x * (1 - x) + x ^ 2 * 1) := by ring
      rw [this]
      have : 0 ≤ 1 - x ^ 2 := by nlinarith [hx.1, hx.2]
      have := hx.1
      positivity
    have w2 : 0 ≤ x * (1 + 4 * x - 3 * x ^ 2) / 2 := by
      have : 0 ≤ 1 + 4 * x - 3 * x ^ 2 := by nlinarith [hx.1, hx.2]
      have := hx.1
      positivity
    have w3 : 0 ≤ x ^ 2 * (1 - x) / 2 := by positivity
    rw [abs_le] at h0 h1 h2 h3
    have hM : 0 ≤ M := by linarith [h0.1, h0.2]
    have ht : x * (1 - x) ≤ 1 / 4 := by nlinarith [sq_nonneg (2 * x - 1)]
    have hsum : x * (1 - x) ^ 2 / 2 + (2 - 5 * x ^ 2 + 3 * x ^ 3) / 2 + x * (1 + 4 * x - 3 * x ^ 2) / 2 + x ^ 2 * (1 - x) / 2
        = 1 + x * (1 - x) := by ring
    generalize x * (1 - x) ^ 2 / 2 = p0 at *
    generalize (2 - 5 * x ^ 2 + 3 * x ^ 3) / 2 = p1 at *
    generalize x * (1 + 4 * x - 3 * x ^ 2) / 2 = p2 at *
    generalize x ^ 2 * (1 - x) / 2 = p3 at *
    have hb : (p0 + p1 + p2 + p3) * M ≤ 5 / 4 * M := by
      apply mul_le_mul_of_nonneg_right _ hM; rw [hsum]; linarith
    rw [e, abs_le]
    constructor
    · nlinarith [mul_le_mul_of_nonneg_left h0.2 w0, mul_le_mul_of_nonneg_left h1.1 w1, mul_le_mul_of_nonneg_left h2.1 w2,
        mul_le_mul_of_nonneg_left h3.2 w3]
    · nlinarith [mul_le_mul_of_nonneg_left h0.1 w0, mul_le_mul_of_nonneg_left h1.2 w1, mul_le_mul_of_nonneg_left h2.2 w2,
        mul_le_mul_of_nonneg_left h3.1 w3]

/-- Slopes used by `spline_mono` when the middle segment rises. -/
theorem slope_bounds (d d1 : ℝ) (h : 0 ≤ d1) : 0 ≤ (signum d + signum d1) * min (d + d1) (min |d| |d1|) ∧
    (signum d + signum d1) * min (d + d1) (min |d| |d1|) ≤ 2 * d1 := by
  unfold signum
  rw [if_pos h]
  split
  · rename_i hd
    have h1 : 0 ≤ min (d + d1) (min |d| |d1|) := le_min (by linarith) (le_min (abs_nonneg _) (abs_nonneg _))
    have h2 : min (d + d1) (min |d| |d1|) ≤ d1 := by
      refine le_trans (min_le_right _ _) (le_trans (min_le_right _ _) ?_)
      rw [abs_of_nonneg h]
    constructor <;> nlinarith
  · constructor <;> nlinarith

/-- **C32** (partial) for rising middle segments `spline_mono` does not overshoot. The claim for falling segments is false,
see `C32_violation_falling`. -/
theorem C32_mono_partial (y0 y1 y2 y3 : ℝ) (h : y1 ≤ y2) : splineMono y0 y1 y2 y3 0 = y1 ∧ splineMono y0 y1 y2 y3 1 = y2 ∧
    ∀ x ∈ Set.Icc (0 : ℝ) 1, y1 ≤ splineMono y0 y1 y2 y3 x ∧ splineMono y0 y1 y2 y3 x ≤ y2 := by
  have hd : 0 ≤ y2 - y1 := by linarith
  obtain ⟨a0, a1⟩ := slope_bounds (y1 - y0) (y2 - y1) hd
  obtain ⟨b0, b1⟩ := slope_bounds (y3 - y2) (y2 - y1) hd
  have hc : (signum (y2 - y1) + signum (y3 - y2)) * min (y2 - y1 + (y3 - y2)) (min |y2 - y1| |y3 - y2|) =
      (signum (y3 - y2) + signum (y2 - y1)) * min (y3 - y2 + (y2 - y1)) (min |y3 - y2| |y2 - y1|) := by
    rw [add_comm (signum (y2 - y1)), add_comm (y2 - y1) (y3 - y2), min_comm |y2 - y1|]
  refine ⟨by simp [splineMono], by simp only [splineMono]; ring, ?_⟩
  intro x hx
  simp only [splineMono]
  rw [hc]
  generalize (signum (y1 - y0) + signum (y2 - y1)) * min (y1 - y0 + (y2 - y1)) (min |y1 - y0| |y2 - y1|) = m1 at *
  generalize (signum (y3 - y2) + signum (y2 - y1)) * min (y3 - y2 + (y2 - y1)) (min |y3 - y2| |y2 - y1|) = m2 at *
  have e : x * x * x * (2 * y1 - 2 * y2 + m1 + m2) + x * x * (-3 * y1 + 3 * y2 - 2 * m1 - m2) + x * m1 + y1 =
      y1 + (y2 - y1) * (3 * x ^ 2 - 2 * x ^ 3) + m1 * (x * (1 - x) ^ 2) - m2 * (x ^ 2 * (1 - x)) := by ring
  rw [e]
  have hx1 : 0 ≤ 1 - x := by linarith [hx.2]
  have q1 : 0 ≤ x * (1 - x) ^ 2 := by have := hx.1; positivity
  have q2 : 0 ≤ x ^ 2 * (1 - x) := by positivity
  constructor
  · nlinarith [mul_nonneg a0 q1, mul_le_mul_of_nonneg_right b1 q2, mul_nonneg hd (sq_nonneg x)]
  · nlinarith [mul_nonneg b0 q2, mul_le_mul_of_nonneg_right a1 q1, mul_nonneg hd (sq_nonneg (1 - x))]

/-- **C32** is violated: on the strictly falling data 3, 2, 1, 0 the "monotonic" spline rises above `y1 = 2`. -/
theorem C32_violation_falling : ¬ ∀ y0 y1 y2 y3 x : ℝ, x ∈ Set.Icc (0 : ℝ) 1 →
    min y1 y2 ≤ splineMono y0 y1 y2 y3 x ∧ splineMono y0 y1 y2 y3 x ≤ max y1 y2 := by
  intro h
  have := (h 3 2 1 0 (1 / 4) ⟨by norm_num, by norm_num⟩).2
  norm_num [splineMono, signum] at this

example : splineMono 0 1 2 5 (1 / 2) ∈ Set.Icc (1 : ℝ) 2 :=
  (C32_mono_partial 0 1 2 5 (by norm_num)).2.2 _ ⟨by norm_num, by norm_num⟩

/-! ## C33 Coherent noise -/

theorem hash11_range (h : BitVec 64 → BitVec 64) (s : BitVec 64) : -1 ≤ hash11 h s ∧ hash11 h s < 1 := by
  have h1 : (h s).toNat / 1024 < 2 ^ 54 := by have := (h s).isLt; omega
  have h2 : (((h s).toNat / 1024 : ℕ) : ℝ) < 2 ^ 54 := by exact_mod_cast h1
  have h3 : (0 : ℝ) ≤ (((h s).toNat / 1024 : ℕ) : ℝ) := Nat.cast_nonneg _
  have h4 : (0 : ℝ) ≤ (((h s).toNat / 1024 : ℕ) : ℝ) / 2 ^ 53 := by positivity
  have h5 : (((h s).toNat / 1024 : ℕ) : ℝ) / 2 ^ 53 < 2 := by rw [div_lt_iff₀ (by positivity)]; linarith
  unfold hash11
  constructor <;> linarith

/-- **C33** one octave, value noise: stays in -1...1 for every easing that maps the unit interval to itself. -/
theorem C33_ease_noise (hash64a : BitVec 64 → BitVec 64) (rise fall : ℝ → ℝ)
    (hr : Set.MapsTo rise (Set.Icc 0 1) (Set.Icc 0 1)) (hf : Set.MapsTo fall (Set.Icc 0 1) (Set.Icc 0 1))
    (seed : BitVec 64) (x : ℝ) : |easeNoise hash64a rise fall seed x| ≤ 1 := by
  have hx : x - ⌊x⌋ ∈ Set.Icc (0 : ℝ) 1 := ⟨by linarith [Int.floor_le x], by linarith [Int.lt_floor_add_one x]⟩
  have key : ∀ t ∈ Set.Icc (0 : ℝ) 1, |lerp (getPoint hash64a seed ⌊x⌋) (getPoint hash64a seed (⌊x⌋ + 1)) t| ≤ 1 := by
    intro t ht
    obtain ⟨h1, h2⟩ := (C31_lerp (getPoint hash64a seed ⌊x⌋) (getPoint hash64a seed (⌊x⌋ + 1))).2.2.1 t ht
    have a := hash11_range hash64a (attoHash seed (BitVec.ofInt 64 ⌊x⌋))
    have b := hash11_range hash64a (attoHash seed (BitVec.ofInt 64 (⌊x⌋ + 1)))
    rw [abs_le]
    exact ⟨le_trans (le_min a.1 b.1) h1, le_trans h2 (max_le a.2.le b.2.le)⟩
  unfold easeNoise
  simp only
  split
  · exact key _ (hr hx)
  · exact key _ (hf hx)

/-- **C33** one octave, spline noise stays in -1...1. -/
theorem C33_spline_noise (hash64a : BitVec 64 → BitVec 64) (rnd2 : BitVec 64 → ℝ) (seed : BitVec 64) (x : ℝ) :
    |splineNoise hash64a rnd2 seed x| ≤ 1 := by
  have hp : ∀ i, |getPoint hash64a seed i| ≤ 1 := by
    intro i
    have a := hash11_range hash64a (attoHash seed (BitVec.ofInt 64 i))
    exact abs_le.2 ⟨a.1, a.2.le⟩
  have hx : (x + rnd2 seed) - ⌊x + rnd2 seed⌋ ∈ Set.Icc (0 : ℝ) 1 :=
    ⟨by linarith [Int.floor_le (x + rnd2 seed)], by linarith [Int.lt_floor_add_one (x + rnd2 seed)]⟩
  have := (C32_spline (getPoint hash64a seed (⌊x + rnd2 seed⌋ - 1)) (getPoint hash64a seed ⌊x + rnd2 seed⌋)
    (getPoint hash64a seed (⌊x + rnd2 seed⌋ + 1)) (getPoint hash64a seed (⌊x + rnd2 seed⌋ + 2))).2.2.2.2.2 _ hx 1
    (hp _) (hp _) (hp _) (hp _)
  unfold splineNoise
  simp only
  rw [abs_mul]
  have e : |(1 / 1.25 : ℝ)| = 4 / 5 := by rw [abs_of_nonneg] <;> norm_num
  rw [e]
  linarith

/-- **C33** fractal noise: weighted averages of octaves in -1...1 stay in -1...1 for every positive roughness, any positive
number of octaves, any random draws. -/
theorem C33_fractal (octave : BitVec 64 → ℝ → ℝ) (ho : ∀ s x, |octave s x| ≤ 1) (rnds : List (ℝ × BitVec 64)) (hn : rnds ≠ [])
    (roughness x : ℝ) (hr : 0 < roughness) : |fractal octave rnds roughness x| ≤ 1 := by
  have key : ∀ (rnds : List (ℝ × BitVec 64)) (w total freq result : ℝ), 0 < w → |result| ≤ total →
      |(fractalLoop octave roughness x rnds w total freq result).1| ≤ (fractalLoop octave roughness x rnds w total freq result).2 ∧
      total ≤ (fractalLoop octave roughness x rnds w total freq result).2 ∧
      (rnds ≠ [] → total < (fractalLoop octave roughness x rnds w total freq result).2) := by
    intro rnds
    induction rnds with
    | nil => intro w total freq result hw h; exact ⟨h, le_refl _, fun h => absurd rfl h⟩
    | cons r rnds ih =>
      obtain ⟨o, s⟩ := r
      intro w total freq result hw h
      simp only [fractalLoop]
      have h1 : |result + w * octave s (x * freq + o)| ≤ total + w := by
        refine le_trans (abs_add_le _ _) (add_le_add h ?_)
        rw [abs_mul, abs_of_pos hw]
        nlinarith [ho s (x * freq + o)]
      obtain ⟨i1, i2, _⟩ := ih (w * roughness) (total + w) (freq * 2) _ (mul_pos hw hr) h1
      exact ⟨i1, by linarith, fun _ => by linarith⟩
  obtain ⟨h1, _, h3⟩ := key rnds 1 0 1 0 one_pos (by simp)
  have hpos := h3 hn
  unfold fractal
  rw [abs_div, abs_of_pos hpos, div_le_one hpos]
  exact h1

example : Set.MapsTo smooth3 (Set.Icc 0 1) (Set.Icc 0 1) ∧ Set.MapsTo downarc (Set.Icc 0 1) (Set.Icc 0 1) := by
  refine ⟨C30_smooth3.maps, ?_⟩
  intro x hx
  have h' : (1 - x) ∈ Set.Icc (0 : ℝ) 1 := ⟨by linarith [hx.2], by linarith [hx.1]⟩
  obtain ⟨_, _, _, _, _, _, hm, hc, _⟩ := C30_arcs
  have := (hc (1 - x) h').1
  rw [hm]
  exact ⟨by linarith [this.2], by linarith [this.1]⟩

/-! ## C34 Softening functions and shapers -/

/-- **C34** `softsign` is odd, strictly increasing, has range exactly (-1, 1). -/
theorem C34_softsign : (∀ x, softsign (-x) = -softsign x) ∧ StrictMono softsign ∧ (∀ x, |softsign x| < 1) ∧
    (∀ y, |y| < 1 → ∃ x, softsign x = y) := by
  have hlt : ∀ x, |softsign x| < 1 := by
    intro x
    have h := abs_nonneg x
    unfold softsign
    rw [abs_div, abs_of_pos (by linarith : 0 < 1 + |x|), div_lt_one (by linarith)]
    linarith
  refine ⟨fun x => by simp [softsign, neg_div], ?_, hlt, ?_⟩
  · intro x y hxy
    unfold softsign
    rw [div_lt_div_iff₀ (by positivity) (by positivity)]
    rcases le_total 0 x with hx | hx <;> rcases le_total 0 y with hy | hy
    · rw [abs_of_nonneg hx, abs_of_nonneg hy]; nlinarith
    · linarith
    · rw [abs_of_nonpos hx, abs_of_nonneg hy]; nlinarith [mul_nonneg (neg_nonneg.2 hx) hy]
    · rw [abs_of_nonpos hx, abs_of_nonpos hy]; nlinarith
  · intro y hy
    have h1 : 0 < 1 - |y| := by linarith
    refine ⟨y / (1 - |y|), ?_⟩
    unfold softsign
    rw [abs_div, abs_of_pos h1]
    field_simp
    ring

theorem softexp_of_nonneg {x : ℝ} (h : 0 ≤ x) : softexp x = x * x + x + 1 := by
  unfold softexp
  simp only [max_eq_left h]
  have : 1 + x - x = 1 := by ring
  rw [this]; norm_num
theorem softexp_of_nonpos {x : ℝ} (h : x ≤ 0) : softexp x = 1 / (1 - x) := by
  unfold softexp
  simp only [max_eq_right h]
  ring_nf

/-- **C34** `softexp` is positive, strictly increasing, with `softexp 0 = 1`; quadratic above and hyperbolic below zero. -/
theorem C34_softexp : (∀ x, 0 < softexp x) ∧ StrictMono softexp ∧ softexp 0 = 1 ∧
    (∀ x, 0 ≤ x → softexp x = x ^ 2 + x + 1) ∧ (∀ x, x ≤ 0 → softexp x = 1 / (1 - x)) := by
  have hn : ∀ x : ℝ, x ≤ 0 → 0 < 1 / (1 - x) ∧ 1 / (1 - x) ≤ 1 := by
    intro x hx
    have : 0 < 1 - x := by linarith
    exact ⟨by positivity, by rw [div_le_one this]; linarith⟩
  refine ⟨?_, ?_, by rw [softexp_of_nonneg (le_refl _)]; norm_num, fun x hx => by rw [softexp_of_nonneg hx]; ring,
    fun x hx => softexp_of_nonpos hx⟩
  · intro x
    rcases le_total 0 x with hx | hx
    · rw [softexp_of_nonneg hx]; positivity
    · rw [softexp_of_nonpos hx]; exact (hn x hx).1
  · intro x y hxy
    rcases le_total 0 x with hx | hx <;> rcases le_total 0 y with hy | hy
    · rw [softexp_of_nonneg hx, softexp_of_nonneg hy]; nlinarith
    · linarith
    · rw [softexp_of_nonpos hx, softexp_of_nonneg hy]
      rcases eq_or_lt_of_le hy with h0 | h0
      · subst h0
        have : 1 < 1 - x := by linarith
        have := (div_lt_one (by linarith : 0 < 1 - x)).2 this
        linarith
      · have := (hn x hx).2
        nlinarith
    · rw [softexp_of_nonpos hx, softexp_of_nonpos hy]
      exact one_div_lt_one_div_of_lt (by linarith) (by linarith)

/-- **C34** (partial) `softmix` lies between the extremes of its two arguments *and zero*. The claim without zero is false:
the guard `1e-10` in the denominator pulls the result toward zero, see `C34_violation_softmix`. -/
theorem C34_softmix_partial (x y bias : ℝ) : min 0 (min x y) ≤ softmix x y bias ∧ softmix x y bias ≤ max 0 (max x y) := by
  have hx := C34_softexp.1 (x * bias)
  have hy := C34_softexp.1 (y * bias)
  unfold softmix
  simp only
  generalize softexp (x * bias) = p at *
  generalize softexp (y * bias) = q at *
  have hden : 0 < p + q + (1e-10 : ℝ) := by have : (0 : ℝ) < 1e-10 := by norm_num
                                            linarith
  have he : (0 : ℝ) < 1e-10 := by norm_num
  constructor
  · rw [le_div_iff₀ hden]
    have h0 : min 0 (min x y) ≤ 0 := min_le_left _ _
    have h1 : min 0 (min x y) ≤ x := le_trans (min_le_right _ _) (min_le_left _ _)
    have h2 : min 0 (min x y) ≤ y := le_trans (min_le_right _ _) (min_le_right _ _)
    nlinarith [mul_le_mul_of_nonneg_right h1 hx.le, mul_le_mul_of_nonneg_right h2 hy.le, mul_nonneg (neg_nonneg.2 h0) he.le]
  · rw [div_le_iff₀ hden]
    have h0 : 0 ≤ max 0 (max x y) := le_max_left _ _
    have h1 : x ≤ max 0 (max x y) := le_trans (le_max_left _ _) (le_max_right _ _)
    have h2 : y ≤ max 0 (max x y) := le_trans (le_max_right _ _) (le_max_right _ _)
    nlinarith [mul_le_mul_of_nonneg_right h1 hx.le, mul_le_mul_of_nonneg_right h2 hy.le, mul_nonneg h0 he.le]

/-- **C34** deviation from the interval of the arguments is at most relative `1e-10 / (xw + yw)`: the result is the weighted
mean of the arguments scaled by `1 - 1e-10 / (xw + yw + 1e-10)`. -/
theorem C34_softmix_scale (x y bias : ℝ) : ∃ m k, min x y ≤ m ∧ m ≤ max x y ∧ 0 < k ∧
    softmix x y bias = m * (1 - 1e-10 / (k + 1e-10)) ∧ k = softexp (x * bias) + softexp (y * bias) := by
  have hx := C34_softexp.1 (x * bias)
  have hy := C34_softexp.1 (y * bias)
  unfold softmix
  simp only
  generalize softexp (x * bias) = p at *
  generalize softexp (y * bias) = q at *
  have hk : 0 < p + q := by linarith
  have he : (0 : ℝ) < 1e-10 := by norm_num
  refine ⟨(x * p + y * q) / (p + q), p + q, ?_, ?_, hk, ?_, rfl⟩
  · rw [le_div_iff₀ hk]
    nlinarith [mul_le_mul_of_nonneg_right (min_le_left x y) hx.le, mul_le_mul_of_nonneg_right (min_le_right x y) hy.le]
  · rw [div_le_iff₀ hk]
    nlinarith [mul_le_mul_of_nonneg_right (le_max_left x y) hx.le, mul_le_mul_of_nonneg_right (le_max_right x y) hy.le]
  · have : p + q + (1e-10 : ℝ) ≠ 0 := by linarith
    have : p + q ≠ 0 := hk.ne'
    generalize (1e-10 : ℝ) = ε at *
    field_simp
    ring

/-- **C34** is violated: `softmix(1, 1, 0) < 1`. -/
theorem C34_violation_softmix : softmix 1 1 0 < min (1 : ℝ) 1 := by
  unfold softmix
  simp only [mul_zero]
  rw [C34_softexp.2.2.1]
  norm_num

/-- **C34** shapers stay within their limits for every input and hardness. -/
theorem C34_shapers (h x : ℝ) : |clip h x| ≤ 1 ∧ (|x * h| ≤ 1 → clip h x = x * h) ∧ |tanhShape h x| < 1 ∧ |atanShape h x| < 1 ∧
    |softsignShape h x| < 1 ∧ (∀ lo hi, lo ≤ hi → lo ≤ clipTo lo hi x ∧ clipTo lo hi x ≤ hi ∧ (lo ≤ x → x ≤ hi → clipTo lo hi x = x)) ∧
    (0 ≤ h → softsignSimd h x = softsignShape h x) := by
  have hc := C31_clamp (-1) 1 (by norm_num) (x * h)
  refine ⟨abs_le.2 ⟨hc.1, hc.2.1⟩, fun hb => hc.2.2.1 (abs_le.1 hb).1 (abs_le.1 hb).2, ?_, ?_, C34_softsign.2.2.1 _, ?_, ?_⟩
  · unfold tanhShape
    rw [Real.tanh_eq_sinh_div_cosh, abs_div, abs_of_pos (Real.cosh_pos _), div_lt_one (Real.cosh_pos _), abs_lt,
      Real.sinh_eq, Real.cosh_eq]
    have h1 := Real.exp_pos (x * h)
    have h2 := Real.exp_pos (-(x * h))
    constructor <;> linarith
  · unfold atanShape
    have hp := Real.pi_pos
    rw [abs_mul, abs_of_pos (by positivity : 0 < 2 / Real.pi)]
    have h3 : |Real.arctan (x * (h * Real.pi * 0.5))| < Real.pi / 2 :=
      abs_lt.2 ⟨by linarith [Real.neg_pi_div_two_lt_arctan (x * (h * Real.pi * 0.5))], Real.arctan_lt_pi_div_two _⟩
    calc _ < Real.pi / 2 * (2 / Real.pi) := mul_lt_mul_of_pos_right h3 (by positivity)
      _ = 1 := by field_simp
  · intro lo hi hl
    have := C31_clamp lo hi hl x
    exact ⟨this.1, this.2.1, this.2.2.1⟩
  · intro hh
    unfold softsignSimd softsignShape softsign
    rw [abs_mul, abs_of_nonneg hh]

/-- **C34** is violated for negative hardness: the two code paths of the softsign shaper differ (and the block path can leave
the range): hardness -1, input 1/2 gives -1/3 when ticking and -1 in blocks. -/
theorem C34_violation_softsign_simd : softsignShape (-1) (1 / 2) = -1 / 3 ∧ softsignSimd (-1) (1 / 2) = -1 := by
  have h : |(1 / 2 : ℝ)| = 1 / 2 := abs_of_pos (by norm_num)
  constructor
  · unfold softsignShape softsign
    rw [abs_mul, h]
    norm_num
  · unfold softsignSimd
    rw [h]
    norm_num

/-- **C34** the quantizing shapers move a sample by at most half a step (`Crush`) or one step (`SoftCrush`) and `SoftCrush` is
exact on quantization levels. -/
theorem C34_crush (round : ℝ → ℤ) (hround : ∀ x, |(round x : ℝ) - x| ≤ 1 / 2) (h x : ℝ) (hh : 0 < h) :
    |crush round h x - x| ≤ 1 / 2 / h ∧ |softCrush h x - x| ≤ 1 / h ∧ (∀ k : ℤ, softCrush h (k / h) = k / h) := by
  refine ⟨?_, ?_, ?_⟩
  · have e : crush round h x - x = (round (x * h) - x * h) / h := by unfold crush; field_simp
    rw [e, abs_div, abs_of_pos hh]
    exact div_le_div_of_nonneg_right (hround _) hh.le
  · have e : softCrush h x - x = (smooth9 (x * h - ⌊x * h⌋) - (x * h - ⌊x * h⌋)) / h := by unfold softCrush; field_simp; ring
    rw [e, abs_div, abs_of_pos hh]
    apply div_le_div_of_nonneg_right _ hh.le
    have hx : x * h - ⌊x * h⌋ ∈ Set.Icc (0 : ℝ) 1 := ⟨by linarith [Int.floor_le (x * h)], by linarith [Int.lt_floor_add_one (x * h)]⟩
    have := C30_smooth9.maps hx
    rw [abs_le]
    constructor <;> linarith [hx.1, hx.2, this.1, this.2]
  · intro k
    unfold softCrush
    have : (k : ℝ) / h * h = k := by field_simp
    rw [this, Int.floor_intCast, sub_self, C30_smooth9.zero, add_zero]

end Fundsp.Math
