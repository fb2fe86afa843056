import Verif.Filter.Smooth
import Mathlib.Analysis.SpecialFunctions.Log.Deriv
import Mathlib.Tactic.IntervalCases
/-! Followers, continued (C41): the exact step response of `follow`, the separate speeds of `afollow`, and the accuracy of the response time
(`/repo/src/follow.rs:18-24`). -/

namespace Fundsp.Filter

/-- What is left of a step after `n` samples of three equal one-pole smoothers in a row, as a part of the step. -/
noncomputable def stepLeft (c : ℝ) (n : ℕ) : ℝ := (1 - c) ^ n * (1 + n * c + n * (n + 1) / 2 * c ^ 2)

theorem follow_left (s : FollowSt ℝ) (hn : s.coeffNow = s.coeff) {y x : ℝ} (hs : s.v1 = y ∧ s.v2 = y ∧ s.v3 = y) (n : ℕ) :
    ∃ t : FollowSt ℝ, followNode.ticks.st s (fun _ _ => x) n = t ∧ t.coeff = s.coeff ∧ t.coeffNow = s.coeff ∧
      t.v1 = x + (y - x) * (1 - s.coeff) ^ n ∧ t.v2 = x + (y - x) * ((1 - s.coeff) ^ n * (1 + n * s.coeff)) ∧
      t.v3 = x + (y - x) * stepLeft s.coeff n := by
  induction n with
  | zero => exact ⟨s, rfl, rfl, hn, by simp [hs.1], by simp [hs.2.1], by simp [stepLeft, hs.2.2]⟩
  | succ n ih =>
    obtain ⟨t, e, h1, h2, h3, h4, h5⟩ := ih
    refine ⟨(followTick t x).1, ?_, h1, h1, ?_, ?_, ?_⟩
    · rw [← e]; rfl
    · simp only [followTick, h2, h3]; ring
    · simp only [followTick, h2, h3, h4]; push_cast; ring
    · simp only [followTick, h2, h3, h4, h5, stepLeft]; push_cast; ring

/-- **C41, follow.** The exact response to a step from rest at `y` to the constant `x`. -/
theorem C41_step (s : FollowSt ℝ) (hn : s.coeffNow = s.coeff) {y x : ℝ} (hs : s.v1 = y ∧ s.v2 = y ∧ s.v3 = y) (n : ℕ) :
    followNode.ticks.out s (fun _ _ => x) n 0 = x + (y - x) * stepLeft s.coeff (n + 1) := by
  obtain ⟨t, e, _, _, _, _, h⟩ := follow_left s hn (x := x) hs (n + 1)
  rw [← h, ← e]; rfl

/-! ## Attack and release -/

theorem filterPole_rise {x v a r : ℝ} (h : v ≤ x) : filterPole x v a r = a * x + (1 - a) * v := by
  have := filterPole_sub x v a r; rw [if_pos h] at this; linarith

theorem filterPole_fall {x v a r : ℝ} (h : x ≤ v) : filterPole x v a r = r * x + (1 - r) * v := by
  rcases h.lt_or_eq with h | h
  · have := filterPole_sub x v a r; rw [if_neg (not_le.2 h)] at this; linarith
  · subst h; simp only [filterPole, sub_self, max_self]; ring

/-- **C41, afollow.** While the input rises, and as long as the smoothed value is below it, `afollow` is `follow` with the attack time; while the input falls, it is
`follow` with the release time: from rest at `y`, any nondecreasing input starting at or above `y` is followed with the attack coefficient, and any
nonincreasing input starting at or below `y` with the release coefficient. -/
theorem C41_afollow_speeds {s : AFollowSt ℝ} (h : s.Ok) {y : ℝ} (hs : s.v1 = y ∧ s.v2 = y ∧ s.v3 = y) {w : ℕ → Frame ℝ 1} :
    (y ≤ w 0 0 → (∀ k, w k 0 ≤ w (k + 1) 0) → ∀ n, afollowNode.ticks.out s w n 0 = followNode.ticks.out (⟨y, y, y, s.acoeff, s.acoeffNow⟩ : FollowSt ℝ) w n 0) ∧
    (w 0 0 ≤ y → (∀ k, w (k + 1) 0 ≤ w k 0) → ∀ n, afollowNode.ticks.out s w n 0 = followNode.ticks.out (⟨y, y, y, s.rcoeff, s.rcoeffNow⟩ : FollowSt ℝ) w n 0) := by
  constructor
  · intro h0 hw
    have key : ∀ n, ∃ (t : AFollowSt ℝ) (u : FollowSt ℝ), afollowNode.ticks.st s w n = t ∧ followNode.ticks.st (⟨y, y, y, s.acoeff, s.acoeffNow⟩ : FollowSt ℝ) w n = u ∧
        t.Ok ∧ u = ⟨t.v1, t.v2, t.v3, t.acoeff, t.acoeffNow⟩ ∧ t.v3 ≤ t.v2 ∧ t.v2 ≤ t.v1 ∧ t.v1 ≤ w n 0 := by
      intro n
      induction n with
      | zero => exact ⟨s, _, rfl, rfl, h, by rw [hs.1, hs.2.1, hs.2.2]; rfl, by rw [hs.2.1, hs.2.2], by rw [hs.1, hs.2.1], by rw [hs.1]; exact h0⟩
      | succ n ih =>
        obtain ⟨t, u, e1, e2, ok, e, a1, a2, a3⟩ := ih
        have up := (afollow_up ok a1 a2 a3).2
        refine ⟨(afollowTick t (w n 0)).1, (followTick u (w n 0)).1, by rw [← e1]; rfl, by rw [← e2]; rfl, ok.tick _, ?_, up.1, up.2.1, up.2.2.trans (hw n)⟩
        have b1 := filterPole_up (r := t.rcoeffNow) ok.an a3
        have b2 := filterPole_up (r := t.rcoeffNow) ok.an (a2.trans b1.1)
        subst e
        simp only [afollowTick, followTick, filterPole_rise a3, FollowSt.mk.injEq, true_and, and_true]
        have c1 := filterPole_rise (a := t.acoeffNow) (r := t.rcoeffNow) (a2.trans b1.1)
        have c2 := filterPole_rise (a := t.acoeffNow) (r := t.rcoeffNow) (a1.trans b2.1)
        rw [filterPole_rise a3] at c1 c2
        rw [c1] at c2 ⊢
        rw [c2]
        exact ⟨rfl, rfl⟩
    intro n
    obtain ⟨t, u, e1, e2, ok, e, -⟩ := key (n + 1)
    have o1 : afollowNode.ticks.out s w n 0 = AFollowSt.v3 (afollowNode.ticks.st s w (n + 1)) := rfl
    have o2 : followNode.ticks.out (⟨y, y, y, s.acoeff, s.acoeffNow⟩ : FollowSt ℝ) w n 0 = FollowSt.v3 (followNode.ticks.st (⟨y, y, y, s.acoeff, s.acoeffNow⟩ : FollowSt ℝ) w (n + 1)) := rfl
    rw [o1, o2, e1, e2, e]
  · intro h0 hw
    have key : ∀ n, ∃ (t : AFollowSt ℝ) (u : FollowSt ℝ), afollowNode.ticks.st s w n = t ∧ followNode.ticks.st (⟨y, y, y, s.rcoeff, s.rcoeffNow⟩ : FollowSt ℝ) w n = u ∧
        t.Ok ∧ u = ⟨t.v1, t.v2, t.v3, t.rcoeff, t.rcoeffNow⟩ ∧ t.v2 ≤ t.v3 ∧ t.v1 ≤ t.v2 ∧ w n 0 ≤ t.v1 := by
      intro n
      induction n with
      | zero => exact ⟨s, _, rfl, rfl, h, by rw [hs.1, hs.2.1, hs.2.2]; rfl, by rw [hs.2.1, hs.2.2], by rw [hs.1, hs.2.1], by rw [hs.1]; exact h0⟩
      | succ n ih =>
        obtain ⟨t, u, e1, e2, ok, e, a1, a2, a3⟩ := ih
        have up := (afollow_down ok a1 a2 a3).2
        refine ⟨(afollowTick t (w n 0)).1, (followTick u (w n 0)).1, by rw [← e1]; rfl, by rw [← e2]; rfl, ok.tick _, ?_, up.1, up.2.1, (hw n).trans up.2.2⟩
        have b1 := filterPole_down (a := t.acoeffNow) ok.rn a3
        have b2 := filterPole_down (a := t.acoeffNow) ok.rn (b1.2.trans a2)
        subst e
        simp only [afollowTick, followTick, filterPole_fall a3, FollowSt.mk.injEq, true_and, and_true]
        have c1 := filterPole_fall (a := t.acoeffNow) (r := t.rcoeffNow) (b1.2.trans a2)
        have c2 := filterPole_fall (a := t.acoeffNow) (r := t.rcoeffNow) (b2.2.trans a1)
        rw [filterPole_fall a3] at c1 c2
        rw [c1] at c2 ⊢
        rw [c2]
        exact ⟨rfl, rfl⟩
    intro n
    obtain ⟨t, u, e1, e2, ok, e, -⟩ := key (n + 1)
    have o1 : afollowNode.ticks.out s w n 0 = AFollowSt.v3 (afollowNode.ticks.st s w (n + 1)) := rfl
    have o2 : followNode.ticks.out (⟨y, y, y, s.rcoeff, s.rcoeffNow⟩ : FollowSt ℝ) w n 0 = FollowSt.v3 (followNode.ticks.st (⟨y, y, y, s.rcoeff, s.rcoeffNow⟩ : FollowSt ℝ) w (n + 1)) := rfl
    rw [o1, o2, e1, e2, e]

/-! ## The response time -/

theorem stepLeft_succ (c : ℝ) (n : ℕ) :
    stepLeft c (n + 1) = c * ((1 - c) ^ (n + 1) * (1 + (n + 1) * c)) + (1 - c) * stepLeft c n := by
  unfold stepLeft; push_cast; ring

theorem stepLeft_anti {c d : ℝ} (h0 : 0 ≤ c) (h : c ≤ d) (h1 : d ≤ 1) (n : ℕ) : stepLeft d n ≤ stepLeft c n := by
  have p1 : ∀ n : ℕ, (1 - d) ^ n ≤ (1 - c) ^ n := fun n => pow_le_pow_left₀ (by linarith) (by linarith) n
  have p2 : ∀ n : ℕ, (1 - d) ^ n * (1 + n * d) ≤ (1 - c) ^ n * (1 + n * c) := by
    intro n
    induction n with
    | zero => simp
    | succ n ih =>
      have q : 0 ≤ (1 - c) ^ n := pow_nonneg (by linarith) n
      have hn : (0 : ℝ) ≤ n := Nat.cast_nonneg n
      have e1 : (1 - d) ^ (n + 1) * (1 + ((n + 1 : ℕ) : ℝ) * d) = d * (1 - d) ^ (n + 1) + (1 - d) * ((1 - d) ^ n * (1 + n * d)) := by push_cast; ring
      have e2 : (1 - c) ^ (n + 1) * (1 + ((n + 1 : ℕ) : ℝ) * c) = c * (1 - c) ^ (n + 1) + (1 - c) * ((1 - c) ^ n * (1 + n * c)) := by push_cast; ring
      rw [e1, e2]
      have a1 := mul_le_mul_of_nonneg_left (p1 (n + 1)) (by linarith : 0 ≤ d)
      have a2 := mul_le_mul_of_nonneg_left ih (by linarith : 0 ≤ 1 - d)
      have a3 : (1 - c) ^ (n + 1) ≤ (1 - c) ^ n * (1 + n * c) := by
        rw [pow_succ]; exact mul_le_mul_of_nonneg_left (by nlinarith [mul_nonneg hn h0]) q
      nlinarith [mul_nonneg (sub_nonneg.2 h) (sub_nonneg.2 a3)]
  induction n with
  | zero => simp [stepLeft]
  | succ n ih =>
    have q : 0 ≤ (1 - c) ^ n := pow_nonneg (by linarith) n
    have hn : (0 : ℝ) ≤ n := Nat.cast_nonneg n
    rw [stepLeft_succ, stepLeft_succ]
    have p := p2 (n + 1); push_cast at p
    have a1 := mul_le_mul_of_nonneg_left p (by linarith : 0 ≤ d)
    have a2 := mul_le_mul_of_nonneg_left ih (by linarith : 0 ≤ 1 - d)
    have a3 : (1 - c) ^ (n + 1) * (1 + (n + 1) * c) ≤ stepLeft c n := by
      unfold stepLeft; rw [pow_succ, mul_assoc]
      refine mul_le_mul_of_nonneg_left ?_ q
      nlinarith [mul_nonneg hn h0, sq_nonneg c, mul_nonneg hn (sq_nonneg c), mul_nonneg (mul_nonneg hn hn) (sq_nonneg c)]
    nlinarith [mul_nonneg (sub_nonneg.2 h) (sub_nonneg.2 a3)]

/-- The coefficient with `E` in place of `exp 0.8616…`. -/
noncomputable def hc (E : ℝ) (n : ℕ) : ℝ := 1.13228543863477 * E / (n + E) - 0.00000005273477

theorem hc_mono {E E' : ℝ} (h0 : 0 < E) (h : E ≤ E') (n : ℕ) : hc E n ≤ hc E' n := by
  have hn : (0 : ℝ) ≤ n := Nat.cast_nonneg n
  unfold hc
  have : 1.13228543863477 * E / (n + E) ≤ 1.13228543863477 * E' / (n + E') := by
    rw [div_le_div_iff₀ (by linarith) (by linarith)]
    nlinarith [mul_nonneg hn (sub_nonneg.2 h)]
  linarith

theorem halfway_eq (n : ℕ) (h1 : 1 ≤ n) (h2 : n ≤ 500000) : halfwayCoeff n = hc (Real.exp 0.861624594696583) n := by
  have hn : (1 : ℝ) ≤ n := by exact_mod_cast h1
  have hn2 : (n : ℝ) ≤ 500000 := by exact_mod_cast h2
  have hE : 1 ≤ Real.exp 0.861624594696583 := Real.one_le_exp (by norm_num)
  have hE3 : Real.exp 0.861624594696583 ≤ 3 := (Real.exp_le_exp.2 (by norm_num : (0.861624594696583 : ℝ) ≤ 1)).trans (by have := Real.exp_one_lt_d9; linarith)
  unfold halfwayCoeff logistic
  rw [max_eq_right hn]
  have e : Real.exp (0 - (Real.log n - 0.861624594696583)) = Real.exp 0.861624594696583 / n := by
    rw [show (0 : ℝ) - (Real.log n - 0.861624594696583) = 0.861624594696583 - Real.log n by ring, Real.exp_sub, Real.exp_log (by linarith)]
  rw [e]
  obtain ⟨E, hEe⟩ : ∃ E, E = Real.exp 0.861624594696583 := ⟨_, rfl⟩
  rw [← hEe] at hE hE3 ⊢
  have e2 : 1 / (1 + E / (n : ℝ)) * 1.13228543863477 - 0.1322853859 = 1 - hc E n := by
    unfold hc
    field_simp
    ring
  rw [e2, min_eq_right]
  · ring
  · have : 1.13228543863477 * E / (n + E) ≥ 1.13228543863477 * E / (500000 + 3) := div_le_div_of_nonneg_left (by positivity) (by linarith) (by linarith)
    have : 1.13228543863477 * E / (500000 + 3) ≥ 1.13228543863477 * 1 / (500000 + 3) := by
      apply div_le_div_of_nonneg_right _ (by norm_num); linarith
    unfold hc
    norm_num at *
    linarith

theorem exp_E : 2.367 ≤ Real.exp 0.861624594696583 ∧ Real.exp 0.861624594696583 ≤ 2.36701 := by
  have h := Real.exp_bound (x := -0.138375405303417) (by norm_num) (n := 7) (by norm_num)
  rw [abs_le] at h
  have e : Real.exp 0.861624594696583 = Real.exp 1 * Real.exp (-0.138375405303417) := by rw [← Real.exp_add]; norm_num
  have g1 := Real.exp_one_gt_d9
  have g2 := Real.exp_one_lt_d9
  norm_num [Finset.sum_range_succ, Nat.factorial, abs_of_neg] at h
  have hp := Real.exp_pos (-0.138375405303417)
  rw [e]
  norm_num at hp ⊢
  constructor <;> nlinarith [h.1, h.2]

set_option maxHeartbeats 1000000 in
theorem left_small (n : ℕ) (h1 : 1 ≤ n) (h2 : n < 60) : stepLeft (hc 2.367 n) n ≤ 0.51 ∧ 0.49 ≤ stepLeft (hc 2.36701 n) n := by
  unfold stepLeft hc
  interval_cases n <;> norm_num

theorem pow_between {c : ℝ} (n : ℕ) (h0 : 0 < c) (h1 : c ≤ 0.05) :
    Real.exp (-(n * c) - n * c * c / 2 - 1.06 * (n * c) * c ^ 2) ≤ (1 - c) ^ n ∧ (1 - c) ^ n ≤ Real.exp (-(n * c) - n * c * c / 2 + 1.06 * (n * c) * c ^ 2) := by
  have h := Real.abs_log_sub_add_sum_range_le (x := c) (by rw [abs_of_pos h0]; linarith) 2
  have hn : (0 : ℝ) ≤ n := Nat.cast_nonneg n
  rw [abs_of_pos h0] at h
  have hb : c ^ (2 + 1) / (1 - c) ≤ 1.06 * c ^ 3 := by
    rw [div_le_iff₀ (by linarith)]
    have : 0 ≤ c ^ 3 := by positivity
    nlinarith
  rw [abs_le] at h
  norm_num [Finset.sum_range_succ] at h
  have hp : (0 : ℝ) < (1 - c) := by linarith
  have e : (1 - c) ^ n = Real.exp (n * Real.log (1 - c)) := by
    rw [mul_comm, Real.exp_mul, Real.exp_log hp, Real.rpow_natCast]
  norm_num at hb
  rw [e, Real.exp_le_exp, Real.exp_le_exp]
  constructor
  · have := mul_le_mul_of_nonneg_left (show -(1.06 * c ^ 3) - c - c ^ 2 / 2 ≤ Real.log (1 - c) by linarith [h.1]) hn
    nlinarith
  · have := mul_le_mul_of_nonneg_left (show Real.log (1 - c) ≤ 1.06 * c ^ 3 - c - c ^ 2 / 2 by linarith [h.2]) hn
    nlinarith

theorem exp_K : Real.exp (-2.68011963) ≤ 0.06858 ∧ 0.0685 ≤ Real.exp (-2.68014) := by
  have g1 := Real.exp_one_gt_d9
  have g2 := Real.exp_one_lt_d9
  have h := Real.exp_bound (x := 0.31988037) (by norm_num) (n := 6) (by norm_num)
  have h' := Real.exp_bound (x := 0.31986) (by norm_num) (n := 6) (by norm_num)
  rw [abs_le] at h h'
  norm_num [Finset.sum_range_succ, Nat.factorial] at h h'
  have e : Real.exp (-2.68011963) = Real.exp 0.31988037 / Real.exp 1 ^ 3 := by
    rw [← Real.exp_nat_mul, ← Real.exp_sub]; norm_num
  have e' : Real.exp (-2.68014) = Real.exp 0.31986 / Real.exp 1 ^ 3 := by
    rw [← Real.exp_nat_mul, ← Real.exp_sub]; norm_num
  have c1 : (20.0855 : ℝ) ≤ Real.exp 1 ^ 3 := le_trans (by norm_num) (pow_le_pow_left₀ (by norm_num) g1.le 3)
  have c2 : Real.exp 1 ^ 3 ≤ (20.0856 : ℝ) := le_trans (pow_le_pow_left₀ (by positivity) g2.le 3) (by norm_num)
  rw [e, e', div_le_iff₀ (by positivity), le_div_iff₀ (by positivity)]
  norm_num
  norm_num at c1 c2
  constructor <;> nlinarith [h.2, h'.1]

theorem poly_up {c t x : ℝ} (hc : 0 ≤ c) (ht : 0 ≤ t) (h : c ≤ 0.045 ∧ t ≤ 0.0002 ∨ c ≤ 0.0014 ∧ t ≤ 0.0265) (hx : x = 1.13228543863477 * 2.367 - 2.367 * c - t) :
    0.06858 * (1 + x + x ^ 2 / 2 + x * c / 2) ≤ 0.51 * (1 - (2.367 * c + t - x * c / 2 + 1.06 * x * c ^ 2)) := by
  subst hx
  rcases h with ⟨h1, h2⟩ | ⟨h1, h2⟩
  · have a1 : 0 ≤ c * t := mul_nonneg hc ht
    have a2 : c * t ≤ 0.0002 * c := by nlinarith
    have a3 : t ^ 2 ≤ 0.0002 * t := by nlinarith
    have a4 : c ^ 2 ≤ 0.045 * c := by nlinarith
    have a5 : c ^ 3 ≤ 0.045 * c ^ 2 := by nlinarith [sq_nonneg c]
    have a6 : 0 ≤ c ^ 3 := by positivity
    have a7 : 0 ≤ c ^ 2 * t := by positivity
    have a8 : c ^ 2 * t ≤ 0.0002 * c ^ 2 := by nlinarith [sq_nonneg c]
    nlinarith
  · have a1 : 0 ≤ c * t := mul_nonneg hc ht
    have a2 : c * t ≤ 0.0265 * c := by nlinarith
    have a3 : t ^ 2 ≤ 0.0265 * t := by nlinarith
    have a4 : c ^ 2 ≤ 0.0014 * c := by nlinarith
    have a5 : c ^ 3 ≤ 0.0014 * c ^ 2 := by nlinarith [sq_nonneg c]
    have a6 : 0 ≤ c ^ 3 := by positivity
    have a7 : 0 ≤ c ^ 2 * t := by positivity
    have a8 : c ^ 2 * t ≤ 0.0265 * c ^ 2 := by nlinarith [sq_nonneg c]
    nlinarith

theorem poly_lo {c t x : ℝ} (hc : 0 ≤ c) (ht : 0 ≤ t) (h1 : c ≤ 0.045) (h2 : t ≤ 0.0265) (hx : x = 1.13228543863477 * 2.36701 - 2.36701 * c - t) :
    0.49 ≤ 0.0685 * ((1 + (2.36701 * c + t - x * c / 2 - 1.06 * x * c ^ 2)) * (1 + x + x ^ 2 / 2 + x * c / 2)) := by
  have hx1 : x ≤ 2.6802 := by subst hx; norm_num; linarith
  have hx2 : 2.54 ≤ x := by subst hx; norm_num; linarith
  have hw : 1.02 * c + t - 2.842 * c ^ 2 ≤ 2.36701 * c + t - x * c / 2 - 1.06 * x * c ^ 2 := by
    nlinarith [mul_le_mul_of_nonneg_right hx1 hc, mul_le_mul_of_nonneg_right hx1 (sq_nonneg c)]
  have hP : 7.271 - 7.372 * c - 3.6802 * t ≤ 1 + x + x ^ 2 / 2 + x * c / 2 := by
    subst hx
    nlinarith [mul_nonneg hc ht, sq_nonneg c, sq_nonneg t]
  have hw0 : 0 ≤ 1 + (1.02 * c + t - 2.842 * c ^ 2) := by nlinarith
  have hP0 : 0 ≤ 7.271 - 7.372 * c - 3.6802 * t := by norm_num; linarith
  have := mul_le_mul (add_le_add_right hw 1) hP hP0 (hw0.trans (by linarith))
  refine le_trans ?_ (mul_le_mul_of_nonneg_left this (by norm_num))
  have a1 : 0 ≤ c * t := mul_nonneg hc ht
  have a2 : c * t ≤ 0.0265 * c := by nlinarith
  have a3 : t ^ 2 ≤ 0.0265 * t := by nlinarith
  have a4 : c ^ 2 ≤ 0.045 * c := by nlinarith
  have a6 : 0 ≤ c ^ 3 := by positivity
  have a7 : 0 ≤ c ^ 2 * t := by positivity
  nlinarith

theorem large (n : ℕ) (h1 : 60 ≤ n) (h2 : n ≤ 500000) : stepLeft (hc 2.367 n) n ≤ 0.51 ∧ 0.49 ≤ stepLeft (hc 2.36701 n) n := by
  have hn : (60 : ℝ) ≤ n := by exact_mod_cast h1
  have hn2 : (n : ℝ) ≤ 500000 := by exact_mod_cast h2
  have box : ∀ E : ℝ, 2.367 ≤ E → E ≤ 2.36701 → 0 < hc E n ∧ hc E n ≤ 0.045 ∧ (n ≤ 2000 ∨ hc E n ≤ 0.0014) ∧ n * hc E n = 1.13228543863477 * E - E * hc E n - 0.00000005273477 * (n + E) := by
    intro E a b
    have hp : 0 < (n : ℝ) + E := by linarith
    have e : (hc E n + 0.00000005273477) * (n + E) = 1.13228543863477 * E := by
      unfold hc; field_simp; ring
    refine ⟨?_, ?_, ?_, by linarith⟩
    · by_contra hcon; nlinarith [mul_nonneg (sub_nonneg.2 (not_lt.1 hcon)) hp.le]
    · by_contra hcon; nlinarith [mul_pos (sub_pos.2 (not_le.1 hcon)) hp]
    · rcases Nat.lt_or_ge 2000 n with h | h
      · right
        have h' : (2000 : ℝ) ≤ n := by exact_mod_cast h.le
        by_contra hcon; nlinarith [mul_pos (sub_pos.2 (not_le.1 hcon)) hp]
      · exact .inl h
  have eq : ∀ c : ℝ, 1 + n * c + n * (n + 1) / 2 * c ^ 2 = 1 + n * c + (n * c) ^ 2 / 2 + (n * c) * c / 2 := fun c => by ring
  constructor
  · obtain ⟨c0, c1, c2, c3⟩ := box 2.367 le_rfl (by norm_num)
    have hp := (pow_between n c0 (by linarith)).2
    unfold stepLeft
    rw [eq]
    obtain ⟨c, hcc⟩ : ∃ c, c = hc 2.367 n := ⟨_, rfl⟩
    obtain ⟨x, hx⟩ : ∃ x, x = (n : ℝ) * c := ⟨_, rfl⟩
    rw [← hcc] at c0 c1 c2 c3 hp ⊢
    have hx0 : 0 ≤ x := by rw [hx]; positivity
    rw [← hx] at c3 hp ⊢
    have pl := poly_up (c := c) (t := 0.00000005273477 * (n + 2.367)) (x := x) c0.le (by positivity)
      (by
        rcases c2 with h | h
        · have h' : (n : ℝ) ≤ 2000 := by exact_mod_cast h
          exact .inl ⟨c1, by norm_num; linarith⟩
        · exact .inr ⟨h, by norm_num; linarith⟩) c3
    obtain ⟨w, hw⟩ : ∃ w, w = 2.367 * c + 0.00000005273477 * (n + 2.367) - x * c / 2 + 1.06 * x * c ^ 2 := ⟨_, rfl⟩
    rw [← hw] at pl
    have e : -x - x * c / 2 + 1.06 * x * c ^ 2 = -(1.13228543863477 * 2.367) + w := by rw [hw]; linarith
    rw [e, Real.exp_add] at hp
    have k1 : Real.exp (-(1.13228543863477 * 2.367)) ≤ 0.06858 := (Real.exp_le_exp.2 (by norm_num)).trans exp_K.1
    have k2 : (1 - w) * Real.exp w ≤ 1 := by
      have := Real.add_one_le_exp (-w)
      have h := mul_le_mul_of_nonneg_right this (Real.exp_pos w).le
      rw [← Real.exp_add, neg_add_cancel, Real.exp_zero] at h
      linarith
    have hP : 0 ≤ 1 + x + x ^ 2 / 2 + x * c / 2 := by positivity
    calc (1 - c) ^ n * (1 + x + x ^ 2 / 2 + x * c / 2) ≤ (0.06858 * Real.exp w) * (1 + x + x ^ 2 / 2 + x * c / 2) :=
          mul_le_mul_of_nonneg_right (hp.trans (mul_le_mul_of_nonneg_right k1 (Real.exp_pos w).le)) hP
      _ = Real.exp w * (0.06858 * (1 + x + x ^ 2 / 2 + x * c / 2)) := by ring
      _ ≤ Real.exp w * (0.51 * (1 - w)) := mul_le_mul_of_nonneg_left pl (Real.exp_pos w).le
      _ = 0.51 * ((1 - w) * Real.exp w) := by ring
      _ ≤ 0.51 := by linarith
  · obtain ⟨c0, c1, c2, c3⟩ := box 2.36701 (by norm_num) le_rfl
    have hp := (pow_between n c0 (by linarith)).1
    unfold stepLeft
    rw [eq]
    obtain ⟨c, hcc⟩ : ∃ c, c = hc 2.36701 n := ⟨_, rfl⟩
    obtain ⟨x, hx⟩ : ∃ x, x = (n : ℝ) * c := ⟨_, rfl⟩
    rw [← hcc] at c0 c1 c2 c3 hp ⊢
    have hx0 : 0 ≤ x := by rw [hx]; positivity
    rw [← hx] at c3 hp ⊢
    have pl := poly_lo (c := c) (t := 0.00000005273477 * (n + 2.36701)) (x := x) c0.le (by positivity) c1 (by norm_num; linarith) c3
    obtain ⟨w, hw⟩ : ∃ w, w = 2.36701 * c + 0.00000005273477 * (n + 2.36701) - x * c / 2 - 1.06 * x * c ^ 2 := ⟨_, rfl⟩
    rw [← hw] at pl
    have e : -x - x * c / 2 - 1.06 * x * c ^ 2 = -(1.13228543863477 * 2.36701) + w := by rw [hw]; linarith
    rw [e, Real.exp_add] at hp
    have k1 : 0.0685 ≤ Real.exp (-(1.13228543863477 * 2.36701)) := exp_K.2.trans (Real.exp_le_exp.2 (by norm_num))
    have k2 := Real.add_one_le_exp w
    have hP : 0 ≤ 1 + x + x ^ 2 / 2 + x * c / 2 := by positivity
    calc (0.49 : ℝ) ≤ 0.0685 * ((1 + w) * (1 + x + x ^ 2 / 2 + x * c / 2)) := pl
      _ ≤ 0.0685 * (Real.exp w * (1 + x + x ^ 2 / 2 + x * c / 2)) :=
          mul_le_mul_of_nonneg_left (mul_le_mul_of_nonneg_right (by linarith) hP) (by norm_num)
      _ = (0.0685 * Real.exp w) * (1 + x + x ^ 2 / 2 + x * c / 2) := by ring
      _ ≤ (1 - c) ^ n * (1 + x + x ^ 2 / 2 + x * c / 2) :=
          mul_le_mul_of_nonneg_right ((mul_le_mul_of_nonneg_right k1 (Real.exp_pos w).le).trans hp) hP

theorem halfway_left (n : ℕ) (h1 : 1 ≤ n) (h2 : n ≤ 500000) : 0.49 ≤ stepLeft (halfwayCoeff n) n ∧ stepLeft (halfwayCoeff n) n ≤ 0.51 := by
  have m := halfwayCoeff_mem n
  rw [halfway_eq n h1 h2] at m ⊢
  have hn : (1 : ℝ) ≤ n := by exact_mod_cast h1
  have hn2 : (n : ℝ) ≤ 500000 := by exact_mod_cast h2
  have both : stepLeft (hc 2.367 n) n ≤ 0.51 ∧ 0.49 ≤ stepLeft (hc 2.36701 n) n := by
    rcases Nat.lt_or_ge n 60 with h | h
    · exact left_small n h1 h
    · exact large n h h2
  have lo0 : 0 ≤ hc 2.367 n := by
    unfold hc
    have : 1.13228543863477 * 2.367 / ((n : ℝ) + 2.367) ≥ 1.13228543863477 * 2.367 / (500000 + 2.367) := div_le_div_of_nonneg_left (by norm_num) (by linarith) (by linarith)
    norm_num at this ⊢
    linarith
  have hi1 : hc 2.36701 n ≤ 1 := by
    unfold hc
    have : 1.13228543863477 * 2.36701 / ((n : ℝ) + 2.36701) ≤ 1.13228543863477 * 2.36701 / (1 + 2.36701) := div_le_div_of_nonneg_left (by norm_num) (by norm_num) (by linarith)
    norm_num at this ⊢
    linarith
  exact ⟨both.2.trans (stepLeft_anti m.1.le (hc_mono (Real.exp_pos _) exp_E.2 n) hi1 n), (stepLeft_anti lo0 (hc_mono (by norm_num) exp_E.1 n) m.2 n).trans both.1⟩

/-- **C41, response time of follow.** From rest at `y`, after exactly the response time of `n` samples with constant input `x`, for `n` from 1 to 500000, the output is
halfway from `y` to `x` within one percent of the way. -/
theorem C41_halfway (n : ℕ) (h1 : 1 ≤ n) (h2 : n ≤ 500000) (y x : ℝ) :
    |followNode.ticks.out (⟨y, y, y, halfwayCoeff n, halfwayCoeff n⟩ : FollowSt ℝ) (fun _ _ => x) (n - 1) 0 - (y + x) / 2| ≤ |y - x| / 100 := by
  rw [C41_step _ rfl ⟨rfl, rfl, rfl⟩, Nat.sub_add_cancel h1]
  have h := halfway_left n h1 h2
  have e : x + (y - x) * stepLeft (halfwayCoeff n) n - (y + x) / 2 = (y - x) * (stepLeft (halfwayCoeff n) n - 1 / 2) := by ring
  rw [e, abs_mul, div_eq_mul_one_div]
  refine mul_le_mul_of_nonneg_left ?_ (abs_nonneg _)
  rw [abs_le]
  norm_num at h ⊢
  constructor <;> linarith [h.1, h.2]

/-- **C41, response times of afollow.** Rising steps are halfway after the attack time and falling steps after the release time, whatever the other time is. -/
theorem C41_afollow_halfway (n : ℕ) (h1 : 1 ≤ n) (h2 : n ≤ 500000) (m y x : ℝ) :
    (y ≤ x → |afollowNode.ticks.out (⟨y, y, y, halfwayCoeff n, halfwayCoeff m, halfwayCoeff n, halfwayCoeff m⟩ : AFollowSt ℝ) (fun _ _ => x) (n - 1) 0 - (y + x) / 2| ≤ |y - x| / 100) ∧
    (x ≤ y → |afollowNode.ticks.out (⟨y, y, y, halfwayCoeff m, halfwayCoeff n, halfwayCoeff m, halfwayCoeff n⟩ : AFollowSt ℝ) (fun _ _ => x) (n - 1) 0 - (y + x) / 2| ≤ |y - x| / 100) := by
  have ok : ∀ a : ℝ, 0 ≤ halfwayCoeff a ∧ halfwayCoeff a ≤ 1 := fun a => ⟨(halfwayCoeff_mem a).1.le, (halfwayCoeff_mem a).2⟩
  constructor
  · intro h
    rw [(C41_afollow_speeds (s := ⟨y, y, y, halfwayCoeff n, halfwayCoeff m, halfwayCoeff n, halfwayCoeff m⟩) ⟨ok _, ok _, ok _, ok _⟩ ⟨rfl, rfl, rfl⟩).1 h (fun _ => le_rfl)]
    exact C41_halfway n h1 h2 y x
  · intro h
    rw [(C41_afollow_speeds (s := ⟨y, y, y, halfwayCoeff m, halfwayCoeff n, halfwayCoeff m, halfwayCoeff n⟩) ⟨ok _, ok _, ok _, ok _⟩ ⟨rfl, rfl, rfl⟩).2 h (fun _ => le_rfl)]
    exact C41_halfway n h1 h2 y x

example : |followNode.ticks.out (⟨0, 0, 0, halfwayCoeff (4410 : ℕ), halfwayCoeff (4410 : ℕ)⟩ : FollowSt ℝ) (fun _ _ => 1) 4409 0 - 1 / 2| ≤ 1 / 100 := by
  simpa using C41_halfway 4410 (by norm_num) (by norm_num) 0 1

end Fundsp.Filter
