import Verif.Math.Music
import Mathlib.Analysis.MeanInequalities
import Mathlib.Analysis.Calculus.Deriv.MeanValue
import Mathlib.Analysis.SpecialFunctions.Log.Deriv
import Mathlib.Analysis.SpecialFunctions.ExpDeriv
import Mathlib.Analysis.SpecialFunctions.Trigonometric.Deriv
import Mathlib.Analysis.Complex.ExponentialBounds
import Mathlib.Tactic.Linarith
import Mathlib.Tactic.Positivity
import Mathlib.Tactic.FieldSimp

/-!
# Lemmas on dissonance, A-weighting and M-weighting
-/
namespace Fundsp.Math
noncomputable section

theorem fract_add_int (x : ℝ) (k : ℤ) : x + k - ⌊x + k⌋ = x - ⌊x⌋ := by
  rw [Int.floor_add_intCast]; push_cast; ring

/-- Dissonance as a function of the distance in critical bands. -/
def curve (q : ℝ) : ℝ := 5.531753 * (Real.exp (-0.84 * q) - Real.exp (-1.38 * q))

/-- The distance of greatest dissonance. -/
def qmax : ℝ := Real.log (23 / 14) / 0.54

theorem curve_deriv (q : ℝ) : HasDerivAt curve (5.531753 * (-0.84 * Real.exp (-0.84 * q) + 1.38 * Real.exp (-1.38 * q))) q := by
  have h : ∀ c : ℝ, HasDerivAt (fun q : ℝ => Real.exp (c * q)) (c * Real.exp (c * q)) q := by
    intro c
    have := ((hasDerivAt_id q).const_mul c).exp
    rw [mul_one, mul_comm] at this
    exact this
  have := ((h (-0.84)).sub (h (-1.38))).const_mul 5.531753
  have e : (5.531753 : ℝ) * (-0.84 * Real.exp (-0.84 * q) - -1.38 * Real.exp (-1.38 * q)) =
      5.531753 * (-0.84 * Real.exp (-0.84 * q) + 1.38 * Real.exp (-1.38 * q)) := by ring
  rw [e] at this
  exact this

theorem curve_split (q : ℝ) : -0.84 * Real.exp (-0.84 * q) + 1.38 * Real.exp (-1.38 * q) = 0.84 * Real.exp (-1.38 * q) * (23 / 14 - Real.exp (0.54 * q)) := by
  have : Real.exp (-0.84 * q) = Real.exp (-1.38 * q) * Real.exp (0.54 * q) := by rw [← Real.exp_add]; congr 1; ring
  rw [this]; ring

theorem curve_up : StrictMonoOn curve (Set.Iic qmax) := by
  apply strictMonoOn_of_deriv_pos (convex_Iic _) (fun q _ => (curve_deriv q).continuousAt.continuousWithinAt)
  intro q hq
  rw [interior_Iic, Set.mem_Iio] at hq
  rw [(curve_deriv q).deriv, curve_split]
  have : Real.exp (0.54 * q) < 23 / 14 := by
    rw [← Real.lt_log_iff_exp_lt (by norm_num)]
    have : q * 0.54 < Real.log (23 / 14) := (lt_div_iff₀ (by norm_num)).1 hq
    linarith
  have := Real.exp_pos (-1.38 * q)
  have h2 : 0 < 23 / 14 - Real.exp (0.54 * q) := by linarith
  positivity

theorem curve_down : StrictAntiOn curve (Set.Ici qmax) := by
  apply strictAntiOn_of_deriv_neg (convex_Ici _) (fun q _ => (curve_deriv q).continuousAt.continuousWithinAt)
  intro q hq
  rw [interior_Ici, Set.mem_Ioi] at hq
  rw [(curve_deriv q).deriv, curve_split]
  have : 23 / 14 < Real.exp (0.54 * q) := by
    rw [← Real.log_lt_iff_lt_exp (by norm_num)]
    have : Real.log (23 / 14) < q * 0.54 := (div_lt_iff₀ (by norm_num)).1 hq
    linarith
  have := Real.exp_pos (-1.38 * q)
  have h2 : 0 < Real.exp (0.54 * q) - 23 / 14 := by linarith
  have : 0 < 5.531753 * (0.84 * Real.exp (-1.38 * q) * (Real.exp (0.54 * q) - 23 / 14)) := by positivity
  linarith

theorem exp_lower {x : ℝ} (n : ℕ) (h : 0 ≤ x) : ∑ m ∈ Finset.range n, x ^ m / m.factorial ≤ Real.exp x := Real.sum_le_exp_of_nonneg h n

theorem qmax_bounds : 0.919327 < qmax ∧ qmax < 0.919328 := by
  have h1 : Real.exp 0.49643658 < 23 / 14 := by
    refine lt_of_le_of_lt (Real.exp_bound' (by norm_num) (by norm_num) (n := 12) (by norm_num)) ?_
    norm_num [Finset.sum_range_succ, Nat.factorial]
  have h2 : 23 / 14 < Real.exp 0.49643712 := by
    refine lt_of_lt_of_le ?_ (exp_lower 12 (by norm_num))
    norm_num [Finset.sum_range_succ, Nat.factorial]
  have h1 := (Real.lt_log_iff_exp_lt (by norm_num)).2 h1
  have h2 := (Real.log_lt_iff_lt_exp (by norm_num)).2 h2
  unfold qmax
  rw [lt_div_iff₀ (by norm_num), div_lt_iff₀ (by norm_num)]
  constructor
  · refine lt_of_eq_of_lt ?_ h1; norm_num
  · refine lt_of_lt_of_eq h2 ?_; norm_num

theorem exp_neg_bounds {x a b : ℝ} (ha : 0 < a) (h1 : a ≤ Real.exp x) (h2 : Real.exp x ≤ b) : 1 / b ≤ Real.exp (-x) ∧ Real.exp (-x) ≤ 1 / a := by
  have hx := Real.exp_pos x
  rw [Real.exp_neg, ← one_div]
  exact ⟨one_div_le_one_div_of_le hx h2, one_div_le_one_div_of_le ha h1⟩

theorem curve_low {q a b : ℝ} (ha : Real.exp (0.84 * q) ≤ a) (hb : b ≤ Real.exp (1.38 * q)) (hb0 : 0 < b) :
    5.531753 * (1 / a - 1 / b) ≤ curve q := by
  have h1 : 1 / a ≤ Real.exp (-0.84 * q) := by
    rw [neg_mul]; exact (exp_neg_bounds (Real.exp_pos _) le_rfl ha).1
  have h2 : Real.exp (-1.38 * q) ≤ 1 / b := by
    rw [neg_mul]; exact (exp_neg_bounds hb0 hb le_rfl).2
  unfold curve
  nlinarith

theorem curve_919 : 0.999999 ≤ curve 0.919 := by
  have h1 : Real.exp (0.84 * 0.919) ≤ 2.1640036 := by
    refine le_trans (Real.exp_bound' (by norm_num) (by norm_num) (n := 12) (by norm_num)) ?_
    norm_num [Finset.sum_range_succ, Nat.factorial]
  have h2 : (3.5545198 : ℝ) ≤ Real.exp (1.38 * 0.919) := by
    refine le_trans ?_ (exp_lower 16 (by norm_num))
    norm_num [Finset.sum_range_succ, Nat.factorial]
  refine le_trans ?_ (curve_low h1 h2 (by norm_num))
  norm_num

theorem curve_9194 : 0.999999 ≤ curve 0.9194 := by
  have h1 : Real.exp (0.84 * 0.9194) ≤ 2.1647308 := by
    refine le_trans (Real.exp_bound' (by norm_num) (by norm_num) (n := 12) (by norm_num)) ?_
    norm_num [Finset.sum_range_succ, Nat.factorial]
  have h2 : (3.5564824 : ℝ) ≤ Real.exp (1.38 * 0.9194) := by
    refine le_trans ?_ (exp_lower 16 (by norm_num))
    norm_num [Finset.sum_range_succ, Nat.factorial]
  refine le_trans ?_ (curve_low h1 h2 (by norm_num))
  norm_num

theorem curve_near {q : ℝ} (h1 : 0.919 ≤ q) (h2 : q ≤ 0.9194) : 0.999999 ≤ curve q := by
  rcases le_total q qmax with h | h
  · exact le_trans curve_919 (curve_up.monotoneOn (Set.mem_Iic.2 (le_trans h1 h)) (Set.mem_Iic.2 h) h1)
  · exact le_trans curve_9194 (curve_down.antitoneOn (Set.mem_Ici.2 h) (Set.mem_Ici.2 (le_trans h h2)) h2)

theorem curve_le_one (q : ℝ) : curve q ≤ 1 := by
  have hmax : curve q ≤ curve qmax := by
    rcases le_total q qmax with h | h
    · exact curve_up.monotoneOn (Set.mem_Iic.2 h) (Set.mem_Iic.2 le_rfl) h
    · exact curve_down.antitoneOn (Set.mem_Ici.2 le_rfl) (Set.mem_Ici.2 h) h
  refine le_trans hmax ?_
  -- at the top both exponentials are powers of `14/23`
  have e1 : Real.exp (-1.38 * qmax) = 14 / 23 * Real.exp (-0.84 * qmax) := by
    have h : Real.exp (-(0.54 * qmax)) = 14 / 23 := by
      unfold qmax
      rw [mul_div_cancel₀ _ (by norm_num), Real.exp_neg, Real.exp_log (by norm_num)]; norm_num
    rw [← h, ← Real.exp_add]; congr 1; ring
  have e2 : Real.exp (-0.84 * qmax) ^ 9 = (14 / 23 : ℝ) ^ 14 := by
    have h : Real.exp (-(0.54 * qmax)) = 14 / 23 := by
      unfold qmax
      rw [mul_div_cancel₀ _ (by norm_num), Real.exp_neg, Real.exp_log (by norm_num)]; norm_num
    rw [← h, ← Real.exp_nat_mul, ← Real.exp_nat_mul]; congr 1; push_cast; ring
  have h3 : Real.exp (-0.84 * qmax) ≤ 0.461979325 := by
    refine le_of_pow_le_pow_left₀ (n := 9) (by norm_num) (by norm_num) ?_
    rw [e2]; norm_num
  unfold curve
  rw [e1]
  linarith

theorem dissonance_above {f g : ℝ} (h : f ≤ g) : dissonance f g = curve ((g - f) / (0.021 * f + 19)) := by
  unfold dissonance curve
  simp only
  rw [min_eq_left h, abs_sub_comm, abs_of_nonneg (by linarith)]

/-- Logarithm of the square of A-weighting as a function of the squared frequency, without its constant. -/
def aLog (x : ℝ) : ℝ := 4 * Real.log x - 2 * Real.log (x + 20.6 ^ 2) - Real.log (x + 107.7 ^ 2) - Real.log (x + 737.9 ^ 2) - 2 * Real.log (x + 12194 ^ 2)
/-- Its slope times `x`, a falling function. -/
def aSlope (x : ℝ) : ℝ := 2 * (20.6 ^ 2 / (x + 20.6 ^ 2)) + 107.7 ^ 2 / (x + 107.7 ^ 2) + 737.9 ^ 2 / (x + 737.9 ^ 2) - 2 * (1 - 12194 ^ 2 / (x + 12194 ^ 2))

theorem aLog_deriv {x : ℝ} (h : 0 < x) : HasDerivAt aLog (aSlope x / x) x := by
  have hl : ∀ c : ℝ, 0 ≤ c → HasDerivAt (fun x => Real.log (x + c)) (1 / (x + c)) x := fun c hc =>
    ((hasDerivAt_id x).add_const c).log (by simp only [id]; positivity)
  have := (((((Real.hasDerivAt_log h.ne').const_mul 4).sub ((hl (20.6 ^ 2) (by positivity)).const_mul 2)).sub (hl (107.7 ^ 2) (by positivity))).sub
    (hl (737.9 ^ 2) (by positivity))).sub ((hl (12194 ^ 2) (by positivity)).const_mul 2)
  have e : 4 * x⁻¹ - 2 * (1 / (x + 20.6 ^ 2)) - 1 / (x + 107.7 ^ 2) - 1 / (x + 737.9 ^ 2) - 2 * (1 / (x + 12194 ^ 2)) = aSlope x / x := by
    have a : ∀ c : ℝ, 0 ≤ c → 1 / (x + c) = (1 - c / (x + c)) / x := by
      intro c hc
      have : x + c ≠ 0 := by positivity
      field_simp; ring
    rw [a _ (by positivity), a (107.7 ^ 2) (by positivity), a (737.9 ^ 2) (by positivity), a (12194 ^ 2) (by positivity)]
    unfold aSlope
    ring
  rw [e] at this
  exact this

theorem aSlope_anti : StrictAntiOn aSlope (Set.Ici 0) := by
  intro x hx y hy h
  have hx : 0 ≤ x := hx
  have a : ∀ c : ℝ, 0 < c → c / (y + c) < c / (x + c) := fun c hc => div_lt_div_of_pos_left hc (by linarith) (by linarith)
  have h1 := a (20.6 ^ 2) (by positivity)
  have h2 := a (107.7 ^ 2) (by positivity)
  have h3 := a (737.9 ^ 2) (by positivity)
  have h4 := a (12194 ^ 2) (by positivity)
  unfold aSlope
  linarith

theorem aLog_weight {f : ℝ} (h : 0 < f) : Real.log (aWeight f) = Real.log (1.2589048990582914 * 12194 ^ 2) + aLog (f ^ 2) / 2 := by
  unfold aWeight aLog
  simp only
  have hx : 0 < f ^ 2 := by positivity
  generalize f ^ 2 = x at hx
  have b1 : 0 < x + 20.6 ^ 2 := by positivity
  have b2 : 0 < x + 107.7 ^ 2 := by positivity
  have b3 : 0 < x + 737.9 ^ 2 := by positivity
  have b4 : 0 < x + 12194 ^ 2 := by positivity
  have b5 : 0 < Real.sqrt ((x + 107.7 ^ 2) * (x + 737.9 ^ 2)) := Real.sqrt_pos.2 (by positivity)
  rw [Real.log_div (by positivity) (by positivity), Real.log_mul (by positivity) hx.ne', Real.log_mul (by positivity) hx.ne',
    Real.log_mul (by positivity) b4.ne', Real.log_mul b1.ne' b5.ne', Real.log_sqrt (by positivity), Real.log_mul b2.ne' b3.ne']
  ring

/-- Squared denominator of `m_weight` in units of `y = f² / 10⁷`. -/
def mDen (y : ℝ) : ℝ :=
  (-0.004737338981378384 * y ^ 3 + 0.204382833606125 * y ^ 2 - 1.363894795463638 * y + 1) ^ 2 +
    10 ^ 7 * y * (0.00001306612257412824 * y ^ 2 - 0.0002118150887518656 * y + 0.0005559488023498642) ^ 2

theorem mDen_bound {y : ℝ} (h : 0 ≤ y) : (8.164578311186197 * (1.246332637532143 * 1.0e-4)) ^ 2 * 10 ^ 7 * y ≤ 16.81 * mDen y := by
  rcases le_total y 4 with h4 | h4
  · have hz : 0 ≤ 4 - y := by linarith
    have e : 16.81 * mDen y - (8.164578311186197 * (1.246332637532143 * 1.0e-4)) ^ 2 * 10 ^ 7 * y =
      (1681 / 409600 : ℝ) * (y ^ 0 * (4 - y) ^ 6) +
      (209623980662749702198106324888076126397169141859644837562910759 / 10240000000000000000000000000000000000000000000000000000000000000 : ℝ) * (y ^ 1 * (4 - y) ^ 5) +
      (71957851196928818837041381787665054397169141859644837562910759 / 2048000000000000000000000000000000000000000000000000000000000000 : ℝ) * (y ^ 2 * (4 - y) ^ 4) +
      (25590241638452323403153154442062071997169141859644837562910759 / 1024000000000000000000000000000000000000000000000000000000000000 : ℝ) * (y ^ 3 * (4 - y) ^ 3) +
      (6776575922692869183468427525693306557169141859644837562910759 / 1024000000000000000000000000000000000000000000000000000000000000 : ℝ) * (y ^ 4 * (4 - y) ^ 2) +
      (229394517231870223742133083433044157169141859644837562910759 / 2048000000000000000000000000000000000000000000000000000000000000 : ℝ) * (y ^ 5 * (4 - y) ^ 1) +
      (956460145227228210132919180935637283569141859644837562910759 / 10240000000000000000000000000000000000000000000000000000000000000 : ℝ) * (y ^ 6 * (4 - y) ^ 0) := by
      unfold mDen; norm_num; ring
    have : 0 ≤ 16.81 * mDen y - (8.164578311186197 * (1.246332637532143 * 1.0e-4)) ^ 2 * 10 ^ 7 * y := by rw [e]; positivity
    linarith
  · have hz : 0 ≤ y - 4 := by linarith
    have e : 16.81 * mDen y - (8.164578311186197 * (1.246332637532143 * 1.0e-4)) ^ 2 * 10 ^ 7 * y =
      (956460145227228210132919180935637283569141859644837562910759 / 2500000000000000000000000000000000000000000000000000000000000 : ℝ) * (y - 4) ^ 0 +
      (4591788285204018142086849668448602915569141859644837562910759 / 10000000000000000000000000000000000000000000000000000000000000 : ℝ) * (y - 4) ^ 1 +
      (149175387645586639439696749775667033 / 78125000000000000000000000000000000 : ℝ) * (y - 4) ^ 2 +
      (11142625764718059727908831081138711 / 78125000000000000000000000000000000 : ℝ) * (y - 4) ^ 3 +
      (758661381572976105275908574435477 / 312500000000000000000000000000000000 : ℝ) * (y - 4) ^ 4 +
      (2031588287544275678053916741063269 / 390625000000000000000000000000000000 : ℝ) * (y - 4) ^ 5 +
      (147365788397511554018995996487881 / 390625000000000000000000000000000000 : ℝ) * (y - 4) ^ 6 := by
      unfold mDen; norm_num; ring
    have : 0 ≤ 16.81 * mDen y - (8.164578311186197 * (1.246332637532143 * 1.0e-4)) ^ 2 * 10 ^ 7 * y := by rw [e]; positivity
    linarith

theorem mWeight_eq (f : ℝ) : mWeight f = 8.164578311186197 * (1.246332637532143 * 1.0e-4) * f / Real.sqrt (mDen (f ^ 2 / 10 ^ 7)) := by
  unfold mWeight mDen
  simp only
  congr 2
  ring

theorem mDen_pos (f : ℝ) : 0 < mDen (f ^ 2 / 10 ^ 7) := by
  by_cases hf : f = 0
  · rw [hf]; norm_num [mDen]
  · have h := mDen_bound (show 0 ≤ f ^ 2 / 10 ^ 7 by positivity)
    have : 0 < f ^ 2 / 10 ^ 7 := by positivity
    have : 0 < (8.164578311186197 * (1.246332637532143 * 1.0e-4)) ^ 2 * 10 ^ 7 * (f ^ 2 / 10 ^ 7) := by positivity
    linarith

end
end Fundsp.Math
