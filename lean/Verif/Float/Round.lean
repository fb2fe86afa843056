import Mathlib.Data.Int.Log
import Mathlib.Data.Real.Archimedean
import Mathlib.Algebra.Order.Floor.Ring
import Mathlib.Algebra.Ring.Int.Parity
import Mathlib.Algebra.Order.Field.Power
import Mathlib.Tactic.Linarith
import Mathlib.Tactic.Positivity
import Mathlib.Tactic.Ring
import Mathlib.Tactic.NormNum

/-!
# Floating point rounding

Rounding to nearest, ties to even, with `p` significant bits: `p = 24` for `f32` and `p = 53` for `f64`. This is IEEE 754 arithmetic with the exponent range left
unbounded: overflow, subnormal numbers, infinities and NaN are not modelled. Each operation of the code is the exact operation followed by `rnd`.
-/

noncomputable section
namespace Fundsp.Fl

/-- The nearest integer; of two, the even one. -/
def roundEven (y : ℝ) : ℤ :=
  if Int.fract y < 1 / 2 then ⌊y⌋ else if 1 / 2 < Int.fract y then ⌊y⌋ + 1 else if Even ⌊y⌋ then ⌊y⌋ else ⌊y⌋ + 1

/-- Distance of neighbouring numbers with `p` bits around `x`. -/
def ulp (p : ℕ) (x : ℝ) : ℝ := 2 ^ (Int.log 2 |x| - p + 1)

/-- Rounding to `p` significant bits. -/
def rnd (p : ℕ) (x : ℝ) : ℝ := roundEven (x / ulp p x) * ulp p x

/-- Numbers with `p` significant bits. -/
def Rep (p : ℕ) (x : ℝ) : Prop := ∃ m e : ℤ, |m| ≤ 2 ^ p ∧ x = m * 2 ^ e

/-! ## Nearest integer -/

theorem floor_le_roundEven (y : ℝ) : ⌊y⌋ ≤ roundEven y := by
  unfold roundEven; split_ifs <;> omega

theorem roundEven_le_floor (y : ℝ) : roundEven y ≤ ⌊y⌋ + 1 := by
  unfold roundEven; split_ifs <;> omega

theorem le_roundEven {n : ℤ} {y : ℝ} (h : (n : ℝ) ≤ y) : n ≤ roundEven y := (Int.le_floor.2 h).trans (floor_le_roundEven y)

theorem roundEven_int (n : ℤ) : roundEven (n : ℝ) = n := by
  unfold roundEven
  rw [Int.fract_intCast, if_pos (by norm_num), Int.floor_intCast]

theorem roundEven_le {n : ℤ} {y : ℝ} (h : y ≤ n) : roundEven y ≤ n := by
  rcases h.lt_or_eq with h | h
  · have : ⌊y⌋ < n := Int.floor_lt.2 h
    have := roundEven_le_floor y
    omega
  · rw [h, roundEven_int]

theorem roundEven_mono {x y : ℝ} (h : x ≤ y) : roundEven x ≤ roundEven y := by
  have hf := Int.floor_mono h
  rcases hf.lt_or_eq with hf | hf
  · exact (roundEven_le_floor x).trans (le_trans (by omega) (floor_le_roundEven y))
  · have hfr : Int.fract x ≤ Int.fract y := by unfold Int.fract; rw [hf]; linarith
    unfold roundEven
    rw [hf]
    split_ifs <;> first | omega | (exfalso; linarith)

theorem roundEven_err (y : ℝ) : |(roundEven y : ℝ) - y| ≤ 1 / 2 := by
  have h0 := Int.fract_nonneg y
  have h1 := Int.fract_lt_one y
  have e : y = ⌊y⌋ + Int.fract y := (Int.floor_add_fract y).symm
  rw [abs_le]
  unfold roundEven
  split_ifs <;> push_cast <;> constructor <;> linarith

theorem roundEven_of_near {n : ℤ} {y : ℝ} (h : |y - n| < 1 / 2) : roundEven y = n := by
  have h' := roundEven_err y
  rw [abs_le] at h'
  rw [abs_lt] at h
  have a : (roundEven y : ℝ) < (n + 1 : ℤ) := by push_cast; linarith
  have b : ((n - 1 : ℤ) : ℝ) < roundEven y := by push_cast; linarith
  have := Int.cast_lt.1 a
  have := Int.cast_lt.1 b
  omega

theorem roundEven_neg (y : ℝ) : roundEven (-y) = -roundEven y := by
  by_cases h0 : Int.fract y = 0
  · have e : y = ⌊y⌋ := by have := Int.floor_add_fract y; rw [h0] at this; linarith
    rw [e, ← Int.cast_neg, roundEven_int, roundEven_int]
  · have hp : 0 < Int.fract y := lt_of_le_of_ne (Int.fract_nonneg y) (Ne.symm h0)
    have hfl : ⌊-y⌋ = -⌊y⌋ - 1 := by
      rw [Int.floor_eq_iff]
      have := Int.floor_add_fract y
      have := Int.fract_lt_one y
      push_cast
      constructor <;> linarith
    have hfr : Int.fract (-y) = 1 - Int.fract y := by
      unfold Int.fract; rw [hfl]; push_cast; ring
    have hev : Even (-⌊y⌋ - 1) ↔ ¬ Even ⌊y⌋ := by
      rw [Int.even_sub, even_neg]
      simp
    unfold roundEven
    rw [hfr, hfl]
    split_ifs <;> first | omega | (exfalso; linarith) | tauto

/-! ## Rounding -/

theorem ulp_pos (p : ℕ) (x : ℝ) : 0 < ulp p x := by unfold ulp; positivity

theorem ulp_of {p : ℕ} {x : ℝ} {k : ℤ} (h1 : (2 : ℝ) ^ k ≤ |x|) (h2 : |x| < 2 ^ (k + 1)) : ulp p x = 2 ^ (k - p + 1) := by
  have hx : 0 < |x| := lt_of_lt_of_le (by positivity) h1
  have a : k ≤ Int.log 2 |x| := by
    have := (Int.zpow_le_iff_le_log (b := 2) (R := ℝ) (by norm_num) hx (x := k)).1 (by exact_mod_cast h1)
    exact this
  have b : Int.log 2 |x| < k + 1 := by
    have := (Int.lt_zpow_iff_log_lt (b := 2) (R := ℝ) (by norm_num) hx (x := k + 1)).1 (by exact_mod_cast h2)
    exact this
  unfold ulp
  rw [show Int.log 2 |x| = k by omega]

theorem exists_binade {x : ℝ} (h : x ≠ 0) : ∃ k : ℤ, (2 : ℝ) ^ k ≤ |x| ∧ |x| < 2 ^ (k + 1) := by
  have hx : 0 < |x| := abs_pos.2 h
  refine ⟨Int.log 2 |x|, ?_, ?_⟩
  · have := Int.zpow_log_le_self (b := 2) (R := ℝ) (by norm_num) hx
    exact_mod_cast this
  · have := Int.lt_zpow_succ_log_self (b := 2) (R := ℝ) (by norm_num) |x|
    exact_mod_cast this

theorem ulp_neg (p : ℕ) (x : ℝ) : ulp p (-x) = ulp p x := by unfold ulp; rw [abs_neg]

theorem rnd_neg (p : ℕ) (x : ℝ) : rnd p (-x) = -rnd p x := by
  unfold rnd; rw [ulp_neg, neg_div, roundEven_neg]; push_cast; ring

theorem rnd_zero (p : ℕ) : rnd p 0 = 0 := by
  unfold rnd; rw [zero_div, show (0 : ℝ) = ((0 : ℤ) : ℝ) by norm_num, roundEven_int]; simp

theorem rnd_err (p : ℕ) (x : ℝ) : |rnd p x - x| ≤ ulp p x / 2 := by
  have hu := ulp_pos p x
  have e : rnd p x - x = (roundEven (x / ulp p x) - x / ulp p x) * ulp p x := by
    unfold rnd; field_simp
  rw [e, abs_mul, abs_of_pos hu]
  have := mul_le_mul_of_nonneg_right (roundEven_err (x / ulp p x)) hu.le
  linarith

/-- The value in a known binade. -/
theorem rnd_of {p : ℕ} {x : ℝ} {k : ℤ} (h1 : (2 : ℝ) ^ k ≤ |x|) (h2 : |x| < 2 ^ (k + 1)) :
    rnd p x = roundEven (x / 2 ^ (k - p + 1)) * 2 ^ (k - p + 1) := by unfold rnd; rw [ulp_of h1 h2]

theorem two_zpow_split (p : ℕ) (k : ℤ) : (2 : ℝ) ^ p * 2 ^ (k - p + 1) = 2 ^ (k + 1) := by
  rw [← zpow_natCast, ← zpow_add₀ (by norm_num)]; congr 1; ring

/-- Positive numbers stay in their closed binade. -/
theorem rnd_binade {p : ℕ} (hp : 1 ≤ p) {x : ℝ} {k : ℤ} (h1 : (2 : ℝ) ^ k ≤ x) (h2 : x < 2 ^ (k + 1)) : (2 : ℝ) ^ k ≤ rnd p x ∧ rnd p x ≤ 2 ^ (k + 1) := by
  have hx : 0 < x := lt_of_lt_of_le (by positivity) h1
  have hu : (0 : ℝ) < 2 ^ (k - p + 1) := by positivity
  rw [rnd_of (k := k) (by rwa [abs_of_pos hx]) (by rwa [abs_of_pos hx])]
  obtain ⟨q, rfl⟩ : ∃ q, p = q + 1 := ⟨p - 1, by omega⟩
  have es : (2 : ℝ) ^ q * 2 ^ (k - ((q + 1 : ℕ) : ℤ) + 1) = 2 ^ k := by
    rw [← zpow_natCast, ← zpow_add₀ (by norm_num)]; congr 1; push_cast; ring
  constructor
  · have : ((2 ^ q : ℤ) : ℝ) ≤ x / 2 ^ (k - ((q + 1 : ℕ) : ℤ) + 1) := by
      rw [le_div_iff₀ hu]; push_cast; push_cast at es; rw [es]; exact h1
    have := Int.cast_le (R := ℝ).2 (le_roundEven this)
    rw [← es]
    push_cast at this
    exact mul_le_mul_of_nonneg_right this hu.le
  · have : x / 2 ^ (k - ((q + 1 : ℕ) : ℤ) + 1) ≤ ((2 ^ (q + 1) : ℤ) : ℝ) := by
      rw [div_le_iff₀ hu]; push_cast
      have := two_zpow_split (q + 1) k
      push_cast at this; rw [this]; exact h2.le
    have := Int.cast_le (R := ℝ).2 (roundEven_le this)
    rw [← two_zpow_split (q + 1) k]
    push_cast at this
    exact mul_le_mul_of_nonneg_right this hu.le

theorem rnd_nonneg {p : ℕ} (hp : 1 ≤ p) {x : ℝ} (h : 0 ≤ x) : 0 ≤ rnd p x := by
  rcases h.lt_or_eq with h | h
  · obtain ⟨k, h1, h2⟩ := exists_binade h.ne'
    rw [abs_of_pos h] at h1 h2
    exact le_trans (by positivity) (rnd_binade hp h1 h2).1
  · rw [← h, rnd_zero]

theorem rnd_mono_pos {p : ℕ} (hp : 1 ≤ p) {x y : ℝ} (hx : 0 < x) (h : x ≤ y) : rnd p x ≤ rnd p y := by
  have hy := hx.trans_le h
  obtain ⟨k, h1, h2⟩ := exists_binade hx.ne'
  obtain ⟨l, h3, h4⟩ := exists_binade hy.ne'
  have kl : k < l + 1 := (zpow_lt_zpow_iff_right₀ (a := (2 : ℝ)) (by norm_num)).1 (lt_of_le_of_lt h1 (lt_of_le_of_lt (by rwa [abs_of_pos hx, abs_of_pos hy]) h4))
  rcases (by omega : k = l ∨ k + 1 ≤ l) with e | e
  · subst e
    rw [rnd_of h1 h2, rnd_of h3 h4]
    have hu : (0 : ℝ) < 2 ^ (k - p + 1) := by positivity
    refine mul_le_mul_of_nonneg_right ?_ hu.le
    exact Int.cast_le.2 (roundEven_mono (div_le_div_of_nonneg_right h hu.le))
  · rw [abs_of_pos hx] at h1 h2
    rw [abs_of_pos hy] at h3 h4
    exact (rnd_binade hp h1 h2).2.trans ((zpow_le_zpow_right₀ (by norm_num) e).trans (rnd_binade hp h3 h4).1)

/-- Rounding is monotone. -/
theorem rnd_mono {p : ℕ} (hp : 1 ≤ p) {x y : ℝ} (h : x ≤ y) : rnd p x ≤ rnd p y := by
  rcases lt_trichotomy x 0 with hx | hx | hx
  · rcases le_or_gt 0 y with hy | hy
    · have := rnd_nonneg hp (show 0 ≤ -x by linarith)
      rw [rnd_neg] at this
      linarith [rnd_nonneg hp hy]
    · have := rnd_mono_pos hp (show 0 < -y by linarith) (show -y ≤ -x by linarith)
      rw [rnd_neg, rnd_neg] at this
      linarith
  · rw [hx, rnd_zero]; exact rnd_nonneg hp (hx ▸ h)
  · exact rnd_mono_pos hp hx h

theorem Rep.neg {p : ℕ} {x : ℝ} (h : Rep p x) : Rep p (-x) := by
  obtain ⟨m, e, hm, rfl⟩ := h
  exact ⟨-m, e, by rwa [abs_neg], by push_cast; ring⟩

/-- Numbers with `p` bits are not changed. -/
theorem rnd_rep {p : ℕ} (hp : 1 ≤ p) {x : ℝ} (h : Rep p x) : rnd p x = x := by
  obtain ⟨m, e, hm, rfl⟩ := h
  by_cases h0 : (m : ℝ) * 2 ^ e = 0
  · rw [h0, rnd_zero]
  · have red : ∃ m' e' : ℤ, |m'| < 2 ^ p ∧ (m : ℝ) * 2 ^ e = m' * 2 ^ e' := by
      rcases hm.lt_or_eq with h | h
      · exact ⟨m, e, h, rfl⟩
      · obtain ⟨q, rfl⟩ : ∃ q, p = q + 1 := ⟨p - 1, by omega⟩
        rcases abs_choice m with hc | hc
        · refine ⟨2 ^ q, e + 1, ?_, ?_⟩
          · rw [abs_of_pos (by positivity)]; exact pow_lt_pow_right₀ (by norm_num) (by omega)
          · rw [← hc, h, zpow_add₀ (by norm_num)]; push_cast; ring
        · refine ⟨-2 ^ q, e + 1, ?_, ?_⟩
          · rw [abs_neg, abs_of_pos (by positivity)]; exact pow_lt_pow_right₀ (by norm_num) (by omega)
          · rw [show m = -2 ^ (q + 1) by rw [← h, hc]; ring, zpow_add₀ (by norm_num)]; push_cast; ring
    obtain ⟨k, h1, h2⟩ := exists_binade h0
    obtain ⟨m', e', h3, h4⟩ := red
    have hle : k - p + 1 ≤ e' := by
      by_contra hlt
      have hm' : |(m' : ℝ)| < 2 ^ p := by exact_mod_cast (Int.cast_lt (R := ℝ)).2 h3
      have hle : (2 : ℝ) ^ e' ≤ 2 ^ (k - p) := zpow_le_zpow_right₀ (by norm_num) (by omega)
      have : |(m : ℝ) * 2 ^ e| < 2 ^ k := by
        rw [h4, abs_mul, abs_of_pos (show (0 : ℝ) < 2 ^ e' by positivity)]
        calc |(m' : ℝ)| * 2 ^ e' < 2 ^ p * 2 ^ e' := mul_lt_mul_of_pos_right hm' (by positivity)
          _ ≤ 2 ^ p * 2 ^ (k - p) := mul_le_mul_of_nonneg_left hle (by positivity)
          _ = 2 ^ k := by rw [← zpow_natCast, ← zpow_add₀ (by norm_num)]; congr 1; ring
      linarith
    rw [rnd_of h1 h2, h4]
    obtain ⟨d, hd⟩ := Int.eq_ofNat_of_zero_le (show 0 ≤ e' - (k - p + 1) by omega)
    have e2 : (m' : ℝ) * 2 ^ e' / 2 ^ (k - p + 1) = ((m' * 2 ^ d : ℤ) : ℝ) := by
      rw [div_eq_iff (by positivity), show e' = d + (k - p + 1) by omega, zpow_add₀ (by norm_num)]
      push_cast; rw [zpow_natCast]; ring
    rw [e2, roundEven_int, ← e2]
    field_simp

/-- The result of rounding has `p` bits. -/
theorem rep_rnd {p : ℕ} (hp : 1 ≤ p) (x : ℝ) : Rep p (rnd p x) := by
  by_cases h0 : x = 0
  · exact ⟨0, 0, by simp, by rw [h0, rnd_zero]; simp⟩
  · obtain ⟨k, h1, h2⟩ := exists_binade h0
    refine ⟨roundEven (x / 2 ^ (k - p + 1)), k - p + 1, ?_, rnd_of h1 h2⟩
    have hu : (0 : ℝ) < 2 ^ (k - p + 1) := by positivity
    have hb : |x / 2 ^ (k - p + 1)| ≤ 2 ^ p := by
      rw [abs_div, abs_of_pos hu, div_le_iff₀ hu, two_zpow_split]; exact h2.le
    rw [abs_le] at hb ⊢
    constructor
    · exact le_roundEven (by push_cast; exact hb.1)
    · exact roundEven_le (by push_cast; exact hb.2)

theorem rnd_le {p : ℕ} (hp : 1 ≤ p) {x a : ℝ} (ha : Rep p a) (h : x ≤ a) : rnd p x ≤ a := (rnd_mono hp h).trans (rnd_rep hp ha).le
theorem le_rnd {p : ℕ} (hp : 1 ≤ p) {x a : ℝ} (ha : Rep p a) (h : a ≤ x) : a ≤ rnd p x := (rnd_rep hp ha).symm.le.trans (rnd_mono hp h)

theorem rep_int {p : ℕ} {n : ℤ} (h : |n| ≤ 2 ^ p) : Rep p (n : ℝ) := ⟨n, 0, h, by simp⟩
theorem rep_zpow {p : ℕ} (k : ℤ) : Rep p ((2 : ℝ) ^ k) := ⟨1, k, by simp [one_le_pow₀], by simp⟩
theorem rep_zero {p : ℕ} : Rep p 0 := ⟨0, 0, by simp, by simp⟩
theorem rep_one {p : ℕ} : Rep p 1 := by simpa using rep_zpow (p := p) 0

/-- A step below half the distance to the next number is lost. -/
theorem rnd_stall {p : ℕ} (hp : 1 ≤ p) {t d : ℝ} {k : ℤ} (ht : Rep p t) (h1 : (2 : ℝ) ^ k ≤ t) (h2 : t < 2 ^ (k + 1)) (hd0 : 0 ≤ d) (hd : d < 2 ^ (k - p)) :
    rnd p (t + d) = t := by
  have htp : 0 < t := lt_of_lt_of_le (by positivity) h1
  have hu : (0 : ℝ) < 2 ^ (k - p + 1) := by positivity
  have half : (2 : ℝ) ^ (k - p) = 2 ^ (k - p + 1) / 2 := by rw [zpow_add₀ (by norm_num)]; ring
  -- t is a multiple of the unit
  obtain ⟨n, hn⟩ : ∃ n : ℤ, t = n * 2 ^ (k - p + 1) := by
    have := rnd_of (p := p) (k := k) (x := t) (by rwa [abs_of_pos htp]) (by rwa [abs_of_pos htp])
    rw [rnd_rep hp ht] at this
    exact ⟨_, this⟩
  have hnear : |(t + d) / 2 ^ (k - p + 1) - n| < 1 / 2 := by
    rw [hn, add_div, mul_div_assoc, div_self hu.ne', mul_one, add_sub_cancel_left, abs_of_nonneg (by positivity), div_lt_iff₀ hu]
    linarith
  by_cases hb : t + d < 2 ^ (k + 1)
  · rw [rnd_of (k := k) (by rw [abs_of_pos (by linarith)]; linarith) (by rw [abs_of_pos (by linarith)]; exact hb), roundEven_of_near hnear, hn]
  · -- the last number of the binade is a full unit below the next power of two
    exfalso
    have es := two_zpow_split p k
    have hlt : (n : ℝ) < ((2 ^ p : ℤ) : ℝ) := by
      push_cast
      rw [hn, ← es] at h2
      exact lt_of_mul_lt_mul_right h2 hu.le
    have hle : n + 1 ≤ 2 ^ p := by have := Int.cast_lt.1 hlt; omega
    have hle' : (n : ℝ) + 1 ≤ 2 ^ p := by exact_mod_cast hle
    have := mul_le_mul_of_nonneg_right hle' hu.le
    rw [es] at this
    rw [not_lt, hn] at hb
    linarith

/-- A step above half the distance to the next number moves on. -/
theorem rnd_advance {p : ℕ} (hp : 1 ≤ p) {t d : ℝ} {k : ℤ} (ht : Rep p t) (h0 : 0 ≤ t) (h2 : t < 2 ^ (k + 1)) (hd : (2 : ℝ) ^ (k - p) < d) :
    t < rnd p (t + d) := by
  -- enough for a small step
  have half : (2 : ℝ) ^ (k - p) = 2 ^ (k - p + 1) / 2 := by rw [zpow_add₀ (by norm_num)]; ring
  have hu : (0 : ℝ) < 2 ^ (k - p + 1) := by positivity
  rcases h0.lt_or_eq with h0 | h0
  · obtain ⟨j, h3, h4⟩ := exists_binade h0.ne'
    rw [abs_of_pos h0] at h3 h4
    have hj : j ≤ k := by
      have := (zpow_lt_zpow_iff_right₀ (a := (2 : ℝ)) (by norm_num)).1 (lt_of_le_of_lt h3 h2)
      omega
    have hv : (0 : ℝ) < 2 ^ (j - p + 1) := by positivity
    have hvu : (2 : ℝ) ^ (j - p + 1) ≤ 2 ^ (k - p + 1) := zpow_le_zpow_right₀ (by norm_num) (by omega)
    obtain ⟨n, hn⟩ : ∃ n : ℤ, t = n * 2 ^ (j - p + 1) := by
      have := rnd_of (p := p) (k := j) (x := t) (by rwa [abs_of_pos h0]) (by rwa [abs_of_pos h0])
      rw [rnd_rep hp ht] at this
      exact ⟨_, this⟩
    by_cases hb : t + d < 2 ^ (j + 1)
    · rw [rnd_of (k := j) (by rw [abs_of_pos (by linarith)]; linarith) (by rw [abs_of_pos (by linarith)]; exact hb)]
      have : (n : ℝ) < roundEven ((t + d) / 2 ^ (j - p + 1)) := by
        have herr := roundEven_err ((t + d) / 2 ^ (j - p + 1))
        rw [abs_le] at herr
        have : (n : ℝ) + 1 / 2 < (t + d) / 2 ^ (j - p + 1) := by
          rw [lt_div_iff₀ hv, hn, add_mul]
          linarith
        linarith
      have := mul_lt_mul_of_pos_right this hv
      rwa [← hn] at this
    · exact lt_of_lt_of_le h4 (le_rnd hp (rep_zpow _) (not_lt.1 hb))
  · subst h0
    rw [zero_add]
    have hd0 : 0 < d := lt_trans (by positivity) hd
    exact lt_of_lt_of_le (by positivity) (le_rnd hp (rep_zpow _) hd.le)

/-- Rounding error in terms of a bound on the number. -/
theorem rnd_err_of {p : ℕ} {x : ℝ} {k : ℤ} (h : |x| < 2 ^ (k + 1)) : |rnd p x - x| ≤ 2 ^ (k - p) := by
  by_cases h0 : x = 0
  · rw [h0, rnd_zero]; simp; positivity
  · obtain ⟨j, h1, h2⟩ := exists_binade h0
    have hj : j ≤ k := by
      have := (zpow_lt_zpow_iff_right₀ (a := (2 : ℝ)) (by norm_num)).1 (lt_of_le_of_lt h1 h)
      omega
    refine (rnd_err p x).trans ?_
    rw [ulp_of h1 h2, zpow_add₀ (by norm_num), zpow_one, mul_div_assoc, div_self (by norm_num), mul_one]
    exact zpow_le_zpow_right₀ (by norm_num) (by omega)

/-- Reducing a nonnegative number to its fractional part is exact. -/
theorem rep_fract {p : ℕ} {x : ℝ} (h : Rep p x) (h0 : 0 ≤ x) : Rep p (x - ⌊x⌋) := by
  obtain ⟨m, e, hm, rfl⟩ := h
  have hm0 : 0 ≤ m := by
    by_contra hc
    have : (m : ℝ) * 2 ^ e < 0 := mul_neg_of_neg_of_pos (by exact_mod_cast not_le.1 hc) (by positivity)
    linarith
  rcases le_or_gt 0 e with he | he
  · obtain ⟨d, rfl⟩ := Int.eq_ofNat_of_zero_le he
    have : (m : ℝ) * 2 ^ (d : ℤ) = ((m * 2 ^ d : ℤ) : ℝ) := by push_cast; rw [zpow_natCast]
    rw [this, Int.floor_intCast, sub_self]
    exact rep_zero
  · obtain ⟨d, hd⟩ := Int.eq_ofNat_of_zero_le (show 0 ≤ -e by omega)
    obtain rfl : e = -d := by omega
    have hx : (m : ℝ) * 2 ^ (-(d : ℤ)) = (m : ℝ) / 2 ^ d := by rw [zpow_neg, zpow_natCast, div_eq_mul_inv]
    have hfl : ⌊(m : ℝ) / 2 ^ d⌋ = m / 2 ^ d := by
      have := Rat.floor_intCast_div_natCast m (2 ^ d)
      rw [show ((m : ℝ) / 2 ^ d) = (((m : ℚ) / ((2 ^ d : ℕ) : ℚ) : ℚ) : ℝ) by push_cast; ring, Rat.floor_cast, this]
      push_cast; rfl
    refine ⟨m % 2 ^ d, -d, ?_, ?_⟩
    · rw [abs_of_nonneg (Int.emod_nonneg _ (by positivity))]
      refine le_trans ?_ hm
      rw [abs_of_nonneg hm0]
      rcases lt_or_ge m (2 ^ d) with h | h
      · rw [Int.emod_eq_of_lt hm0 h]
      · exact (Int.emod_lt_of_pos m (by positivity)).le.trans h
    · rw [hx, hfl, zpow_neg, zpow_natCast]
      have := Int.emod_add_mul_ediv m (2 ^ d)
      have h2 : (m : ℝ) = ((m % 2 ^ d : ℤ) : ℝ) + 2 ^ d * ((m / 2 ^ d : ℤ) : ℝ) := by exact_mod_cast this.symm
      field_simp
      linarith

end Fundsp.Fl
