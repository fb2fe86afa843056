import Verif.Wavetable.Shapes
import Verif.Wavetable.Make
import Mathlib.Analysis.SpecialFunctions.Integrals.Basic
import Mathlib.MeasureTheory.Integral.IntervalIntegral.FundThmCalculus

/-!
# The ready-made waveforms: specification and lemmas for properties C106 and C107
-/

noncomputable section
namespace Fundsp.Wt
open MeasureTheory

/-! ## Specification -/

/-- How loud a partial of frequency `f` is kept: fully up to 20 kHz, not at all from 22 kHz on, in between along the smooth curve `6 x ^ 5 - 15 x ^ 4 + 10 x ^ 3`. -/
def keep (f : ℝ) : ℝ :=
  if f ≤ 20000 then 1 else if 22000 ≤ f then 0 else
    6 * ((22000 - f) / 2000) ^ 5 - 15 * ((22000 - f) / 2000) ^ 4 + 10 * ((22000 - f) / 2000) ^ 3

/-- Fourier coefficients of a shape of period one: that of the sine, and of the cosine, of frequency `i`. -/
def sinCoef (shape : ℝ → ℝ) (i : Nat) : ℝ := 2 * ∫ x in (-1/2 : ℝ)..(1/2), shape x * Real.sin (2 * Real.pi * i * x)
def cosCoef (shape : ℝ → ℝ) (i : Nat) : ℝ := 2 * ∫ x in (-1/2 : ℝ)..(1/2), shape x * Real.cos (2 * Real.pi * i * x)

/-- The band-limited version of a spectrum at phase `x`, for a tone of frequency `p`: partial `i` contributes `s i` times a sine and `c i` times a cosine. -/
def banded (s c : Nat → ℝ) (p x : ℝ) : ℝ :=
  ∑ i ∈ Finset.Icc 1 ⌊22000 / p⌋₊, keep (i * p) * (s i * Real.sin (2 * Real.pi * i * x) + c i * Real.cos (2 * Real.pi * i * x))

/-- A table set has tables for the pitches `low * 2 ^ (k / d)` up to `high`. Each is, on its sample points, the band-limited version of the spectrum, in one common positive scale. -/
def PlaysBanded (low high d : ℝ) (t : Table) (s c : Nat → ℝ) : Prop :=
  ∃ z : ℝ, 0 < z ∧ (∀ k : Nat, k < t.length ↔ low * (2 : ℝ) ^ ((k : ℝ) / d) ≤ high) ∧
    ∀ k : Nat, k < t.length → ∃ wave : List ℝ, t[k]? = some (low * (2 : ℝ) ^ ((k : ℝ) / d), wave) ∧ 32 ≤ wave.length ∧
      ∀ n : Nat, n < wave.length → wave.getD n 0 = z * banded s c (low * (2 : ℝ) ^ ((k : ℝ) / d)) (n / wave.length)

/-- The saw rises from -1 to 1, through zero at phase zero. -/
def saw (x : ℝ) : ℝ := 2 * (Int.fract (x + 1 / 2) - 1 / 2)

/-- The square is 1 in the first half of the cycle and -1 in the second. -/
def square (x : ℝ) : ℝ := if Int.fract x < 1 / 2 then 1 else -1

/-- The triangle rises from 0 to 1 in the first quarter of the cycle, falls to -1 in the next two quarters and rises back to 0 in the last. -/
def triangle (x : ℝ) : ℝ := 1 - 4 * |Int.fract (x + 1 / 4) - 1 / 2|

/-! ## Lemmas -/

theorem keep_eq (p : ℝ) (amp : ℝ → Nat → ℝ) (i : Nat) : faded p amp i = amp p i * keep (i * p) := by
  unfold faded
  congr 1
  rw [mul_comm p]
  generalize (i : ℝ) * p = f
  unfold keep Math.clamp01 Math.delerp Math.smooth5
  split
  · rename_i h
    rw [show min (max ((f - 22000) / (20000 - 22000)) 0) 1 = 1 by
      refine min_eq_right (le_trans ?_ (le_max_left _ _)); rw [le_div_iff_of_neg (by norm_num)]; linarith]
    norm_num
  · rename_i h
    split
    · rename_i h2
      rw [show min (max ((f - 22000) / (20000 - 22000)) 0) 1 = 0 by
        rw [max_eq_right (div_nonpos_of_nonneg_of_nonpos (by linarith) (by norm_num)), min_eq_left (by norm_num)]]
      norm_num
    · rename_i h2
      rw [show min (max ((f - 22000) / (20000 - 22000)) 0) 1 = (22000 - f) / 2000 by
        rw [max_eq_left (div_nonneg_of_nonpos (by linarith) (by norm_num)), min_eq_left (by
          rw [div_le_iff_of_neg (by norm_num)]; push Not at h; linarith)]
        ring]
      ring

theorem keep_nonneg (f : ℝ) : 0 ≤ keep f := by
  unfold keep
  split
  · norm_num
  · split
    · exact le_rfl
    · rename_i h1 h2
      push Not at h1 h2
      have hx : 0 < (22000 - f) / 2000 := by apply div_pos <;> linarith
      generalize (22000 - f) / 2000 = x at hx
      have : 6 * x ^ 5 - 15 * x ^ 4 + 10 * x ^ 3 = x ^ 3 * (6 * (x - 5 / 4) ^ 2 + 5 / 8) := by ring
      rw [this]; positivity

theorem pow_quarter (k : Nat) : 20 * (2 : ℝ) ^ ((k : ℝ) / 4) ≤ 20000 ↔ k < 40 := by
  have h : ((2 : ℝ) ^ ((k : ℝ) / 4)) ^ 4 = 2 ^ k := by
    rw [← Real.rpow_natCast, ← Real.rpow_mul (by norm_num), ← Real.rpow_natCast]
    congr 1; push_cast; ring
  have hp : 0 < (2 : ℝ) ^ ((k : ℝ) / 4) := by positivity
  generalize (2 : ℝ) ^ ((k : ℝ) / 4) = y at h hp
  constructor
  · intro hy
    by_contra c
    have h1 : y ≤ 1000 := by linarith
    have h2 : y ^ 4 ≤ 1000 ^ 4 := pow_le_pow_left₀ hp.le h1 4
    have h3 : (2 : ℝ) ^ 40 ≤ 2 ^ k := pow_le_pow_right₀ (by norm_num) (by omega)
    rw [← h] at h3
    norm_num at h2 h3
    linarith
  · intro hk
    by_contra c
    push Not at c
    have h1 : 1000 < y := by linarith
    have h2 : (1000 : ℝ) ^ 4 < y ^ 4 := pow_lt_pow_left₀ h1 (by norm_num) (by norm_num)
    have h3 : (2 : ℝ) ^ k ≤ 2 ^ 39 := pow_le_pow_right₀ (by norm_num) (by omega)
    rw [← h] at h3
    norm_num at h2 h3
    linarith

theorem harmonics_low {low : ℝ} (hl : 0 < low) (d : ℝ) (hd : 0 < d) (k : Nat) : harmonics (low * (2 : ℝ) ^ ((k : ℝ) / d)) ≤ harmonics low :=
  harmonics_anti hl (le_mul_of_one_le_right hl.le (Real.one_le_rpow (by norm_num) (by positivity)))

/-- The tables made from phases and amplitudes that are nonnegative play the spectrum with these phases and amplitudes. -/
theorem plays_of (low high d : ℝ) (hlow : 0 < low) (hh : harmonics low < 8192) (hd : 0 < d)
    (phase : Nat → ℝ) (amp : ℝ → Nat → ℝ) (amp' : Nat → ℝ) (ha : ∀ p i, 1 ≤ i → amp p i = amp' i) (hn : ∀ i, 1 ≤ i → 0 ≤ amp' i)
    (s c : Nat → ℝ) (K : ℝ) (hK : 0 < K) (hs : ∀ i, 1 ≤ i → K * s i = amp' i * Real.cos (2 * Real.pi * phase i))
    (hc : ∀ i, 1 ≤ i → K * c i = amp' i * Real.sin (2 * Real.pi * phase i)) :
    ∃ t M, (∀ m, M ≤ m → new m low high d phase amp = some t) ∧ PlaysBanded low high d t s c := by
  obtain ⟨t, M, z, h1, hz, h2, h3⟩ := C62_new low high d phase amp hlow hh hd
  refine ⟨t, M, h1, z * K, mul_pos hz hK, h2, fun k hk => ?_⟩
  obtain ⟨wave, hw, ht⟩ := h3 k hk
  have hlow := (harmonics_low hlow d hd k).trans_lt hh
  generalize low * (2 : ℝ) ^ ((k : ℝ) / d) = p at hw ht hlow
  obtain ⟨wave', hw', hlen, hv⟩ := C62_wave_partial p phase amp hlow
  rw [hw] at hw'
  cases hw'
  refine ⟨_, ht, ?_, fun n hn' => ?_⟩
  · rw [List.length_map, hlen]; exact (C62_length p).2.1
  · rw [List.length_map] at hn' ⊢
    rw [List.getD_eq_getElem?_getD, List.getElem?_map]
    have e := hv n hn'
    rw [List.getD_eq_getElem?_getD] at e
    rw [List.getElem?_eq_getElem hn'] at e ⊢
    simp only [Option.map_some, Option.getD_some] at e ⊢
    rw [e]
    unfold banded
    change _ = z * K * ∑ i ∈ Finset.Icc 1 (harmonics p), _
    rw [mul_comm _ z, mul_assoc]
    congr 1
    rw [Finset.mul_sum]
    refine Finset.sum_congr rfl fun i hi => ?_
    have hi1 : 1 ≤ i := (Finset.mem_Icc.1 hi).1
    rw [keep_eq, ha p i hi1, max_eq_right (mul_nonneg (hn i hi1) (keep_nonneg _)), mul_add (2 * Real.pi), Real.sin_add]
    have a1 := hs i hi1
    have a2 := hc i hi1
    rw [show (2 * Real.pi * i * ((n : ℝ) / wave.length)) = 2 * Real.pi * ((i : ℝ) * n / wave.length) by ring]
    generalize Real.sin (2 * Real.pi * ((i : ℝ) * n / wave.length)) = S
    generalize Real.cos (2 * Real.pi * ((i : ℝ) * n / wave.length)) = C
    linear_combination (-keep (i * p) * S) * a1 - keep (i * p) * C * a2

/-! ## Fourier coefficients of the shapes -/

theorem sin_int_half (i : Nat) : Real.sin (Real.pi * i) = 0 := by rw [mul_comm]; exact Real.sin_nat_mul_pi i
theorem cos_int_half (i : Nat) : Real.cos (Real.pi * i) = (-1) ^ i := by rw [mul_comm]; exact Real.cos_nat_mul_pi i

/-- On the period around zero. -/
theorem saw_eq {x : ℝ} (h0 : -1/2 ≤ x) (h1 : x < 1/2) : saw x = 2 * x := by
  unfold saw; rw [Int.fract_eq_self.2 ⟨by linarith, by linarith⟩]; ring

theorem square_pos {x : ℝ} (h0 : 0 ≤ x) (h1 : x < 1/2) : square x = 1 := by
  unfold square; rw [Int.fract_eq_self.2 ⟨h0, by linarith⟩, if_pos h1]

theorem square_neg {x : ℝ} (h0 : -1/2 ≤ x) (h1 : x < 0) : square x = -1 := by
  unfold square
  rw [← Int.fract_add_one x, Int.fract_eq_self.2 ⟨by linarith, by linarith⟩, if_neg (by linarith)]

theorem triangle_mid {x : ℝ} (h0 : -1/4 ≤ x) (h1 : x ≤ 1/4) : triangle x = 4 * x := by
  unfold triangle
  rw [Int.fract_eq_self.2 ⟨by linarith, by linarith⟩, abs_of_nonpos (by linarith)]; ring

theorem triangle_right {x : ℝ} (h0 : 1/4 ≤ x) (h1 : x ≤ 1/2) : triangle x = 2 - 4 * x := by
  unfold triangle
  rw [Int.fract_eq_self.2 ⟨by linarith, by linarith⟩, abs_of_nonneg (by linarith)]; ring

theorem triangle_left {x : ℝ} (h0 : -1/2 ≤ x) (h1 : x < -1/4) : triangle x = -2 - 4 * x := by
  unfold triangle
  rw [← Int.fract_add_one, Int.fract_eq_self.2 ⟨by linarith, by linarith⟩, abs_of_nonneg (by linarith)]; ring

/-- Integrals of an affine function against sine and cosine. -/
theorem int_sin (a b : ℝ) {w : ℝ} (hw : w ≠ 0) (u v : ℝ) :
    ∫ x in u..v, (a * x + b) * Real.sin (w * x) =
      (-(a * v + b) * Real.cos (w * v) / w + a * Real.sin (w * v) / w ^ 2) - (-(a * u + b) * Real.cos (w * u) / w + a * Real.sin (w * u) / w ^ 2) := by
  refine intervalIntegral.integral_eq_sub_of_hasDerivAt (f := fun x => -(a * x + b) * Real.cos (w * x) / w + a * Real.sin (w * x) / w ^ 2) (fun x _ => ?_) ?_
  · have h1 : HasDerivAt (fun x : ℝ => w * x) w x := by simpa using (hasDerivAt_id x).const_mul w
    have h2 : HasDerivAt (fun x : ℝ => -(a * x + b)) (-a) x := by
      exact ((((hasDerivAt_id x).const_mul a).add_const b).neg).congr_deriv (by simp)
    refine HasDerivAt.congr_deriv (((h2.mul h1.cos).div_const w).add (((h1.sin).const_mul a).div_const (w ^ 2))) ?_
    field_simp
    ring
  · exact (Continuous.intervalIntegrable (by fun_prop) _ _)

theorem int_cos (a b : ℝ) {w : ℝ} (hw : w ≠ 0) (u v : ℝ) :
    ∫ x in u..v, (a * x + b) * Real.cos (w * x) =
      ((a * v + b) * Real.sin (w * v) / w + a * Real.cos (w * v) / w ^ 2) - ((a * u + b) * Real.sin (w * u) / w + a * Real.cos (w * u) / w ^ 2) := by
  refine intervalIntegral.integral_eq_sub_of_hasDerivAt (f := fun x => (a * x + b) * Real.sin (w * x) / w + a * Real.cos (w * x) / w ^ 2) (fun x _ => ?_) ?_
  · have h1 : HasDerivAt (fun x : ℝ => w * x) w x := by simpa using (hasDerivAt_id x).const_mul w
    have h2 : HasDerivAt (fun x : ℝ => (a * x + b)) a x := by
      exact (((hasDerivAt_id x).const_mul a).add_const b).congr_deriv (by simp)
    refine HasDerivAt.congr_deriv (((h2.mul h1.sin).div_const w).add (((h1.cos).const_mul a).div_const (w ^ 2))) ?_
    field_simp
    ring
  · exact (Continuous.intervalIntegrable (by fun_prop) _ _)

/-- The integral of a shape that is affine on an open interval, against a continuous function. -/
theorem piece (shape g : ℝ → ℝ) (a b u v : ℝ) (huv : u ≤ v) (hg : Continuous g) (h : ∀ x, u < x → x < v → shape x = a * x + b) :
    IntervalIntegrable (fun x => shape x * g x) volume u v ∧ ∫ x in u..v, shape x * g x = ∫ x in u..v, (a * x + b) * g x := by
  have hi : IntervalIntegrable (fun x => (a * x + b) * g x) volume u v := Continuous.intervalIntegrable (by fun_prop) _ _
  have hae : ∀ᵐ x ∂(volume.restrict (Set.uIoc u v)), shape x * g x = (a * x + b) * g x := by
    rw [Set.uIoc_of_le huv, MeasureTheory.ae_restrict_iff' measurableSet_Ioc]
    have hne : ∀ᵐ x ∂(volume : Measure ℝ), x ≠ v := by simp [MeasureTheory.ae_iff]
    filter_upwards [hne] with x hx hm
    rw [h x hm.1 (lt_of_le_of_ne hm.2 hx)]
  exact ⟨(intervalIntegrable_congr_ae hae).2 hi, intervalIntegral.integral_congr_ae_restrict hae⟩

theorem w_pos {i : Nat} (hi : 1 ≤ i) : 2 * Real.pi * i ≠ 0 := by
  have : (0 : ℝ) < i := by exact_mod_cast hi
  have := Real.pi_pos
  positivity

theorem saw_sin (i : Nat) (hi : 1 ≤ i) : sinCoef saw i = -(2 / Real.pi) * (-1) ^ i / i := by
  unfold sinCoef
  have hw := w_pos hi
  rw [(piece saw (fun x => Real.sin (2 * Real.pi * i * x)) 2 0 (-1/2) (1/2) (by norm_num) (by fun_prop) (fun x h0 h1 => by rw [saw_eq h0.le h1, add_zero])).2,
    int_sin 2 0 hw]
  rw [show 2 * Real.pi * i * (1/2) = Real.pi * i by ring, show 2 * Real.pi * i * (-1/2) = -(Real.pi * i) by ring, Real.cos_neg, Real.sin_neg, sin_int_half, cos_int_half]
  have : (i : ℝ) ≠ 0 := by positivity
  field_simp
  ring

theorem saw_cos (i : Nat) (hi : 1 ≤ i) : cosCoef saw i = 0 := by
  unfold cosCoef
  have hw := w_pos hi
  rw [(piece saw (fun x => Real.cos (2 * Real.pi * i * x)) 2 0 (-1/2) (1/2) (by norm_num) (by fun_prop) (fun x h0 h1 => by rw [saw_eq h0.le h1, add_zero])).2,
    int_cos 2 0 hw]
  rw [show 2 * Real.pi * i * (1/2) = Real.pi * i by ring, show 2 * Real.pi * i * (-1/2) = -(Real.pi * i) by ring, Real.cos_neg, Real.sin_neg, sin_int_half, cos_int_half]
  ring

theorem square_sin (i : Nat) (hi : 1 ≤ i) : sinCoef square i = (2 / Real.pi) * (1 - (-1) ^ i) / i := by
  unfold sinCoef
  have hw := w_pos hi
  have a := piece square (fun x => Real.sin (2 * Real.pi * i * x)) 0 (-1) (-1/2) 0 (by norm_num) (by fun_prop) (fun x h0 h1 => by rw [square_neg h0.le h1]; ring)
  have b := piece square (fun x => Real.sin (2 * Real.pi * i * x)) 0 1 0 (1/2) (by norm_num) (by fun_prop) (fun x h0 h1 => by rw [square_pos h0.le h1]; ring)
  rw [← intervalIntegral.integral_add_adjacent_intervals a.1 b.1, a.2, b.2, int_sin _ _ hw, int_sin _ _ hw]
  rw [show 2 * Real.pi * i * (1/2) = Real.pi * i by ring, show 2 * Real.pi * i * (-1/2) = -(Real.pi * i) by ring, Real.cos_neg, Real.sin_neg, sin_int_half, cos_int_half,
    mul_zero (2 * Real.pi * (i : ℝ)), Real.cos_zero, Real.sin_zero]
  have : (i : ℝ) ≠ 0 := by positivity
  field_simp
  ring

theorem square_cos (i : Nat) (hi : 1 ≤ i) : cosCoef square i = 0 := by
  unfold cosCoef
  have hw := w_pos hi
  have a := piece square (fun x => Real.cos (2 * Real.pi * i * x)) 0 (-1) (-1/2) 0 (by norm_num) (by fun_prop) (fun x h0 h1 => by rw [square_neg h0.le h1]; ring)
  have b := piece square (fun x => Real.cos (2 * Real.pi * i * x)) 0 1 0 (1/2) (by norm_num) (by fun_prop) (fun x h0 h1 => by rw [square_pos h0.le h1]; ring)
  rw [← intervalIntegral.integral_add_adjacent_intervals a.1 b.1, a.2, b.2, int_cos _ _ hw, int_cos _ _ hw]
  rw [show 2 * Real.pi * i * (1/2) = Real.pi * i by ring, show 2 * Real.pi * i * (-1/2) = -(Real.pi * i) by ring, Real.cos_neg, Real.sin_neg, sin_int_half, cos_int_half,
    mul_zero (2 * Real.pi * (i : ℝ)), Real.cos_zero, Real.sin_zero]
  ring

theorem triangle_pieces (g : ℝ → ℝ) (hg : Continuous g) :
    ∫ x in (-1/2 : ℝ)..(1/2), triangle x * g x = (∫ x in (-1/2 : ℝ)..(-1/4), (-4 * x + -2) * g x) + (∫ x in (-1/4 : ℝ)..(1/4), (4 * x + 0) * g x) +
      ∫ x in (1/4 : ℝ)..(1/2), (-4 * x + 2) * g x := by
  have a := piece triangle g (-4) (-2) (-1/2) (-1/4) (by norm_num) hg (fun x h0 h1 => by rw [triangle_left h0.le h1]; ring)
  have b := piece triangle g 4 0 (-1/4) (1/4) (by norm_num) hg (fun x h0 h1 => by rw [triangle_mid h0.le h1.le]; ring)
  have c := piece triangle g (-4) 2 (1/4) (1/2) (by norm_num) hg (fun x h0 h1 => by rw [triangle_right h0.le h1.le]; ring)
  rw [← intervalIntegral.integral_add_adjacent_intervals (a.1.trans b.1) c.1, ← intervalIntegral.integral_add_adjacent_intervals a.1 b.1, a.2, b.2, c.2]

theorem triangle_sin (i : Nat) (hi : 1 ≤ i) : sinCoef triangle i = (8 / Real.pi ^ 2) * Real.sin (Real.pi * i / 2) / i ^ 2 := by
  unfold sinCoef
  have hw := w_pos hi
  rw [triangle_pieces _ (by fun_prop), int_sin _ _ hw, int_sin _ _ hw, int_sin _ _ hw]
  rw [show 2 * Real.pi * i * (1/2) = Real.pi * i by ring, show 2 * Real.pi * i * (-1/2) = -(Real.pi * i) by ring,
    show 2 * Real.pi * i * (1/4) = Real.pi * i / 2 by ring, show 2 * Real.pi * i * (-1/4) = -(Real.pi * i / 2) by ring,
    Real.cos_neg, Real.cos_neg, Real.sin_neg, Real.sin_neg, sin_int_half, cos_int_half]
  have : (i : ℝ) ≠ 0 := by positivity
  field_simp
  ring

theorem triangle_cos (i : Nat) (hi : 1 ≤ i) : cosCoef triangle i = 0 := by
  unfold cosCoef
  have hw := w_pos hi
  rw [triangle_pieces _ (by fun_prop), int_cos _ _ hw, int_cos _ _ hw, int_cos _ _ hw]
  rw [show 2 * Real.pi * i * (1/2) = Real.pi * i by ring, show 2 * Real.pi * i * (-1/2) = -(Real.pi * i) by ring,
    show 2 * Real.pi * i * (1/4) = Real.pi * i / 2 by ring, show 2 * Real.pi * i * (-1/4) = -(Real.pi * i / 2) by ring,
    Real.cos_neg, Real.cos_neg, Real.sin_neg, Real.sin_neg, sin_int_half, cos_int_half]
  ring

end Fundsp.Wt
