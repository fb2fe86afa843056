import Verif.Filter.Stable
import Mathlib.Analysis.SpecialFunctions.Trigonometric.Series
import Mathlib.Analysis.SpecialFunctions.Trigonometric.DerivHyp

/-!
# C110: lemmas on the shapes of filter responses

On the unit circle `(z - 1) / (z + 1)` is `i tan(θ / 2)`, which turns each response of the state variable filter into that of its
analog prototype at the frequency `tan(π f / sr) / tan(π cutoff / sr)`.
-/

noncomputable section
namespace Fundsp.Filter
open _root_.Filter Topology

theorem half_angle {φ : ℝ} (hc : Real.cos φ ≠ 0) : polar (2 * φ) + 1 ≠ 0 ∧ polar (2 * φ) - 1 = Complex.I * (Real.tan φ : ℂ) * (polar (2 * φ) + 1) := by
  have hz : polar (2 * φ) = ((Real.cos φ : ℂ) + (Real.sin φ : ℂ) * Complex.I) ^ 2 := by
    unfold polar
    rw [Complex.ofReal_cos, Complex.ofReal_sin, ← Complex.exp_mul_I, ← Complex.exp_nat_mul]
    congr 1; push_cast; ring
  have h1 : ((Real.cos φ : ℂ)) ^ 2 + (Real.sin φ : ℂ) ^ 2 = 1 := by
    rw [← Complex.ofReal_pow, ← Complex.ofReal_pow, ← Complex.ofReal_add, Real.cos_sq_add_sin_sq]; simp
  have hcc : (Real.cos φ : ℂ) ≠ 0 := Complex.ofReal_ne_zero.2 hc
  have hp : polar (2 * φ) + 1 = 2 * (Real.cos φ : ℂ) * ((Real.cos φ : ℂ) + (Real.sin φ : ℂ) * Complex.I) := by
    rw [hz]; linear_combination -h1 + (Real.sin φ : ℂ) ^ 2 * Complex.I_sq
  constructor
  · rw [hp]
    refine mul_ne_zero (mul_ne_zero two_ne_zero hcc) fun h => ?_
    have : polar (2 * φ) = 0 := by rw [hz, h]; simp
    exact polar_ne _ this
  · rw [hp, hz, Real.tan_eq_sin_div_cos]
    push_cast
    push_cast at h1 hcc
    field_simp
    linear_combination h1 - (Complex.sin φ : ℂ) ^ 2 * Complex.I_sq

/-- Frequency of the analog prototype that stands for `f`, in units of the cutoff. -/
def proto (sr cutoff f : ℝ) : ℝ := Real.tan (Real.pi * f / sr) / Real.tan (Real.pi * cutoff / sr)

section
variable {sr c f : ℝ}

theorem half_lt (hc : 0 ≤ c) (hsr : 2 * c < sr) : 0 ≤ Real.pi * c / sr ∧ Real.pi * c / sr < Real.pi / 2 := by
  have h0 : 0 < sr := by linarith
  have := Real.pi_pos
  refine ⟨by positivity, ?_⟩
  rw [div_lt_div_iff₀ h0 two_pos]; nlinarith

theorem proto_nonneg (hc : 0 < c) (hsr : 2 * c < sr) (hf : 0 ≤ f) (hf' : 2 * f < sr) : 0 ≤ proto sr c f := by
  obtain ⟨a, b⟩ := half_lt hf hf'
  exact div_nonneg (Real.tan_nonneg_of_nonneg_of_le_pi_div_two a b.le) (C44_svf_cutoff hc hsr).le

theorem proto_zero : proto sr c 0 = 0 := by unfold proto; simp

theorem proto_cutoff (hc : 0 < c) (hsr : 2 * c < sr) : proto sr c c = 1 := div_self (C44_svf_cutoff hc hsr).ne'

theorem proto_lt {f' : ℝ} (hc : 0 < c) (hsr : 2 * c < sr) (hf : 0 ≤ f) (hlt : f < f') (hf' : 2 * f' < sr) : proto sr c f < proto sr c f' := by
  have h0 : 0 < sr := by linarith
  have hpi := Real.pi_pos
  obtain ⟨a, b⟩ := half_lt hf (by linarith : 2 * f < sr)
  obtain ⟨a', b'⟩ := half_lt (by linarith : 0 ≤ f') hf'
  refine div_lt_div_of_pos_right (Real.tan_lt_tan_of_lt_of_lt_pi_div_two (by linarith) b' ?_) (C44_svf_cutoff hc hsr)
  gcongr

/-- A quotient of responses in the analog frequency. -/
theorem analog {g : ℝ} (hg : 0 < g) {φ : ℝ} (hφ : Real.cos φ ≠ 0) (n0 n1 n2 d0 d1 d2 : ℝ) :
    ((n2 : ℂ) * ((polar (2 * φ) - 1) * (polar (2 * φ) - 1)) + n1 * (g * ((polar (2 * φ) - 1) * (polar (2 * φ) + 1))) + n0 * (g * g * ((polar (2 * φ) + 1) * (polar (2 * φ) + 1))))
      / ((d2 : ℂ) * ((polar (2 * φ) - 1) * (polar (2 * φ) - 1)) + d1 * (g * ((polar (2 * φ) - 1) * (polar (2 * φ) + 1))) + d0 * (g * g * ((polar (2 * φ) + 1) * (polar (2 * φ) + 1))))
    = (((n0 - n2 * (Real.tan φ / g) ^ 2 : ℝ) : ℂ) + ((n1 * (Real.tan φ / g) : ℝ) : ℂ) * Complex.I) /
      (((d0 - d2 * (Real.tan φ / g) ^ 2 : ℝ) : ℂ) + ((d1 * (Real.tan φ / g) : ℝ) : ℂ) * Complex.I) := by
  obtain ⟨hu, hm⟩ := half_angle hφ
  rw [hm]
  generalize polar (2 * φ) + 1 = u at *
  generalize Real.tan φ = t
  have hgc : (g : ℂ) ≠ 0 := Complex.ofReal_ne_zero.2 hg.ne'
  have e : ∀ m0 m1 m2 : ℝ, (m2 : ℂ) * (Complex.I * (t : ℂ) * u * (Complex.I * (t : ℂ) * u)) + m1 * (g * (Complex.I * (t : ℂ) * u * u)) + m0 * (g * g * (u * u)) =
      (g * g * (u * u)) * (((m0 - m2 * (t / g) ^ 2 : ℝ) : ℂ) + ((m1 * (t / g) : ℝ) : ℂ) * Complex.I) := by
    intro m0 m1 m2
    push_cast
    field_simp
    linear_combination (m2 : ℂ) * t ^ 2 * Complex.I_sq
  rw [e, e, mul_div_mul_left _ _ (mul_ne_zero (mul_ne_zero hgc hgc) (mul_ne_zero hu hu))]

theorem normSq_quot (a b c d : ℝ) : Complex.normSq (((a : ℝ) : ℂ) + (b : ℝ) * Complex.I) / Complex.normSq (((c : ℝ) : ℂ) + (d : ℝ) * Complex.I) = (a ^ 2 + b ^ 2) / (c ^ 2 + d ^ 2) := by
  rw [Complex.normSq_add_mul_I, Complex.normSq_add_mul_I]

theorem power_analog {g : ℝ} (hg : 0 < g) {φ : ℝ} (hφ : Real.cos φ ≠ 0) (n0 n1 n2 d0 d1 d2 : ℝ) :
    Complex.normSq (((n2 : ℂ) * ((polar (2 * φ) - 1) * (polar (2 * φ) - 1)) + n1 * (g * ((polar (2 * φ) - 1) * (polar (2 * φ) + 1))) + n0 * (g * g * ((polar (2 * φ) + 1) * (polar (2 * φ) + 1))))
      / ((d2 : ℂ) * ((polar (2 * φ) - 1) * (polar (2 * φ) - 1)) + d1 * (g * ((polar (2 * φ) - 1) * (polar (2 * φ) + 1))) + d0 * (g * g * ((polar (2 * φ) + 1) * (polar (2 * φ) + 1)))))
    = ((n0 - n2 * (Real.tan φ / g) ^ 2) ^ 2 + (n1 * (Real.tan φ / g)) ^ 2) / ((d0 - d2 * (Real.tan φ / g) ^ 2) ^ 2 + (d1 * (Real.tan φ / g)) ^ 2) := by
  rw [analog hg hφ, Complex.normSq_div, normSq_quot]

theorem power_form {g : ℝ} (hg : 0 < g) {φ : ℝ} (hφ : Real.cos φ ≠ 0) (n0 n1 n2 d0 d1 d2 : ℝ) {N D : ℂ}
    (hN : N = (n2 : ℂ) * ((polar (2 * φ) - 1) * (polar (2 * φ) - 1)) + n1 * (g * ((polar (2 * φ) - 1) * (polar (2 * φ) + 1))) + n0 * (g * g * ((polar (2 * φ) + 1) * (polar (2 * φ) + 1))))
    (hD : D = (d2 : ℂ) * ((polar (2 * φ) - 1) * (polar (2 * φ) - 1)) + d1 * (g * ((polar (2 * φ) - 1) * (polar (2 * φ) + 1))) + d0 * (g * g * ((polar (2 * φ) + 1) * (polar (2 * φ) + 1)))) :
    Complex.normSq (N / D) = ((n0 - n2 * (Real.tan φ / g) ^ 2) ^ 2 + (n1 * (Real.tan φ / g)) ^ 2) / ((d0 - d2 * (Real.tan φ / g) ^ 2) ^ 2 + (d1 * (Real.tan φ / g)) ^ 2) := by
  rw [hN, hD, power_analog hg hφ]

theorem cos_half_ne (hf : 0 ≤ f) (hf' : 2 * f < sr) : Real.cos (Real.pi * f / sr) ≠ 0 := by
  obtain ⟨a, b⟩ := half_lt hf hf'
  exact (Real.cos_pos_of_mem_Ioo ⟨by linarith [Real.pi_pos], b⟩).ne'

theorem phaseStep_half (f sr : ℝ) : phaseStep f sr = 2 * (Real.pi * f / sr) := by unfold phaseStep; ring

theorem phaseStep_top (hsr : sr ≠ 0) : polar (phaseStep (sr / 2) sr) = -1 := by
  have : phaseStep (sr / 2) sr = Real.pi := by unfold phaseStep; field_simp
  rw [this]; unfold polar; exact Complex.exp_pi_mul_I

end

/-! ## First order -/

theorem normSq_pole (a b θ : ℝ) : Complex.normSq ((a : ℂ) + (b : ℂ) * polar (-θ)) = a ^ 2 + b ^ 2 + 2 * a * b * Real.cos θ := by
  have e : (a : ℂ) + (b : ℂ) * polar (-θ) = ((a + b * Real.cos θ : ℝ) : ℂ) + ((-(b * Real.sin θ) : ℝ) : ℂ) * Complex.I := by
    unfold polar
    rw [Complex.exp_mul_I]
    push_cast
    rw [Complex.cos_neg, Complex.sin_neg]; ring
  rw [e, Complex.normSq_add_mul_I]
  have := Real.sin_sq_add_cos_sq θ
  linear_combination b ^ 2 * this

theorem normSq_one_pole (c θ : ℝ) : Complex.normSq (1 - (c : ℂ) * polar (-θ)) = 1 - 2 * c * Real.cos θ + c ^ 2 := by
  have := normSq_pole 1 (-c) θ
  rw [show (1 : ℂ) - (c : ℂ) * polar (-θ) = ((1 : ℝ) : ℂ) + ((-c : ℝ) : ℂ) * polar (-θ) by push_cast; ring, this]; ring

theorem lowpole_power (c θ : ℝ) : Complex.normSq (lowpoleResponse c θ) = (1 - c) ^ 2 / (1 - 2 * c * Real.cos θ + c ^ 2) := by
  unfold lowpoleResponse
  rw [Complex.normSq_div, normSq_one_pole, show (1 : ℂ) - (c : ℂ) = ((1 - c : ℝ) : ℂ) by push_cast; ring, Complex.normSq_ofReal]
  congr 1; ring

theorem dcblock_power (c θ : ℝ) : Complex.normSq (dcblockResponse c θ) = 2 * (1 - Real.cos θ) / (1 - 2 * c * Real.cos θ + c ^ 2) := by
  unfold dcblockResponse
  have := normSq_one_pole 1 θ
  rw [Complex.ofReal_one, one_mul] at this
  rw [Complex.normSq_div, normSq_one_pole, this]
  congr 1; ring

theorem highpole_power (c θ : ℝ) : Complex.normSq (highpoleResponse c θ) = 2 * c ^ 2 * (1 - Real.cos θ) / (1 - 2 * c * Real.cos θ + c ^ 2) := by
  unfold highpoleResponse
  have := normSq_one_pole 1 θ
  rw [Complex.ofReal_one, one_mul] at this
  rw [Complex.normSq_div, normSq_one_pole, Complex.normSq_mul, this, Complex.normSq_ofReal]
  congr 1; ring

theorem one_pole_pos {c : ℝ} (hc : |c| < 1) (θ : ℝ) : 0 < 1 - 2 * c * Real.cos θ + c ^ 2 := by
  rw [abs_lt] at hc
  have h1 := Real.cos_le_one θ
  have h2 := Real.neg_one_le_cos θ
  rcases le_total 0 c with h | h
  · nlinarith [pow_pos (by linarith : 0 < 1 - c) 2, mul_nonneg h (by linarith : 0 ≤ 1 - Real.cos θ)]
  · nlinarith [pow_pos (by linarith : 0 < 1 + c) 2, mul_nonneg (by linarith : 0 ≤ -c) (by linarith : 0 ≤ 1 + Real.cos θ)]

end Fundsp.Filter
