import Verif.Filter.SvfResponse
import Mathlib.Analysis.Complex.Trigonometric
import Mathlib.Analysis.SpecialFunctions.Artanh

/-! C65: filter design. Coefficient formulas are those of the code, for every sample rate, frequency below half of it, Q and gain. -/

namespace Fundsp.Filter
open _root_.Filter Topology

/-- `BiquadCoefs::butter_lowpass`: `biquad.rs:32-42`. -/
noncomputable def butterLowpass (sr cutoff : ℝ) : BiquadCoefs ℝ :=
  let f := Real.tan (cutoff * Real.pi / sr)
  let a0r := 1 / (1 + √2 * f + f * f)
  let b0 := f * f * a0r
  ⟨(2 * f * f - 2) * a0r, (1 - √2 * f + f * f) * a0r, b0, 2 * b0, b0⟩

/-- `BiquadCoefs::resonator`: `biquad.rs:48-57`. -/
noncomputable def resonatorCoefs (sr center q : ℝ) : BiquadCoefs ℝ :=
  let r := Real.exp (-Real.pi * center / (q * sr))
  let b0 := √(1 - r * r) * (1 / 2)
  ⟨-2 * r * Real.cos (2 * Real.pi * center / sr), r * r, b0, 0, -b0⟩

/-- `BiquadCoefs::lowpass`: `biquad.rs:62-74`. -/
noncomputable def lowpassCoefs (sr cutoff q : ℝ) : BiquadCoefs ℝ :=
  let omega := 2 * Real.pi * cutoff / sr
  let alpha := Real.sin omega / (2 * q)
  let beta := Real.cos omega
  let a0r := 1 / (1 + alpha)
  let b1 := (1 - beta) * a0r
  let b0 := b1 * (1 / 2)
  ⟨-2 * beta * a0r, (1 - alpha) * a0r, b0, b1, b0⟩

/-- `BiquadCoefs::highpass`: `biquad.rs:79-91`. -/
noncomputable def highpassCoefs (sr cutoff q : ℝ) : BiquadCoefs ℝ :=
  let omega := 2 * Real.pi * cutoff / sr
  let alpha := Real.sin omega / (2 * q)
  let beta := Real.cos omega
  let a0r := 1 / (1 + alpha)
  let b0 := (1 + beta) * (1 / 2) * a0r
  ⟨-2 * beta * a0r, (1 - alpha) * a0r, b0, (-1 - beta) * a0r, b0⟩

/-- `BiquadCoefs::bell`: `biquad.rs:97-111`. -/
noncomputable def bellCoefs (sr center q gain : ℝ) : BiquadCoefs ℝ :=
  let omega := 2 * Real.pi * center / sr
  let alpha := Real.sin omega / (2 * q)
  let beta := Real.cos omega
  let a := √gain
  let a0r := 1 / (1 + alpha / a)
  let a1 := -2 * beta * a0r
  ⟨a1, (1 - alpha / a) * a0r, (1 + alpha * a) * a0r, a1, (1 - alpha * a) * a0r⟩

/-! ## Specification -/

/-- Coefficients in the open stability triangle: both poles are strictly inside the unit circle. -/
def Stable (c : BiquadCoefs ℝ) : Prop := |c.a2| < 1 ∧ |c.a1| < 1 + c.a2

/-- The gain `H` of a running filter at `f` Hz, whatever state it starts from. -/
def GainAt (n : Node ℝ 1 1) (sr f : ℝ) (H : ℂ) : Prop := HasResponse n (fun _ => True) (phaseStep f sr) H

/-- Whatever the state, the output dies out when the input does. -/
def DiesOut (n : Node ℝ 1 1) : Prop :=
  ∀ (s : n.σ) (x : Nat → Frame ℝ 1), Tendsto (fun k => x k 0) atTop (𝓝 0) → Tendsto (fun k => n.ticks.out s x k 0) atTop (𝓝 0)

theorem HasResponse.diesOut {n : Node ℝ 1 1} {θ : ℝ} {H : ℂ} (h : HasResponse n (fun _ => True) θ H) : DiesOut n := by
  obtain ⟨G, hG⟩ := h
  intro s x hx
  have := hG s x 0 0 trivial (by unfold AsympExp; simpa using hx)
  unfold AsympExp at this
  simpa using this

/-- **C65.** Every biquad in the stability triangle forgets its state: the output dies out with the input. -/
theorem C65_biquad_dies_out {c : BiquadCoefs ℝ} (h : Stable c) : DiesOut (biquadNode c) := (C44_biquad c h.1 h.2 0).diesOut

/-- **C65.** Likewise the state variable filters. -/
theorem C65_svf_dies_out {g k : ℝ} (hg : 0 < g) (hk : 0 < k) (m0 m1 m2 : ℝ) : DiesOut (svfNode (svfCoefs g k m0 m1 m2)) :=
  (svf_response hg hk 0 (div_mul_cancel₀ _ (svfDen_ne hg hk 0))).diesOut

/-! ## Stability of the designs -/

theorem stable_of_alpha {α β : ℝ} (hα : 0 < α) (hβ : |β| < 1) : |(1 - α) * (1 / (1 + α))| < 1 ∧ |-2 * β * (1 / (1 + α))| < 1 + (1 - α) * (1 / (1 + α)) := by
  have hD : 0 < 1 + α := by linarith
  constructor
  · rw [mul_one_div, abs_lt, lt_div_iff₀ hD, div_lt_iff₀ hD]; constructor <;> linarith
  · have e : 1 + (1 - α) * (1 / (1 + α)) = 2 / (1 + α) := by field_simp; ring
    rw [e, mul_one_div, abs_div, abs_of_pos hD]
    refine div_lt_div_of_pos_right ?_ hD
    rw [abs_mul, abs_neg, abs_two]; linarith

section
variable {sr f q : ℝ} (hf : 0 < f) (hsr : 2 * f < sr)
include hf hsr

theorem omega_sin_pos : 0 < Real.sin (2 * Real.pi * f / sr) := by
  have h0 : 0 < sr := by linarith
  have := Real.pi_pos
  refine Real.sin_pos_of_pos_of_lt_pi (by positivity) ?_
  rw [div_lt_iff₀ h0]; nlinarith

theorem omega_cos_lt : |Real.cos (2 * Real.pi * f / sr)| < 1 := by
  have h := omega_sin_pos hf hsr
  have e := Real.sin_sq_add_cos_sq (2 * Real.pi * f / sr)
  rw [← sq_lt_one_iff_abs_lt_one]
  nlinarith [mul_pos h h]

/-- **C65.** Butterworth lowpass coefficients are stable. -/
theorem C65_butter_stable : Stable (butterLowpass sr f) := by
  have hg : 0 < Real.tan (f * Real.pi / sr) := by rw [mul_comm]; exact C44_svf_cutoff hf hsr
  have h2 : (0 : ℝ) < √2 := by positivity
  have := C65_svf_stable hg h2
  unfold Stable butterLowpass
  simp only []
  rw [mul_one_div, mul_one_div]
  have e1 : 1 + √2 * Real.tan (f * Real.pi / sr) + Real.tan (f * Real.pi / sr) * Real.tan (f * Real.pi / sr)
    = 1 + Real.tan (f * Real.pi / sr) * (Real.tan (f * Real.pi / sr) + √2) := by ring
  rw [e1]
  convert this using 3 <;> ring

/-- **C65.** Resonator coefficients are stable. -/
theorem C65_resonator_stable (hq : 0 < q) : Stable (resonatorCoefs sr f q) := by
  have h0 : 0 < sr := by linarith
  have hr : Real.exp (-Real.pi * f / (q * sr)) < 1 := by
    rw [← Real.exp_zero]
    refine Real.exp_lt_exp.2 ?_
    have := Real.pi_pos
    have : 0 < Real.pi * f / (q * sr) := by positivity
    have e : -Real.pi * f / (q * sr) = -(Real.pi * f / (q * sr)) := by ring
    rw [e]; linarith
  have hp := Real.exp_pos (-Real.pi * f / (q * sr))
  have hc := omega_cos_lt hf hsr
  unfold Stable resonatorCoefs
  simp only []
  generalize Real.exp (-Real.pi * f / (q * sr)) = r at hr hp ⊢
  generalize Real.cos (2 * Real.pi * f / sr) = c at hc ⊢
  constructor
  · rw [abs_of_pos (mul_pos hp hp)]; nlinarith
  · rw [abs_mul, abs_mul, abs_neg, abs_two, abs_of_pos hp]; nlinarith [sq_nonneg (1 - r), abs_nonneg c]

/-- **C65.** Lowpass coefficients are stable. -/
theorem C65_lowpass_stable (hq : 0 < q) : Stable (lowpassCoefs sr f q) :=
  stable_of_alpha (div_pos (omega_sin_pos hf hsr) (by positivity)) (omega_cos_lt hf hsr)

/-- **C65.** Highpass coefficients are stable. -/
theorem C65_highpass_stable (hq : 0 < q) : Stable (highpassCoefs sr f q) :=
  stable_of_alpha (div_pos (omega_sin_pos hf hsr) (by positivity)) (omega_cos_lt hf hsr)

/-- **C65.** Bell coefficients are stable. -/
theorem C65_bell_stable (hq : 0 < q) {gain : ℝ} (hgain : 0 < gain) : Stable (bellCoefs sr f q gain) :=
  stable_of_alpha (div_pos (div_pos (omega_sin_pos hf hsr) (by positivity)) (Real.sqrt_pos.2 hgain)) (omega_cos_lt hf hsr)

end

/-! ## Gains -/

theorem gain_of {c : BiquadCoefs ℝ} (h : Stable c) {sr f : ℝ} {H : ℂ}
    (e : (c.b0 + c.b1 * polar (-phaseStep f sr) + c.b2 * (polar (-phaseStep f sr) * polar (-phaseStep f sr)) : ℂ)
      = H * (1 + c.a1 * polar (-phaseStep f sr) + c.a2 * (polar (-phaseStep f sr) * polar (-phaseStep f sr)))) :
    GainAt (biquadNode c) sr f H := by
  have h1 := C44_biquad c h.1 h.2 (phaseStep f sr)
  have hw := char_ne_zero h.1 h.2 (polar_norm (phaseStep f sr))
  have hz : (1 : ℂ) + c.a1 * polar (-phaseStep f sr) + c.a2 * (polar (-phaseStep f sr) * polar (-phaseStep f sr)) ≠ 0 := by
    have e : (1 : ℂ) + c.a1 * polar (-phaseStep f sr) + c.a2 * (polar (-phaseStep f sr) * polar (-phaseStep f sr))
        = polar (-phaseStep f sr) ^ 2 * (polar (phaseStep f sr) ^ 2 + c.a1 * polar (phaseStep f sr) + c.a2) := by
      have := z1_mul (phaseStep f sr)
      linear_combination (-(polar (phaseStep f sr) * polar (-phaseStep f sr)) - 1 - c.a1 * polar (-phaseStep f sr)) * this
    rw [e]
    exact mul_ne_zero (pow_ne_zero _ (polar_ne _)) hw
  have : biquadResponse c (phaseStep f sr) = H := by
    unfold biquadResponse; simp only []
    rw [div_eq_iff hz]; exact e
  unfold GainAt
  rw [← this]; exact h1

/-- The same with a common scale `a0` of the coefficients. -/
theorem gain_of' {c : BiquadCoefs ℝ} (h : Stable c) {sr f : ℝ} {H : ℂ} {a0 A1 A2 B0 B1 B2 : ℝ} (h0 : a0 ≠ 0)
    (e1 : c.a1 = A1 * (1 / a0)) (e2 : c.a2 = A2 * (1 / a0)) (e3 : c.b0 = B0 * (1 / a0)) (e4 : c.b1 = B1 * (1 / a0)) (e5 : c.b2 = B2 * (1 / a0))
    (e : (B0 + B1 * polar (-phaseStep f sr) + B2 * (polar (-phaseStep f sr) * polar (-phaseStep f sr)) : ℂ)
      = H * (a0 + A1 * polar (-phaseStep f sr) + A2 * (polar (-phaseStep f sr) * polar (-phaseStep f sr)))) :
    GainAt (biquadNode c) sr f H := by
  refine gain_of h ?_
  have h0' : (a0 : ℂ) ≠ 0 := by exact_mod_cast h0
  rw [e1, e2, e3, e4, e5]
  push_cast
  field_simp
  linear_combination e

theorem phaseStep_zero (sr : ℝ) : polar (-phaseStep 0 sr) = 1 := by
  unfold phaseStep polar; simp

/-- Real and imaginary part of `polar (-θ)`. -/
theorem polar_neg_eq (θ : ℝ) : polar (-θ) = (Real.cos θ : ℂ) - (Real.sin θ : ℂ) * Complex.I := by
  unfold polar
  rw [Complex.exp_mul_I, ← Complex.ofReal_cos, ← Complex.ofReal_sin, Real.cos_neg, Real.sin_neg]
  push_cast; ring

/-- The bilinear transform at the cutoff. -/
theorem bilinear {sr f : ℝ} (hf : 0 < f) (hsr : 2 * f < sr) :
    1 - polar (-phaseStep f sr) = Complex.I * Real.tan (f * Real.pi / sr) * (1 + polar (-phaseStep f sr)) := by
  have h0 : 0 < sr := by linarith
  have hcos : 0 < Real.cos (f * Real.pi / sr) := by
    have := Real.pi_pos
    refine Real.cos_pos_of_mem_Ioo ⟨?_, ?_⟩
    · have : 0 < f * Real.pi / sr := by positivity
      linarith
    · rw [div_lt_iff₀ h0]; nlinarith
  rw [polar_neg_eq, show phaseStep f sr = 2 * (f * Real.pi / sr) by unfold phaseStep; ring, Real.cos_two_mul, Real.sin_two_mul, Real.tan_eq_sin_div_cos]
  have hs := Real.sin_sq_add_cos_sq (f * Real.pi / sr)
  generalize Real.sin (f * Real.pi / sr) = s at *
  generalize Real.cos (f * Real.pi / sr) = c at *
  have hc : (c : ℂ) ≠ 0 := by exact_mod_cast hcos.ne'
  have hs' : (s : ℂ) ^ 2 + (c : ℂ) ^ 2 = 1 := by exact_mod_cast hs
  push_cast
  field_simp
  linear_combination (-2 * (c : ℂ)) * hs' + 2 * (c : ℂ) * (s : ℂ) ^ 2 * Complex.I_sq

section
variable {sr f q : ℝ} (hf : 0 < f) (hsr : 2 * f < sr)
include hf hsr

theorem polar_cutoff : polar (-phaseStep f sr) = (Real.cos (2 * Real.pi * f / sr) : ℂ) - (Real.sin (2 * Real.pi * f / sr) : ℂ) * Complex.I := by
  rw [polar_neg_eq, show phaseStep f sr = 2 * Real.pi * f / sr by unfold phaseStep; ring]

theorem cutoff_point : polar (-phaseStep f sr) * polar (-phaseStep f sr) = 2 * (Real.cos (2 * Real.pi * f / sr) : ℂ) * polar (-phaseStep f sr) - 1
    ∧ (Real.cos (2 * Real.pi * f / sr) : ℂ) - polar (-phaseStep f sr) = (Real.sin (2 * Real.pi * f / sr) : ℂ) * Complex.I
    ∧ (1 - (Real.cos (2 * Real.pi * f / sr) : ℂ)) * (1 + (Real.cos (2 * Real.pi * f / sr) : ℂ)) = (Real.sin (2 * Real.pi * f / sr) : ℂ) * (Real.sin (2 * Real.pi * f / sr) : ℂ) := by
  have hs : (Real.sin (2 * Real.pi * f / sr) : ℂ) ^ 2 + (Real.cos (2 * Real.pi * f / sr) : ℂ) ^ 2 = 1 := by
    exact_mod_cast Real.sin_sq_add_cos_sq (2 * Real.pi * f / sr)
  rw [polar_cutoff hf hsr]
  generalize (Real.sin (2 * Real.pi * f / sr) : ℂ) = s at *
  generalize (Real.cos (2 * Real.pi * f / sr) : ℂ) = c at *
  refine ⟨?_, by ring, by linear_combination -hs⟩
  linear_combination s ^ 2 * Complex.I_sq - hs

/-- **C65.** Butterworth lowpass has unit gain at DC. -/
theorem C65_butter_dc : GainAt (biquadNode (butterLowpass sr f)) sr 0 1 := by
  have hg : 0 < Real.tan (f * Real.pi / sr) := by rw [mul_comm]; exact C44_svf_cutoff hf hsr
  refine gain_of' (C65_butter_stable hf hsr) (B1 := 2 * (Real.tan (f * Real.pi / sr) * Real.tan (f * Real.pi / sr)))
    (by positivity : 1 + √2 * Real.tan (f * Real.pi / sr) + Real.tan (f * Real.pi / sr) * Real.tan (f * Real.pi / sr) ≠ 0) rfl rfl rfl (mul_assoc _ _ _).symm rfl ?_
  rw [phaseStep_zero]
  push_cast; ring

/-- **C65.** The cutoff is the -3 dB point: the power gain of the Butterworth lowpass there is exactly one half. -/
theorem C65_butter_cutoff : GainAt (biquadNode (butterLowpass sr f)) sr f (-Complex.I / √2) ∧ Complex.normSq (-Complex.I / √2) = 1 / 2 := by
  constructor
  · have hg : 0 < Real.tan (f * Real.pi / sr) := by rw [mul_comm]; exact C44_svf_cutoff hf hsr
    refine gain_of' (C65_butter_stable hf hsr) (B1 := 2 * (Real.tan (f * Real.pi / sr) * Real.tan (f * Real.pi / sr)))
      (by positivity : 1 + √2 * Real.tan (f * Real.pi / sr) + Real.tan (f * Real.pi / sr) * Real.tan (f * Real.pi / sr) ≠ 0) rfl rfl rfl (mul_assoc _ _ _).symm rfl ?_
    have ez := bilinear hf hsr
    have h2 : ((√2 : ℝ) : ℂ) ≠ 0 := by exact_mod_cast (by positivity : (0:ℝ) < √2).ne'
    generalize Real.tan (f * Real.pi / sr) = t at *
    push_cast
    generalize (t : ℂ) = t at *
    generalize polar (-phaseStep f sr) = z at *
    have hI := Complex.I_sq
    generalize Complex.I = i at *
    generalize ((√2 : ℝ) : ℂ) = r at *
    have e2 : (1 - z) * (1 - z) = -(t * t * (1 + z) * (1 + z)) := by
      rw [ez]; linear_combination (t * t * (1 + z) * (1 + z)) * hI
    have e3 : (1 - z) * (1 + z) = i * t * (1 + z) * (1 + z) := by rw [ez]
    field_simp
    linear_combination i * e2 + i * r * t * e3 + r * t * t * (1 + z) * (1 + z) * hI
  · rw [Complex.normSq_div, Complex.normSq_neg, Complex.normSq_I, Complex.normSq_ofReal, Real.mul_self_sqrt (by norm_num)]

/-- **C65.** Lowpass has unit gain at DC; at the cutoff the gain is `q` with a quarter turn of phase. -/
theorem C65_lowpass_gain (hq : 0 < q) :
    GainAt (biquadNode (lowpassCoefs sr f q)) sr 0 1 ∧ GainAt (biquadNode (lowpassCoefs sr f q)) sr f (-Complex.I * q) := by
  have hs := omega_sin_pos hf hsr
  have hsq := Real.sin_sq_add_cos_sq (2 * Real.pi * f / sr)
  have hD : 1 + Real.sin (2 * Real.pi * f / sr) / (2 * q) ≠ 0 := by positivity
  constructor
  · refine gain_of' (C65_lowpass_stable hf hsr hq) (B0 := (1 - Real.cos (2 * Real.pi * f / sr)) * (1 / 2)) (B2 := (1 - Real.cos (2 * Real.pi * f / sr)) * (1 / 2))
      hD rfl rfl (mul_right_comm _ _ _) rfl (mul_right_comm _ _ _) ?_
    rw [phaseStep_zero]
    push_cast; ring
  · refine gain_of' (C65_lowpass_stable hf hsr hq) (B0 := (1 - Real.cos (2 * Real.pi * f / sr)) * (1 / 2)) (B2 := (1 - Real.cos (2 * Real.pi * f / sr)) * (1 / 2))
      hD rfl rfl (mul_right_comm _ _ _) rfl (mul_right_comm _ _ _) ?_
    have ha : Real.sin (2 * Real.pi * f / sr) = 2 * q * (Real.sin (2 * Real.pi * f / sr) / (2 * q)) := by field_simp
    obtain ⟨hz, hzs, hsc⟩ := cutoff_point hf hsr
    generalize Real.sin (2 * Real.pi * f / sr) / (2 * q) = α at *
    have ha' : (Real.sin (2 * Real.pi * f / sr) : ℂ) = 2 * q * α := by exact_mod_cast ha
    push_cast at *
    generalize Complex.sin _ = s at *
    generalize Complex.cos _ = c at *
    have hI := Complex.I_sq
    generalize polar (-phaseStep f sr) = z at *
    linear_combination ((1 - c) / 2 + Complex.I * q * (1 - α)) * hz + z * hsc - Complex.I * (1 - c * z) * ha' + Complex.I * s * hz
      + Complex.I * s * z * hzs + s * s * z * hI

/-- **C65.** Highpass blocks DC; at the cutoff the gain is `q` with a quarter turn of phase. -/
theorem C65_highpass_gain (hq : 0 < q) :
    GainAt (biquadNode (highpassCoefs sr f q)) sr 0 0 ∧ GainAt (biquadNode (highpassCoefs sr f q)) sr f (Complex.I * q) := by
  have hs := omega_sin_pos hf hsr
  have hD : 1 + Real.sin (2 * Real.pi * f / sr) / (2 * q) ≠ 0 := by positivity
  constructor
  · refine gain_of' (C65_highpass_stable hf hsr hq) hD rfl rfl rfl rfl rfl ?_
    rw [phaseStep_zero]
    push_cast; ring
  · refine gain_of' (C65_highpass_stable hf hsr hq) hD rfl rfl rfl rfl rfl ?_
    have ha : Real.sin (2 * Real.pi * f / sr) = 2 * q * (Real.sin (2 * Real.pi * f / sr) / (2 * q)) := by field_simp
    obtain ⟨hz, hzs, hsc⟩ := cutoff_point hf hsr
    generalize Real.sin (2 * Real.pi * f / sr) / (2 * q) = α at *
    have ha' : (Real.sin (2 * Real.pi * f / sr) : ℂ) = 2 * q * α := by exact_mod_cast ha
    push_cast at *
    generalize Complex.sin _ = s at *
    generalize Complex.cos _ = c at *
    have hI := Complex.I_sq
    generalize polar (-phaseStep f sr) = z at *
    linear_combination ((1 + c) / 2 - Complex.I * q * (1 - α)) * hz - z * hsc + Complex.I * (1 - c * z) * ha' - Complex.I * s * hz
      - Complex.I * s * z * hzs - s * s * z * hI

/-- **C65.** Bell has unit gain at DC and the requested amplitude gain at its center. -/
theorem C65_bell_gain (hq : 0 < q) {gain : ℝ} (hgain : 0 < gain) :
    GainAt (biquadNode (bellCoefs sr f q gain)) sr 0 1 ∧ GainAt (biquadNode (bellCoefs sr f q gain)) sr f gain := by
  have hs := omega_sin_pos hf hsr
  have ha := Real.sqrt_pos.2 hgain
  have haa := Real.mul_self_sqrt hgain.le
  have hD : 1 + Real.sin (2 * Real.pi * f / sr) / (2 * q) / √gain ≠ 0 := by positivity
  constructor
  · refine gain_of' (C65_bell_stable hf hsr hq hgain) hD rfl rfl rfl rfl rfl ?_
    rw [phaseStep_zero]
    push_cast; ring
  · refine gain_of' (C65_bell_stable hf hsr hq hgain) hD rfl rfl rfl rfl rfl ?_
    obtain ⟨hz, hzs, hsc⟩ := cutoff_point hf hsr
    have ha' : ((√gain : ℝ) : ℂ) ≠ 0 := by exact_mod_cast ha.ne'
    have hg : (gain : ℂ) = ((√gain : ℝ) : ℂ) * ((√gain : ℝ) : ℂ) := by exact_mod_cast haa.symm
    generalize Real.sin (2 * Real.pi * f / sr) / (2 * q) = α at *
    rw [hg]
    push_cast
    push_cast at hz
    generalize ((√gain : ℝ) : ℂ) = a at *
    generalize Complex.cos _ = c at *
    generalize polar (-phaseStep f sr) = z at *
    field_simp
    linear_combination ((1 - α * a) - (a * a - a * α)) * hz

end

/-- Non-vacuous: a Butterworth filter at 440 Hz, at 44.1 kHz. -/
example : Stable (butterLowpass 44100 440) := C65_butter_stable (by norm_num) (by norm_num)
example : GainAt (biquadNode (bellCoefs 44100 1000 2 10)) 44100 1000 (10 : ℝ) := (C65_bell_gain (by norm_num) (by norm_num) (by norm_num) (by norm_num)).2

/-! ## State variable filter energy -/

/-- **C65.** With silent input the energy stored in the two integrators never increases, and strictly decreases unless the bandpass
output is zero. -/
theorem C65_svf_energy {g k : ℝ} (hg : 0 < g) (hk : 0 < k) (m0 m1 m2 : ℝ) (s : ℝ × ℝ) :
    let c := svfCoefs g k m0 m1 m2
    let s' := (svfTick c s 0).1
    let v1 := c.a1 * s.1 + c.a2 * (0 - s.2)
    s'.1 ^ 2 + s'.2 ^ 2 = s.1 ^ 2 + s.2 ^ 2 - 4 * g * k * v1 ^ 2 := by
  intro c s' v1
  have hD : 1 + g * (g + k) ≠ 0 := by positivity
  simp only [s', v1, c, svfTick, svfCoefs]
  field_simp
  ring

/-- **C65.** Consequently the energy is bounded by the initial energy at all times. -/
theorem C65_svf_energy_bounded {g k : ℝ} (hg : 0 < g) (hk : 0 < k) (m0 m1 m2 : ℝ) (s : ℝ × ℝ) (n : Nat) :
    let r : ℝ × ℝ := (svfNode (svfCoefs g k m0 m1 m2)).ticks.st s (fun _ _ => 0) n
    r.1 ^ 2 + r.2 ^ 2 ≤ s.1 ^ 2 + s.2 ^ 2 := by
  induction n with
  | zero => exact le_refl _
  | succ n ih =>
    intro r
    obtain ⟨t, ht⟩ : ∃ t : ℝ × ℝ, t = (svfNode (svfCoefs g k m0 m1 m2)).ticks.st s (fun _ _ => 0) n := ⟨_, rfl⟩
    have hr : r = (svfTick (svfCoefs g k m0 m1 m2) t 0).1 := by rw [ht]; rfl
    have h := C65_svf_energy hg hk m0 m1 m2 t
    simp only [] at ih h
    rw [hr, h]
    rw [← ht] at ih
    have : 0 ≤ 4 * g * k * ((svfCoefs g k m0 m1 m2).a1 * t.1 + (svfCoefs g k m0 m1 m2).a2 * (0 - t.2)) ^ 2 := by positivity
    linarith

/-! ## Moog filter -/

/-- State of `Moog`: `moog.rs:17-33`. -/
structure MoogSt where
  rez : ℝ
  p : ℝ
  k : ℝ
  s0 : ℝ
  s1 : ℝ
  s2 : ℝ
  s3 : ℝ
  px : ℝ
  ps0 : ℝ
  ps1 : ℝ
  ps2 : ℝ

/-- `Moog::set_cutoff_q`: `moog.rs:47-57`. -/
noncomputable def moogSet (sr cutoff q : ℝ) (s : MoogSt) : MoogSt :=
  let c := 2 * cutoff / sr
  let p := c * (1.8 - 0.8 * c)
  let t1 := (1 - p) * 1.386249
  let t2 := 12 + t1 * t1
  { s with p := p, k := 2 * Real.sin (c * Real.pi * 0.5) - 1, rez := q * (t2 + 6 * t1) / (t2 - 6 * t1) }

/-- `Moog::tick`: `moog.rs:82-104`, after the parameter update. -/
noncomputable def moogTick (s : MoogSt) (input : ℝ) : MoogSt × ℝ :=
  let x := -s.rez * s.s3 + input
  let s0 := (x + s.px) * s.p - s.k * s.s0
  let s1 := (s0 + s.ps0) * s.p - s.k * s.s1
  let s2 := (s1 + s.ps1) * s.p - s.k * s.s2
  let s3 := Real.tanh ((s2 + s.ps2) * s.p - s.k * s.s3)
  ({ s with s0 := s0, s1 := s1, s2 := s2, s3 := s3, px := x, ps0 := s0, ps1 := s1, ps2 := s2 }, s3)

/-- `Moog` with parameter inputs: `moog.rs:60-117`. -/
noncomputable def moogNode (sr : ℝ) : Node ℝ 3 1 :=
  .ofTick MoogSt (fun s => { s with s0 := 0, s1 := 0, s2 := 0, s3 := 0, px := 0, ps0 := 0, ps1 := 0, ps2 := 0 })
    (fun s x => ((moogTick (moogSet sr (x 1) (x 2) s) (x 0)).1, fun _ => (moogTick (moogSet sr (x 1) (x 2) s) (x 0)).2))

/-- **C65.** The output of the Moog filter is always strictly inside `(-1, 1)`, whatever the state, input and modulation. -/
theorem C65_moog_bounded (sr : ℝ) (s : MoogSt) (x : Nat → Frame ℝ 3) (n : Nat) : |(moogNode sr).ticks.out s x n 0| < 1 := by
  show |Real.tanh _| < 1
  rw [abs_lt]
  exact ⟨Real.neg_one_lt_tanh _, Real.tanh_lt_one _⟩

/-- **C65.** The feedback gain is finite: its denominator is positive whatever the cutoff. -/
theorem C65_moog_feedback (t1 : ℝ) : 0 < (12 + t1 * t1) - 6 * t1 := by nlinarith [sq_nonneg (t1 - 3)]

end Fundsp.Filter
