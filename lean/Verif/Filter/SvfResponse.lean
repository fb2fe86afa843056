import Verif.Filter.Response2

/-! C44 for the state variable filter modes, and C65 for their stability. -/

namespace Fundsp.Filter
open _root_.Filter Topology

/-- Common denominator of the responses: `svf.rs:321` and the like. -/
noncomputable def svfDen (g k : ℝ) (z : ℂ) : ℂ := (z - 1) * (z - 1) + g * g * (1 + z) * (1 + z) + g * k * (z * z - 1)

/-- `LowpassMode::response`: `svf.rs:315-322`; `g` is `tan(pi * cutoff / sample_rate)`. -/
noncomputable def lowpassResponse (g q θ : ℝ) : ℂ :=
  let k := 1 / q
  let z := polar θ;
  (g * g * (1 + z) * (1 + z)) / ((z - 1) * (z - 1) + g * g * (1 + z) * (1 + z) + g * k * (z * z - 1))
/-- `HighpassMode::response`: `svf.rs:364-371`. -/
noncomputable def highpassResponse (g q θ : ℝ) : ℂ :=
  let k := 1 / q
  let z := polar θ;
  ((z - 1) * (z - 1)) / ((z - 1) * (z - 1) + g * g * (1 + z) * (1 + z) + g * k * (z * z - 1))
/-- `BandpassMode::response`: `svf.rs:413-420`. -/
noncomputable def bandpassResponse (g q θ : ℝ) : ℂ :=
  let k := 1 / q
  let z := polar θ;
  (g * (z * z - 1)) / ((z - 1) * (z - 1) + g * g * (1 + z) * (1 + z) + g * k * (z * z - 1))
/-- `NotchMode::response`: `svf.rs:462-469`. -/
noncomputable def notchResponse (g q θ : ℝ) : ℂ :=
  let k := 1 / q
  let z := polar θ;
  ((z - 1) * (z - 1) + g * g * (1 + z) * (1 + z)) / ((z - 1) * (z - 1) + g * g * (1 + z) * (1 + z) + g * k * (z * z - 1))
/-- `PeakMode::response`: `svf.rs:511-519`. -/
noncomputable def peakResponse (g q θ : ℝ) : ℂ :=
  let k := 1 / q
  let z := polar θ;
  -((1 + g + (g - 1) * z) * (-1 + g + z + g * z)) / ((z - 1) * (z - 1) + g * g * (1 + z) * (1 + z) + g * k * (z * z - 1))
/-- `AllpassMode::response`: `svf.rs:561-568`. -/
noncomputable def allpassResponse (g q θ : ℝ) : ℂ :=
  let k := 1 / q
  let z := polar θ;
  ((z - 1) * (z - 1) + g * g * (1 + z) * (1 + z) + g * (k - k * z * z)) / ((z - 1) * (z - 1) + g * g * (1 + z) * (1 + z) + g * k * (z * z - 1))
/-- `BellMode::response`: `svf.rs:613-622`; `a` is `sqrt(gain)`. -/
noncomputable def bellResponse (g q a θ : ℝ) : ℂ :=
  let k := 1 / q
  let z := polar θ;
  (g * k * (z * z - 1) + a * (g * (1 + z) * ((a * a - 1) * k / a * (z - 1)) + ((z - 1) * (z - 1) + g * g * (1 + z) * (1 + z))))
    / (g * k * (z * z - 1) + a * ((z - 1) * (z - 1) + g * g * (z + 1) * (z + 1)))
/-- `LowshelfMode::response`: `svf.rs:667-679`; `a` is `sqrt(gain)`, `sa` is `sqrt(a)`. -/
noncomputable def lowshelfResponse (g q a sa θ : ℝ) : ℂ :=
  let k := 1 / q
  let z := polar θ;
  (a * (z - 1) * (z - 1) + g * g * a * a * (z + 1) * (z + 1) + sa * g * a * k * (z * z - 1))
    / (a * (z - 1) * (z - 1) + g * g * (1 + z) * (1 + z) + sa * g * k * (z * z - 1))
/-- `HighshelfMode::response`: `svf.rs:724-741`. -/
noncomputable def highshelfResponse (g q a sa θ : ℝ) : ℂ :=
  let k := 1 / q
  let z := polar θ;
  (sa * g * (1 + z) * (-(a - 1) * a * k * (z - 1) + sa * g * (1 - a * a) * (1 + z))
      + a * a * ((z - 1) * (z - 1) + a * g * g * (1 + z) * (1 + z) + sa * g * k * (z * z - 1)))
    / ((z - 1) * (z - 1) + a * g * g * (1 + z) * (1 + z) + sa * g * k * (z * z - 1))

/-! ## Generic filter -/

/-- The recurrence satisfied by the output of the filter. -/
theorem svf_recur {g k m0 m1 m2 : ℝ} (hD : 1 + g * (g + k) ≠ 0) (s : ℝ × ℝ) (x : Nat → Frame ℝ 1) (j : Nat) :
    let D := 1 + g * (g + k)
    let y := fun j => (svfNode (svfCoefs g k m0 m1 m2)).ticks.out s x j 0
    y (j + 2) = (m0 + (m1 * g + m2 * g ^ 2) / D) * x (j + 2) 0 + ((m0 * (2 * g ^ 2 - 2) + 2 * m2 * g ^ 2) / D) * x (j + 1) 0
      + ((m0 * (1 - g * k + g ^ 2) - m1 * g + m2 * g ^ 2) / D) * x j 0
      - ((2 * g ^ 2 - 2) / D) * y (j + 1) - ((1 - g * k + g ^ 2) / D) * y j := by
  intro D y
  obtain ⟨t, ht⟩ : ∃ t : ℝ × ℝ, t = (svfNode (svfCoefs g k m0 m1 m2)).ticks.st s x j := ⟨_, rfl⟩
  have e0 : y j = (svfTick (svfCoefs g k m0 m1 m2) t (x j 0)).2 := by rw [ht]; rfl
  have e1 : y (j + 1) = (svfTick (svfCoefs g k m0 m1 m2) (svfTick (svfCoefs g k m0 m1 m2) t (x j 0)).1 (x (j + 1) 0)).2 := by rw [ht]; rfl
  have e2 : y (j + 2) = (svfTick (svfCoefs g k m0 m1 m2) (svfTick (svfCoefs g k m0 m1 m2) (svfTick (svfCoefs g k m0 m1 m2) t (x j 0)).1
    (x (j + 1) 0)).1 (x (j + 2) 0)).2 := by rw [ht]; rfl
  rw [e0, e1, e2]
  have hD' : D ≠ 0 := hD
  simp only [svfTick, svfCoefs]
  change _ = _
  have hk : k * g = D - 1 - g * g := by show k * g = 1 + g * (g + k) - 1 - g * g; ring
  rw [show (1 + g * (g + k)) = D from rfl]
  have h1 : 1 - g * k + g ^ 2 = 2 + 2 * g ^ 2 - D := by show _ = 2 + 2 * g ^ 2 - (1 + g * (g + k)); ring
  rw [h1]
  field_simp
  ring

/-- **C65.** The recurrence is stable for every positive frequency parameter and damping. -/
theorem C65_svf_stable {g k : ℝ} (hg : 0 < g) (hk : 0 < k) :
    |(1 - g * k + g ^ 2) / (1 + g * (g + k))| < 1
      ∧ |(2 * g ^ 2 - 2) / (1 + g * (g + k))| < 1 + (1 - g * k + g ^ 2) / (1 + g * (g + k)) := by
  have hgk : 0 < g * k := mul_pos hg hk
  have hD : 0 < 1 + g * (g + k) := by nlinarith
  have hg2 : 0 < g ^ 2 := by positivity
  constructor
  · rw [abs_lt, lt_div_iff₀ hD, div_lt_iff₀ hD]
    constructor <;> nlinarith
  · have e : 1 + (1 - g * k + g ^ 2) / (1 + g * (g + k)) = (2 + 2 * g ^ 2) / (1 + g * (g + k)) := by field_simp; ring
    rw [e, abs_div, abs_of_pos hD]
    refine div_lt_div_of_pos_right ?_ hD
    rw [abs_lt]; constructor <;> linarith

theorem svfDen_eq (g k : ℝ) (z : ℂ) (hD : 1 + g * (g + k) ≠ 0) :
    svfDen g k z = ((1 + g * (g + k) : ℝ) : ℂ) * (z ^ 2 + (((2 * g ^ 2 - 2) / (1 + g * (g + k)) : ℝ) : ℂ) * z + (((1 - g * k + g ^ 2) / (1 + g * (g + k)) : ℝ) : ℂ)) := by
  have hD' : ((1 + g * (g + k) : ℝ) : ℂ) ≠ 0 := by exact_mod_cast hD
  rw [Complex.ofReal_div, Complex.ofReal_div]
  field_simp
  unfold svfDen
  push_cast
  ring

theorem svfDen_ne {g k : ℝ} (hg : 0 < g) (hk : 0 < k) (θ : ℝ) : svfDen g k (polar θ) ≠ 0 := by
  have hD : 1 + g * (g + k) ≠ 0 := by nlinarith [mul_pos hg hk]
  rw [svfDen_eq g k _ hD]
  exact mul_ne_zero (by exact_mod_cast hD) (char_ne_zero (C65_svf_stable hg hk).1 (C65_svf_stable hg hk).2 (polar_norm θ))

/-- Response of the filter with arbitrary mixing coefficients. -/
theorem svf_response {g k m0 m1 m2 : ℝ} (hg : 0 < g) (hk : 0 < k) (θ : ℝ) {H : ℂ}
    (hH : H * svfDen g k (polar θ) = m0 * svfDen g k (polar θ) + m1 * g * (polar θ * polar θ - 1) + m2 * g * g * (1 + polar θ) * (1 + polar θ)) :
    HasResponse (svfNode (svfCoefs g k m0 m1 m2)) (fun _ => True) θ H := by
  have hD : 1 + g * (g + k) ≠ 0 := by nlinarith [mul_pos hg hk]
  have hD' : ((1 + g * (g + k) : ℝ) : ℂ) ≠ 0 := by exact_mod_cast hD
  have st := C65_svf_stable hg hk
  have hG : 1 + (2 * g ^ 2 - 2) / (1 + g * (g + k)) + (1 - g * k + g ^ 2) / (1 + g * (g + k)) ≠ 0 := by
    have := st.2; rw [abs_lt] at this; linarith
  refine ⟨_, fun s x A d _ hx => recur_response st.1 st.2 (svf_recur hD s x) ?_ (div_mul_cancel₀ _ hG) hx⟩
  rw [svfDen_eq g k _ hD] at hH
  rw [← mul_right_inj' hD']
  rw [Complex.ofReal_add m0, Complex.ofReal_div, Complex.ofReal_div, Complex.ofReal_div, Complex.ofReal_div, Complex.ofReal_div]
  rw [Complex.ofReal_div, Complex.ofReal_div] at hH
  have e : ((1 + g * (g + k) : ℝ) : ℂ) * (H * (polar θ ^ 2 + ((2 * g ^ 2 - 2 : ℝ) : ℂ) / ((1 + g * (g + k) : ℝ) : ℂ) * polar θ
      + ((1 - g * k + g ^ 2 : ℝ) : ℂ) / ((1 + g * (g + k) : ℝ) : ℂ))) = H * (((1 + g * (g + k) : ℝ) : ℂ) * (polar θ ^ 2 + ((2 * g ^ 2 - 2 : ℝ) : ℂ) / ((1 + g * (g + k) : ℝ) : ℂ) * polar θ
      + ((1 - g * k + g ^ 2 : ℝ) : ℂ) / ((1 + g * (g + k) : ℝ) : ℂ))) := by ring
  rw [e, hH]
  field_simp
  push_cast
  ring

/-! ## Modes -/

section
variable {g q : ℝ} (hg : 0 < g) (hq : 0 < q) (θ : ℝ)
include hg hq

/-- **C44, svf lowpass.** -/
theorem C44_svf_lowpass : HasResponse (svfNode (svfLowpass g q)) (fun _ => True) θ (lowpassResponse g q θ) := by
  have hk : 0 < 1 / q := by positivity
  have h := svfDen_ne hg hk θ
  refine svf_response hg hk θ ?_
  unfold lowpassResponse
  simp only []
  rw [div_mul_eq_mul_div, div_eq_iff (by unfold svfDen at h; push_cast at h ⊢; exact h)]
  unfold svfDen; push_cast; ring

/-- **C44, svf highpass.** -/
theorem C44_svf_highpass : HasResponse (svfNode (svfHighpass g q)) (fun _ => True) θ (highpassResponse g q θ) := by
  have hk : 0 < 1 / q := by positivity
  have h := svfDen_ne hg hk θ
  refine svf_response hg hk θ ?_
  unfold highpassResponse
  simp only []
  rw [div_mul_eq_mul_div, div_eq_iff (by unfold svfDen at h; push_cast at h ⊢; exact h)]
  unfold svfDen; push_cast; ring

/-- **C44, svf bandpass.** -/
theorem C44_svf_bandpass : HasResponse (svfNode (svfBandpass g q)) (fun _ => True) θ (bandpassResponse g q θ) := by
  have hk : 0 < 1 / q := by positivity
  have h := svfDen_ne hg hk θ
  refine svf_response hg hk θ ?_
  unfold bandpassResponse
  simp only []
  rw [div_mul_eq_mul_div, div_eq_iff (by unfold svfDen at h; push_cast at h ⊢; exact h)]
  unfold svfDen; push_cast; ring

/-- **C44, svf notch.** -/
theorem C44_svf_notch : HasResponse (svfNode (svfNotch g q)) (fun _ => True) θ (notchResponse g q θ) := by
  have hk : 0 < 1 / q := by positivity
  have h := svfDen_ne hg hk θ
  refine svf_response hg hk θ ?_
  unfold notchResponse
  simp only []
  rw [div_mul_eq_mul_div, div_eq_iff (by unfold svfDen at h; push_cast at h ⊢; exact h)]
  unfold svfDen; push_cast; ring

/-- **C44, svf peak.** -/
theorem C44_svf_peak : HasResponse (svfNode (svfPeak g q)) (fun _ => True) θ (peakResponse g q θ) := by
  have hk : 0 < 1 / q := by positivity
  have h := svfDen_ne hg hk θ
  refine svf_response hg hk θ ?_
  unfold peakResponse
  simp only []
  rw [div_mul_eq_mul_div, div_eq_iff (by unfold svfDen at h; push_cast at h ⊢; exact h)]
  unfold svfDen; push_cast; ring

/-- **C44, svf allpass.** -/
theorem C44_svf_allpass : HasResponse (svfNode (svfAllpass g q)) (fun _ => True) θ (allpassResponse g q θ) := by
  have hk : 0 < 1 / q := by positivity
  have h := svfDen_ne hg hk θ
  refine svf_response hg hk θ ?_
  unfold allpassResponse
  simp only []
  rw [div_mul_eq_mul_div, div_eq_iff (by unfold svfDen at h; push_cast at h ⊢; exact h)]
  unfold svfDen; push_cast; ring

variable {a : ℝ} (ha : 0 < a)
include ha

/-- **C44, svf bell.** -/
theorem C44_svf_bell : HasResponse (svfNode (svfBell g q a)) (fun _ => True) θ (bellResponse g q a θ) := by
  have hk : 0 < 1 / (q * a) := by positivity
  have h := svfDen_ne hg hk θ
  have ha' : (a : ℂ) ≠ 0 := by exact_mod_cast ha.ne'
  have hq' : (q : ℂ) ≠ 0 := by exact_mod_cast hq.ne'
  have e : (g * (1 / q) * (polar θ * polar θ - 1) + a * ((polar θ - 1) * (polar θ - 1) + g * g * (polar θ + 1) * (polar θ + 1)) : ℂ)
      = a * svfDen g (1 / (q * a)) (polar θ) := by
    unfold svfDen; push_cast; field_simp; ring
  refine svf_response hg hk θ ?_
  unfold bellResponse
  simp only []
  push_cast
  rw [e, div_mul_eq_mul_div, div_eq_iff (mul_ne_zero ha' h)]
  unfold svfDen; push_cast; field_simp; ring

variable {sa : ℝ} (hsa : 0 < sa) (hs : sa * sa = a)
include hsa hs

/-- **C44, svf lowshelf.** -/
theorem C44_svf_lowshelf : HasResponse (svfNode (svfLowshelf g q a sa)) (fun _ => True) θ (lowshelfResponse g q a sa θ) := by
  have hk : 0 < 1 / q := by positivity
  have hgs : 0 < g / sa := by positivity
  have h := svfDen_ne hgs hk θ
  have ha' : (a : ℂ) ≠ 0 := by exact_mod_cast ha.ne'
  have hq' : (q : ℂ) ≠ 0 := by exact_mod_cast hq.ne'
  have hsa' : (sa : ℂ) ≠ 0 := by exact_mod_cast hsa.ne'
  have hs' : (a : ℂ) = sa * sa := by rw [← hs]; push_cast; ring
  have e : (a * (polar θ - 1) * (polar θ - 1) + g * g * (1 + polar θ) * (1 + polar θ) + sa * g * (1 / q) * (polar θ * polar θ - 1) : ℂ)
      = a * svfDen (g / sa) (1 / q) (polar θ) := by
    unfold svfDen; push_cast; rw [hs']; field_simp
  refine svf_response hgs hk θ ?_
  unfold lowshelfResponse
  simp only []
  push_cast
  rw [e, div_mul_eq_mul_div, div_eq_iff (mul_ne_zero ha' h)]
  unfold svfDen; push_cast; rw [hs']; field_simp; ring

/-- **C44, svf highshelf.** -/
theorem C44_svf_highshelf : HasResponse (svfNode (svfHighshelf g q a sa)) (fun _ => True) θ (highshelfResponse g q a sa θ) := by
  have hk : 0 < 1 / q := by positivity
  have hgs : 0 < g * sa := by positivity
  have h := svfDen_ne hgs hk θ
  have hq' : (q : ℂ) ≠ 0 := by exact_mod_cast hq.ne'
  have hs' : (a : ℂ) = sa * sa := by rw [← hs]; push_cast; ring
  have e : ((polar θ - 1) * (polar θ - 1) + a * g * g * (1 + polar θ) * (1 + polar θ) + sa * g * (1 / q) * (polar θ * polar θ - 1) : ℂ)
      = svfDen (g * sa) (1 / q) (polar θ) := by
    unfold svfDen; push_cast; rw [hs']; ring
  refine svf_response hgs hk θ ?_
  unfold highshelfResponse
  simp only []
  push_cast
  rw [e, div_mul_eq_mul_div, div_eq_iff h]
  unfold svfDen; push_cast; rw [hs']; field_simp; ring

end

/-- **C44.** Every cutoff strictly between zero and half the sample rate gives a positive frequency parameter. -/
theorem C44_svf_cutoff {sr f : ℝ} (hf : 0 < f) (hsr : 2 * f < sr) : 0 < Real.tan (Real.pi * f / sr) := by
  have hsr0 : 0 < sr := by linarith
  apply Real.tan_pos_of_pos_of_lt_pi_div_two
  · have := Real.pi_pos; positivity
  · rw [div_lt_iff₀ hsr0]; nlinarith [Real.pi_pos]

/-- A concrete filter: lowpass at 1 kHz with Q 1 at 44.1 kHz, response at 500 Hz. -/
example : HasResponse (svfNode (svfLowpass (Real.tan (Real.pi * 1000 / 44100)) 1)) (fun _ => True) (phaseStep 500 44100)
    (lowpassResponse (Real.tan (Real.pi * 1000 / 44100)) 1 (phaseStep 500 44100)) :=
  C44_svf_lowpass (C44_svf_cutoff (by norm_num) (by norm_num)) one_pos _

end Fundsp.Filter
