import Verif.Filter.Stable
import Verif.Filter.SvfInProps
import Verif.Filter.Smooth
import Mathlib.Analysis.SpecialFunctions.Trigonometric.Bounds
import Mathlib.Algebra.Order.Archimedean.Basic

/-! **C99**: filters whose frequency is above half of the sample rate. -/

namespace Fundsp.Filter
open _root_.Filter Topology

/-! ## Specification -/

/-- A single 1 followed by silence. -/
noncomputable def click : Nat → Frame ℝ 1 := fun k _ => if k = 0 then 1 else 0

/-- The response to a single click, from the state after a reset, grows beyond every bound. -/
def BlowsUp (n : Node ℝ 1 1) (s : n.σ) : Prop := ∀ B : ℝ, ∃ k, B < |n.stream (n.reset s) click k 0|

/-! ## Lemmas -/

/-- A solution of `y'' = -a y' - b y` with `|b| > 1` is unbounded, unless it satisfies a recurrence of first order. -/
theorem recurrence_unbounded {a b : ℝ} {y : Nat → ℝ} (hy : ∀ n, y (n + 2) = -a * y (n + 1) - b * y n) (hb : 1 < |b|)
    (h0 : y 0 * y 2 - y 1 * y 1 ≠ 0) (B : ℝ) : ∃ k, B < |y k| := by
  by_contra hc
  push Not at hc
  have hB : 0 ≤ B := le_trans (abs_nonneg _) (hc 0)
  have hk : ∀ n, y n * y (n + 2) - y (n + 1) * y (n + 1) = b ^ n * (y 0 * y 2 - y 1 * y 1) := by
    intro n
    induction n with
    | zero => simp
    | succ n ih =>
      rw [pow_succ, mul_right_comm, ← ih, hy (n + 1)]
      have := hy n
      linear_combination (-y (n + 2)) * this
  have hpos : 0 < |y 0 * y 2 - y 1 * y 1| := abs_pos.2 h0
  obtain ⟨n, hn⟩ := pow_unbounded_of_one_lt (2 * (B * B) / |y 0 * y 2 - y 1 * y 1|) hb
  rw [div_lt_iff₀ hpos, ← abs_pow, ← abs_mul, ← hk n] at hn
  have h1 : |y n * y (n + 2)| ≤ B * B := by rw [abs_mul]; exact mul_le_mul (hc _) (hc _) (abs_nonneg _) hB
  have h2 : |y (n + 1) * y (n + 1)| ≤ B * B := by rw [abs_mul]; exact mul_le_mul (hc _) (hc _) (abs_nonneg _) hB
  have h3 := abs_sub (y n * y (n + 2)) (y (n + 1) * y (n + 1))
  linarith

theorem biquad_blows_up {c : BiquadCoefs ℝ} (h2 : 1 < |c.a2|)
    (h : (c.b1 - c.a1 * c.b0) * (-c.a1 * (c.b2 - c.a1 * (c.b1 - c.a1 * c.b0) - c.a2 * c.b0) - c.a2 * (c.b1 - c.a1 * c.b0))
      - (c.b2 - c.a1 * (c.b1 - c.a1 * c.b0) - c.a2 * c.b0) * (c.b2 - c.a1 * (c.b1 - c.a1 * c.b0) - c.a2 * c.b0) ≠ 0) (s : BiquadSt ℝ) :
    BlowsUp (biquadNode c) s := by
  intro B
  have e0 : ((biquadNode c).reset s : BiquadSt ℝ) = ⟨0, 0, 0, 0⟩ := rfl
  obtain ⟨y, hy⟩ : ∃ y : Nat → ℝ, y = fun k => (biquadNode c).stream (⟨0, 0, 0, 0⟩ : BiquadSt ℝ) click k 0 := ⟨_, rfl⟩
  have hr : ∀ n, y (n + 2) = c.b0 * click (n + 2) 0 + c.b1 * click (n + 1) 0 + c.b2 * click n 0 - c.a1 * y (n + 1) - c.a2 * y n := by
    intro n; rw [hy]; rfl
  have y0 : y 0 = c.b0 := by
    rw [hy]; show c.b0 * click 0 0 + c.b1 * 0 + c.b2 * 0 - c.a1 * 0 - c.a2 * 0 = _; simp [click]
  have y1 : y 1 = c.b1 - c.a1 * c.b0 := by
    rw [← y0, hy]
    show c.b0 * click 1 0 + c.b1 * click 0 0 + c.b2 * 0 - c.a1 * _ - c.a2 * 0 = _
    simp [click]; exact Or.inl rfl
  have y2 : y 2 = c.b2 - c.a1 * (c.b1 - c.a1 * c.b0) - c.a2 * c.b0 := by rw [hr 0, y1, y0]; simp [click]
  have y3 : y 3 = -c.a1 * (c.b2 - c.a1 * (c.b1 - c.a1 * c.b0) - c.a2 * c.b0) - c.a2 * (c.b1 - c.a1 * c.b0) := by rw [hr 1, y2, y1]; simp [click]
  obtain ⟨k, hk⟩ := recurrence_unbounded (a := c.a1) (b := c.a2) (y := fun n => y (n + 1))
    (fun n => by show y (n + 1 + 2) = _; rw [hr (n + 1)]; simp [click]) h2 (by simp only [zero_add, Nat.reduceAdd, y1, y2, y3]; exact h) B
  refine ⟨k + 1, ?_⟩
  rw [hy] at hk
  exact hk

theorem svf_blows_up {g k m0 m1 m2 : ℝ} (hg : g < 0) (hk : 0 < k) (hD : 1 + g * (g + k) ≠ 0) (h : m1 ^ 2 - k * m1 * m2 + m2 ^ 2 ≠ 0) (s : ℝ × ℝ) :
    BlowsUp (svfNode (svfCoefs g k m0 m1 m2)) s := by
  intro B
  obtain ⟨c, hc⟩ : ∃ c, c = svfCoefs g k m0 m1 m2 := ⟨_, rfl⟩
  obtain ⟨z, hz⟩ : ∃ z : Nat → ℝ × ℝ, z = fun n => (svfNode c).ticks.st ((0, 0) : ℝ × ℝ) click (n + 1) := ⟨_, rfl⟩
  obtain ⟨y, hy⟩ : ∃ y : Nat → ℝ, y = fun n => (svfNode c).stream ((0, 0) : ℝ × ℝ) click (n + 1) 0 := ⟨_, rfl⟩
  have z0 : z 0 = (2 * c.a2, 2 * c.a3) := by
    rw [hz]
    show (svfTick c (0, 0) (click 0 0)).1 = _
    simp [svfTick, click]
  have zs : ∀ n, z (n + 1) = ((2 * c.a1 - 1) * (z n).1 - 2 * c.a2 * (z n).2, 2 * c.a2 * (z n).1 + (1 - 2 * c.a3) * (z n).2) := by
    intro n
    have e : z (n + 1) = (svfTick c (z n) (click (n + 1) 0)).1 := by rw [hz]; rfl
    rw [e]
    simp only [svfTick, click, Nat.succ_ne_zero, if_false]
    ext <;> simp only [] <;> ring
  have ys : ∀ n, y n = (c.m1 * c.a1 + c.m2 * c.a2) * (z n).1 + (c.m2 * (1 - c.a3) - c.m1 * c.a2) * (z n).2 := by
    intro n
    have e : y n = (svfTick c (z n) (click (n + 1) 0)).2 := by rw [hy, hz]; rfl
    rw [e]
    simp only [svfTick, click, Nat.succ_ne_zero, if_false]
    ring
  have hDp : 1 < |(2 * c.a1 - 1) * (1 - 2 * c.a3) + 4 * c.a2 ^ 2| := by
    have e : (2 * c.a1 - 1) * (1 - 2 * c.a3) + 4 * c.a2 ^ 2 = (1 - g * k + g ^ 2) / (1 + g * (g + k)) := by
      rw [hc]; simp only [svfCoefs]; field_simp; ring
    rw [e, abs_div, one_lt_div (abs_pos.2 hD), lt_abs]
    left
    rw [abs_lt]
    constructor <;> nlinarith [mul_pos (neg_pos.2 hg) hk, sq_nonneg g]
  obtain ⟨n, hn⟩ := recurrence_unbounded (a := -(2 * c.a1 - 2 * c.a3)) (b := (2 * c.a1 - 1) * (1 - 2 * c.a3) + 4 * c.a2 ^ 2) (y := y)
    (fun n => by rw [ys, ys, ys, zs (n + 1), zs n]; ring) hDp (by
      rw [ys, ys, ys, zs 1, zs 0, z0]
      have e : ∀ p q : ℝ, p = q → q ≠ 0 → p ≠ 0 := fun p q h => h ▸ id
      refine e _ (-16 * g ^ 4 * (m1 ^ 2 - k * m1 * m2 + m2 ^ 2) / (1 + g * (g + k)) ^ 4) ?_ ?_
      · rw [hc]; simp only [svfCoefs]; field_simp; ring
      · exact div_ne_zero (mul_ne_zero (mul_ne_zero (by norm_num) (pow_ne_zero _ hg.ne)) h) (pow_ne_zero _ hD)) B
  refine ⟨n + 1, ?_⟩
  rw [hy, hc] at hn
  exact hn

section
variable {sr f : ℝ} (h1 : sr / 2 < f) (h2 : f < sr)
include h1 h2

theorem tan_beyond : Real.tan (Real.pi * f / sr) < 0 := by
  have hsr : 0 < sr := by linarith
  rw [← Real.tan_periodic.sub_eq]
  have e : Real.pi * f / sr - Real.pi = Real.pi * (f - sr) / sr := by field_simp
  rw [e]
  have hp := Real.pi_pos
  refine Real.tan_neg_of_neg_of_pi_div_two_lt ?_ ?_
  · rw [div_lt_iff₀ hsr]; nlinarith
  · rw [lt_div_iff₀ hsr]; nlinarith

theorem sin_beyond : Real.sin (2 * Real.pi * f / sr) < 0 := by
  have hsr : 0 < sr := by linarith
  rw [← Real.sin_periodic.sub_eq]
  have e : 2 * Real.pi * f / sr - 2 * Real.pi = 2 * Real.pi * (f - sr) / sr := by field_simp
  rw [e]
  have hp := Real.pi_pos
  refine Real.sin_neg_of_neg_of_neg_pi_lt ?_ ?_
  · rw [div_lt_iff₀ hsr]; nlinarith
  · rw [lt_div_iff₀ hsr]; nlinarith

theorem cos_beyond : |Real.cos (2 * Real.pi * f / sr)| < 1 := by
  have h := sin_beyond h1 h2
  have e := Real.sin_sq_add_cos_sq (2 * Real.pi * f / sr)
  rw [← sq_lt_one_iff_abs_lt_one]
  nlinarith [mul_pos_of_neg_of_neg h h]

end

/-! ## Safe filters -/

/-- **C99, filters that are safe at any frequency.** The one-pole lowpass never leaves the range of its input, the resonator forgets its past and the Moog filter stays
below 1, for every positive cutoff and sample rate and every state. Missing: the other filters, where it fails (below). -/
theorem C99_safe_partial {sr f : ℝ} (hsr : 0 < sr) (hf : 0 < f) :
    (∀ (lo hi v : ℝ) (w : Nat → Frame ℝ 1), lo ≤ v → v ≤ hi → Within lo hi (fun k => w k 0) →
      Within lo hi (fun k => (lowpoleNode (poleCoeff sr) 0).ticks.out (⟨v, poleCoeff sr f, f⟩ : LowpoleSt ℝ) w k 0)) ∧
    (∀ q, 0 < q → DiesOut (biquadNode (resonatorCoefs sr f q))) ∧
    (∀ (s : MoogSt) (w : Nat → Frame ℝ 3) (k : Nat), |(moogNode sr).ticks.out s w k 0| < 1) := by
  refine ⟨fun lo hi v w hv1 hv2 hw => ?_, fun q hq => ?_, fun s w k => C65_moog_bounded sr s w k⟩
  · exact C41_lowpole_range (C41_lowpole_cutoff hsr hf.le) (fun k h => absurd h (by norm_num)) ⟨hv1, hv2⟩ hw
  · refine C65_biquad_dies_out ?_
    have hr : Real.exp (-Real.pi * f / (q * sr)) < 1 := by
      rw [Real.exp_lt_one_iff]
      have := Real.pi_pos
      have : 0 < Real.pi * f / (q * sr) := by positivity
      have e : -Real.pi * f / (q * sr) = -(Real.pi * f / (q * sr)) := by ring
      rw [e]; linarith
    have hp := Real.exp_pos (-Real.pi * f / (q * sr))
    unfold Stable resonatorCoefs
    simp only []
    have hc := Real.abs_cos_le_one (2 * Real.pi * f / sr)
    constructor
    · rw [abs_of_pos (by positivity)]; nlinarith
    · rw [abs_mul, abs_mul, abs_neg, abs_two, abs_of_pos hp]
      nlinarith [mul_self_pos.2 (sub_ne_zero.2 hr.ne), mul_le_mul_of_nonneg_left hc hp.le]

example : DiesOut (biquadNode (resonatorCoefs 22050 15000 2)) := (C99_safe_partial (by norm_num) (by norm_num)).2.1 2 (by norm_num)

/-! ## Filters that blow up -/

/-- **C99 fails for state variable filters.** With a cutoff between half of the sample rate and the sample rate, `lowpass`, `highpass`, `bandpass`, `notch` and `allpass`
answer a single click with an output that grows beyond every bound, for every Q (except where the coefficients do not exist); so do `peak` unless Q is 1/2 and `bell` unless the
gain is 0 dB. -/
theorem C99_violation_svf {sr f q : ℝ} (h1 : sr / 2 < f) (h2 : f < sr) (hq : 0 < q)
    (hD : 1 + Real.tan (Real.pi * f / sr) * (Real.tan (Real.pi * f / sr) + 1 / q) ≠ 0) (gain : ℝ) :
    (∀ m ∈ [SvfMode.lowpass, .highpass, .bandpass, .notch, .allpass], BlowsUp fixedSvf (FixedSt.new m ⟨sr, f, q, gain⟩)) ∧
    (q ≠ 1 / 2 → BlowsUp fixedSvf (FixedSt.new .peak ⟨sr, f, q, gain⟩)) ∧
    (0 < gain → gain ≠ 1 → 1 + Real.tan (Real.pi * f / sr) * (Real.tan (Real.pi * f / sr) + 1 / (q * √gain)) ≠ 0 →
      BlowsUp fixedSvf (FixedSt.new .bell ⟨sr, f, q, gain⟩)) := by
  have ht := tan_beyond h1 h2
  have hk : 0 < 1 / q := by positivity
  have conv : ∀ m, BlowsUp (svfNode (m.coefs ⟨sr, f, q, gain⟩)) ((0, 0) : ℝ × ℝ) → BlowsUp fixedSvf (FixedSt.new m ⟨sr, f, q, gain⟩) := by
    intro m h B
    obtain ⟨k, hk⟩ := h B
    refine ⟨k, ?_⟩
    have e := congrFun (C82_fixed_output (FixedSt.new m ⟨sr, f, q, gain⟩) click k) 0
    have e2 : (fixedSvf.reset (FixedSt.new m ⟨sr, f, q, gain⟩) : FixedSt) = FixedSt.new m ⟨sr, f, q, gain⟩ := rfl
    rw [e2]
    exact lt_of_lt_of_eq hk (congrArg abs e.symm)
  refine ⟨fun m hm => conv m ?_, fun hq2 => conv _ ?_, fun hg hg1 hD2 => conv _ ?_⟩
  · simp only [List.mem_cons, List.not_mem_nil, or_false] at hm
    rcases hm with rfl | rfl | rfl | rfl | rfl
    · exact svf_blows_up ht hk hD (by norm_num) _
    · exact svf_blows_up ht hk hD (by ring_nf; norm_num) _
    · exact svf_blows_up ht hk hD (by norm_num) _
    · exact svf_blows_up ht hk hD (by have := pow_pos hk 2; nlinarith) _
    · exact svf_blows_up ht hk hD (by have := pow_pos hk 2; nlinarith) _
  · refine svf_blows_up ht hk hD ?_ _
    intro h
    have h4 : (1 / q - 2) * (1 / q + 2) = 0 := by nlinarith
    rcases mul_eq_zero.1 h4 with h5 | h5
    · apply hq2
      have : 1 / q = 2 := by linarith
      field_simp at this
      linarith
    · linarith
  · have ha : 0 < √gain := Real.sqrt_pos.2 hg
    have hka : 0 < 1 / (q * √gain) := by positivity
    refine svf_blows_up ht hka hD2 ?_ _
    have : √gain * √gain - 1 ≠ 0 := by rw [Real.mul_self_sqrt hg.le]; exact sub_ne_zero.2 hg1
    have := mul_ne_zero hka.ne' this
    have := pow_pos (abs_pos.2 this) 2
    rw [sq_abs] at this
    nlinarith

/-- **C99 fails for the Butterworth lowpass**, in the same way. -/
theorem C99_violation_butter {sr f : ℝ} (h1 : sr / 2 < f) (h2 : f < sr) (s : BiquadSt ℝ) : BlowsUp (biquadNode (butterLowpass sr f)) s := by
  have ht := tan_beyond h1 h2
  rw [mul_comm] at ht
  obtain ⟨t, et⟩ : ∃ t, t = Real.tan (f * Real.pi / sr) := ⟨_, rfl⟩
  rw [← et] at ht
  have h20 : (0 : ℝ) < √2 := by positivity
  have h22 : √2 * √2 = (2 : ℝ) := Real.mul_self_sqrt (by norm_num)
  have hD : 0 < 1 + √2 * t + t * t := by nlinarith [sq_nonneg (√2 * t + 1)]
  have e : butterLowpass sr f = ⟨(2 * t * t - 2) * (1 / (1 + √2 * t + t * t)), (1 - √2 * t + t * t) * (1 / (1 + √2 * t + t * t)), t * t * (1 / (1 + √2 * t + t * t)),
      2 * (t * t * (1 / (1 + √2 * t + t * t))), t * t * (1 / (1 + √2 * t + t * t))⟩ := by rw [et]; rfl
  rw [e]
  refine biquad_blows_up ?_ ?_ s
  · show 1 < |(1 - √2 * t + t * t) * (1 / (1 + √2 * t + t * t))|
    rw [mul_one_div, lt_abs]
    left
    rw [one_lt_div hD]
    nlinarith [mul_pos h20 (neg_pos.2 ht)]
  · have e : ∀ p q : ℝ, p = q → q ≠ 0 → p ≠ 0 := fun p q h => h ▸ id
    obtain ⟨D, hd⟩ : ∃ D, D = 1 + √2 * t + t * t := ⟨_, rfl⟩
    have e2 : 1 - √2 * t + t * t = 2 + 2 * t * t - D := by rw [hd]; ring
    simp only [e2, ← hd]
    rw [← hd] at hD
    have hD' := hD.ne'
    refine e _ (-16 * t ^ 4 / D ^ 4) ?_ (div_ne_zero (mul_ne_zero (by norm_num) (pow_ne_zero _ ht.ne)) (pow_ne_zero _ hD'))
    field_simp
    ring

/-- **C99 fails for the biquad lowpass and highpass**, in the same way. -/
theorem C99_violation_biquad {sr f q : ℝ} (h1 : sr / 2 < f) (h2 : f < sr) (hq : 0 < q) (hD : Real.sin (2 * Real.pi * f / sr) ≠ -(2 * q)) (s : BiquadSt ℝ) :
    BlowsUp (biquadNode (lowpassCoefs sr f q)) s ∧ BlowsUp (biquadNode (highpassCoefs sr f q)) s := by
  have hs := sin_beyond h1 h2
  have hc := cos_beyond h1 h2
  unfold lowpassCoefs highpassCoefs
  simp only []
  obtain ⟨b, hb⟩ : ∃ b, b = Real.cos (2 * Real.pi * f / sr) := ⟨_, rfl⟩
  obtain ⟨a, ha⟩ : ∃ a, a = Real.sin (2 * Real.pi * f / sr) / (2 * q) := ⟨_, rfl⟩
  rw [← hb, ← ha]
  rw [← hb, abs_lt] at hc
  have ha0 : a < 0 := by rw [ha]; exact div_neg_of_neg_of_pos hs (by positivity)
  have hD' : 1 + a ≠ 0 := by
    intro h
    apply hD
    have : a = -1 := by linarith
    rw [ha, div_eq_iff (by positivity)] at this
    linarith
  have h2' : 1 < |(1 - a) * (1 / (1 + a))| := by
    rw [mul_one_div, abs_div, one_lt_div (abs_pos.2 hD'), lt_abs]
    left
    rw [abs_lt]
    constructor <;> linarith
  have e : ∀ p q : ℝ, p = q → q ≠ 0 → p ≠ 0 := fun p q h => h ▸ id
  have hp : (1 - b) ≠ 0 := by linarith
  have hm : (1 + b) ≠ 0 := by linarith
  constructor
  · refine biquad_blows_up h2' (e _ (-(1 - b) ^ 2 * (1 + b) ^ 2 / (1 + a) ^ 4) ?_ ?_) s
    · simp only []; field_simp; ring
    · exact div_ne_zero (mul_ne_zero (neg_ne_zero.2 (pow_ne_zero _ hp)) (pow_ne_zero _ hm)) (pow_ne_zero _ hD')
  · refine biquad_blows_up h2' (e _ (-(1 - b) ^ 2 * (1 + b) ^ 2 / (1 + a) ^ 4) ?_ ?_) s
    · simp only []; field_simp; ring
    · exact div_ne_zero (mul_ne_zero (neg_ne_zero.2 (pow_ne_zero _ hp)) (pow_ne_zero _ hm)) (pow_ne_zero _ hD')

/-- `lowpass_hz(15000.0, 1.0)`, as at the start of `snaredrum`, at a sample rate of 22.05 kHz. -/
theorem C99_example : BlowsUp fixedSvf (FixedSt.new .lowpass ⟨22050, 15000, 1, 1⟩) := by
  refine (C99_violation_svf (by norm_num) (by norm_num) one_pos ?_ 1).1 _ (by simp)
  obtain ⟨t, et⟩ : ∃ t, t = Real.tan (Real.pi * 15000 / 22050) := ⟨_, rfl⟩
  rw [← et]
  nlinarith [sq_nonneg (2 * t + 1)]

example : BlowsUp (biquadNode (butterLowpass 22050 15000)) (⟨0, 0, 0, 0⟩ : BiquadSt ℝ) := C99_violation_butter (by norm_num) (by norm_num) _

end Fundsp.Filter
