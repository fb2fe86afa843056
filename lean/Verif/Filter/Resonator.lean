import Verif.Filter.Stable
import Mathlib.Analysis.SpecialFunctions.Trigonometric.ArctanDeriv
import Mathlib.Analysis.SpecialFunctions.Trigonometric.DerivHyp
import Mathlib.Analysis.SpecialFunctions.Trigonometric.Series
import Mathlib.Analysis.Calculus.Deriv.MeanValue
import Mathlib.Topology.Algebra.InfiniteSum.NatInt

/-!
# C109: bandwidth and gain of the resonator
-/

noncomputable section
namespace Fundsp.Filter
open _root_.Filter Topology

/-- `resonator_hz(center, q)` of the prelude: `prelude.rs:530-532`, `biquad.rs:321-338`. -/
def resonatorHz (sr center q : ℝ) : Node ℝ 1 1 := biquadNode (resonatorCoefs sr center q)

/-- `resonator_hz(center, bandwidth)` of the hacker and hacker32 modules: `hacker.rs:531-533`, `hacker32.rs:531-533`. The bandwidth is handed over as the Q. -/
def resonatorHzHacker (sr center bandwidth : ℝ) : Node ℝ 1 1 := resonatorHz sr center bandwidth

/-! ## Specification -/

/-- The filter passes the band from `lo` to `hi` (Hz): the power of a steady tone is multiplied by at most `P`, at some frequency by `P`, and by half of `P` or more exactly in the band. -/
structure HalfPower (n : Node ℝ 1 1) (sr lo hi P : ℝ) : Prop where
  pos : 0 < lo ∧ lo ≤ hi ∧ hi < sr / 2 ∧ 0 < P
  gains : ∀ f, 0 < f → f < sr / 2 → ∃ H, GainAt n sr f H ∧ Complex.normSq H ≤ P ∧ (P / 2 ≤ Complex.normSq H ↔ lo ≤ f ∧ f ≤ hi)
  peak : ∃ f H, 0 < f ∧ f < sr / 2 ∧ GainAt n sr f H ∧ Complex.normSq H = P

/-- The response to a click, from silence. -/
def clickOut (n : Node ℝ 1 1) (s : n.σ) (k : Nat) : ℝ := n.ticks.out s (fun j _ => if j = 0 then 1 else 0) k 0

/-! ## The power of the resonator -/

theorem polar_cos_sin (θ : ℝ) : polar (-θ) = (Real.cos θ : ℂ) - (Real.sin θ : ℂ) * Complex.I := by
  unfold polar
  rw [Complex.exp_mul_I]
  push_cast
  rw [Complex.cos_neg, Complex.sin_neg]; ring

/-- Power of a biquad with numerator `b (1 - z²)`. -/
theorem power_eq (a1 a2 b θ : ℝ) : Complex.normSq (biquadResponse ⟨a1, a2, b, 0, -b⟩ θ) =
    4 * b ^ 2 * Real.sin θ ^ 2 / (((1 + a2) * Real.cos θ + a1) ^ 2 + (1 - a2) ^ 2 * Real.sin θ ^ 2) := by
  unfold biquadResponse
  simp only
  rw [Complex.normSq_div, polar_cos_sin]
  have h := Real.sin_sq_add_cos_sq θ
  generalize Real.sin θ = s at *
  generalize Real.cos θ = c at *
  have hc : c ^ 2 = 1 - s ^ 2 := by linarith
  congr 1
  · simp only [Complex.normSq_apply]
    simp
    have h4 : c ^ 4 = (1 - s ^ 2) ^ 2 := by rw [← hc]; ring
    ring_nf
    rw [h4, hc]; ring
  · simp only [Complex.normSq_apply]
    simp
    have h4 : c ^ 4 = (1 - s ^ 2) ^ 2 := by rw [← hc]; ring
    have h3 : c ^ 3 = c * (1 - s ^ 2) := by rw [← hc]; ring
    ring_nf
    rw [h4, h3, hc]; ring

section
variable {sr f q : ℝ} (hf : 0 < f) (hsr : 2 * f < sr) (hq : 0 < q)
include hf hsr hq

theorem radius_lt : Real.exp (-Real.pi * f / (q * sr)) < 1 ∧ 0 < Real.exp (-Real.pi * f / (q * sr)) := by
  refine ⟨?_, Real.exp_pos _⟩
  rw [Real.exp_lt_one_iff]
  have h0 : 0 < sr := by linarith
  have := Real.pi_pos
  have : 0 < Real.pi * f / (q * sr) := by positivity
  have e : -Real.pi * f / (q * sr) = -(Real.pi * f / (q * sr)) := by ring
  rw [e]; linarith

end

theorem tanh_radius (x : ℝ) : (1 - Real.exp (-x) * Real.exp (-x)) / (1 + Real.exp (-x) * Real.exp (-x)) = Real.tanh x := by
  rw [Real.tanh_eq_sinh_div_cosh, Real.sinh_eq, Real.cosh_eq, Real.exp_neg]
  have := Real.exp_pos x
  field_simp

/-- The band of angles in which `(cos θ - p)² ≤ t² sin² θ`. -/
theorem band_angles {p t : ℝ} (hp : |p| < 1) (ht : 0 < t) : ∃ χ : ℝ, 0 < χ - Real.arctan t ∧ χ + Real.arctan t < Real.pi ∧
    ∀ θ, 0 < θ → θ < Real.pi → ((Real.cos θ - p) ^ 2 ≤ t ^ 2 * Real.sin θ ^ 2 ↔ χ - Real.arctan t ≤ θ ∧ θ ≤ χ + Real.arctan t) := by
  have hβ0 : 0 < Real.arctan t := Real.arctan_pos.2 ht
  have hβ1 := Real.arctan_lt_pi_div_two t
  have hcβ : 0 < Real.cos (Real.arctan t) := Real.cos_arctan_pos t
  have htan : Real.sin (Real.arctan t) = t * Real.cos (Real.arctan t) := by
    have := Real.tan_arctan t
    rw [Real.tan_eq_sin_div_cos, div_eq_iff hcβ.ne'] at this
    exact this
  have hpi := Real.pi_pos
  rw [abs_lt] at hp
  generalize Real.arctan t = β at *
  have hcβ1 : Real.cos β ≤ 1 := Real.cos_le_one β
  have hlt : p * Real.cos β < Real.cos β := by nlinarith
  have hgt : -Real.cos β < p * Real.cos β := by nlinarith
  have hχc : Real.cos (Real.arccos (p * Real.cos β)) = p * Real.cos β := Real.cos_arccos (by linarith) (by linarith)
  have hχ0 := Real.arccos_nonneg (p * Real.cos β)
  have hχ1 := Real.arccos_le_pi (p * Real.cos β)
  generalize Real.arccos (p * Real.cos β) = χ at *
  have h1 : β < χ := by
    by_contra h
    push Not at h
    have := Real.cos_le_cos_of_nonneg_of_le_pi hχ0 (by linarith) h
    linarith
  have h2 : χ < Real.pi - β := by
    by_contra h
    push Not at h
    have := Real.cos_le_cos_of_nonneg_of_le_pi (by linarith : 0 ≤ Real.pi - β) hχ1 h
    rw [Real.cos_pi_sub] at this
    linarith
  refine ⟨χ, by linarith, by linarith, fun θ h0 hp' => ?_⟩
  have hs : 0 < Real.sin θ := Real.sin_pos_of_pos_of_lt_pi h0 hp'
  have e1 : (Real.cos θ - p) ^ 2 ≤ t ^ 2 * Real.sin θ ^ 2 ↔ Real.cos χ ≤ Real.cos (θ - β) ∧ Real.cos (θ + β) ≤ Real.cos χ := by
    rw [← mul_pow, sq_le_sq, abs_of_pos (mul_pos ht hs), abs_le, Real.cos_sub, Real.cos_add, hχc, htan]
    constructor
    · rintro ⟨ha, hb⟩
      constructor <;> nlinarith
    · rintro ⟨ha, hb⟩
      constructor
      · have : 0 ≤ (Real.cos θ + t * Real.sin θ - p) * Real.cos β := by nlinarith
        have := nonneg_of_mul_nonneg_left this hcβ
        linarith
      · have : 0 ≤ (p - (Real.cos θ - t * Real.sin θ)) * Real.cos β := by nlinarith
        have := nonneg_of_mul_nonneg_left this hcβ
        linarith
  rw [e1]
  constructor
  · rintro ⟨ha, hb⟩
    constructor
    · by_contra h
      push Not at h
      have := Real.cos_lt_cos_of_nonneg_of_le_pi (by linarith : 0 ≤ θ + β) hχ1 (by linarith)
      linarith
    · by_contra h
      push Not at h
      have := Real.cos_lt_cos_of_nonneg_of_le_pi hχ0 (by linarith : θ - β ≤ Real.pi) (by linarith)
      linarith
  · rintro ⟨ha, hb⟩
    constructor
    · rw [← Real.cos_abs (θ - β)]
      exact Real.cos_le_cos_of_nonneg_of_le_pi (abs_nonneg _) hχ1 (by rw [abs_le]; constructor <;> linarith)
    · by_cases h : θ + β ≤ Real.pi
      · exact Real.cos_le_cos_of_nonneg_of_le_pi hχ0 h (by linarith)
      · push Not at h
        rw [← Real.cos_two_pi_sub (θ + β)]
        exact Real.cos_le_cos_of_nonneg_of_le_pi hχ0 (by linarith) (by linarith)

/-- **C109.** The band of a resonator, in which it passes half of the greatest power or more, is exactly this wide; and the greatest power. -/
theorem C109_bandwidth {sr f q : ℝ} (hf : 0 < f) (hsr : 2 * f < sr) (hq : 0 < q) : ∃ lo hi : ℝ,
    HalfPower (resonatorHz sr f q) sr lo hi (1 / (1 - Real.exp (-(2 * Real.pi * f / (q * sr))))) ∧ hi - lo = sr / Real.pi * Real.arctan (Real.tanh (Real.pi * f / (q * sr))) := by
  have h0 : 0 < sr := by linarith
  have hpi := Real.pi_pos
  obtain ⟨hr1, hr0⟩ := radius_lt hf hsr hq
  have hst := C65_resonator_stable hf hsr hq
  have hco := omega_cos_lt hf hsr
  have hx : 0 < Real.pi * f / (q * sr) := by positivity
  have hth := tanh_radius (Real.pi * f / (q * sr))
  have hE : Real.exp (-(2 * Real.pi * f / (q * sr))) = Real.exp (-Real.pi * f / (q * sr)) * Real.exp (-Real.pi * f / (q * sr)) := by
    rw [← Real.exp_add]; congr 1; ring
  have hE' : Real.exp (-(Real.pi * f / (q * sr))) = Real.exp (-Real.pi * f / (q * sr)) := by congr 1; ring
  rw [hE'] at hth
  rw [hE]
  have hform : resonatorCoefs sr f q = ⟨-2 * Real.exp (-Real.pi * f / (q * sr)) * Real.cos (2 * Real.pi * f / sr), Real.exp (-Real.pi * f / (q * sr)) * Real.exp (-Real.pi * f / (q * sr)),
    √(1 - Real.exp (-Real.pi * f / (q * sr)) * Real.exp (-Real.pi * f / (q * sr))) * (1 / 2), 0, -(√(1 - Real.exp (-Real.pi * f / (q * sr)) * Real.exp (-Real.pi * f / (q * sr))) * (1 / 2))⟩ := rfl
  have htp : 0 < Real.tanh (Real.pi * f / (q * sr)) := by
    rw [← hth]
    refine div_pos ?_ (by positivity)
    nlinarith
  unfold resonatorHz
  rw [hform] at hst ⊢
  generalize Real.tanh (Real.pi * f / (q * sr)) = t at *
  generalize Real.exp (-Real.pi * f / (q * sr)) = r at *
  generalize Real.cos (2 * Real.pi * f / sr) = co at *
  have hrr : 0 < 1 - r * r := by nlinarith
  have hr2 : 0 < 1 + r * r := by positivity
  have hp : |2 * r * co / (1 + r * r)| < 1 := by
    rw [abs_div, abs_of_pos hr2, div_lt_one hr2, abs_mul, abs_of_pos (by positivity : 0 < 2 * r)]
    nlinarith [sq_nonneg (1 - r), abs_nonneg co]
  generalize hpdef : 2 * r * co / (1 + r * r) = p at *
  have hpe : 2 * r * co = p * (1 + r * r) := by rw [← hpdef]; field_simp
  have hte : 1 - r * r = t * (1 + r * r) := by rw [← hth]; field_simp
  obtain ⟨χ, hl, hh, hband⟩ := band_angles hp htp
  have hpow : ∀ θ, 0 < θ → θ < Real.pi → Complex.normSq (biquadResponse ⟨-2 * r * co, r * r, √(1 - r * r) * (1 / 2), 0, -(√(1 - r * r) * (1 / 2))⟩ θ) =
      (1 / (1 - r * r)) * (t ^ 2 * Real.sin θ ^ 2 / ((Real.cos θ - p) ^ 2 + t ^ 2 * Real.sin θ ^ 2)) := by
    intro θ a b
    have hs : 0 < Real.sin θ := Real.sin_pos_of_pos_of_lt_pi a b
    rw [power_eq, show 4 * (√(1 - r * r) * (1 / 2)) ^ 2 = √(1 - r * r) ^ 2 by ring, Real.sq_sqrt hrr.le]
    have e1 : (1 + r * r) * Real.cos θ + -2 * r * co = (1 + r * r) * (Real.cos θ - p) := by linear_combination -hpe
    rw [e1, hte]
    have : 0 < (Real.cos θ - p) ^ 2 + t ^ 2 * Real.sin θ ^ 2 := by positivity
    have h3 : ((1 + r * r) * (Real.cos θ - p)) ^ 2 + (t * (1 + r * r)) ^ 2 * Real.sin θ ^ 2 = (1 + r * r) ^ 2 * ((Real.cos θ - p) ^ 2 + t ^ 2 * Real.sin θ ^ 2) := by ring
    rw [h3]
    generalize (Real.cos θ - p) ^ 2 + t ^ 2 * Real.sin θ ^ 2 = D at *
    field_simp
  have hP : 0 < 1 / (1 - r * r) := by positivity
  have hgain : ∀ g : ℝ, GainAt (biquadNode ⟨-2 * r * co, r * r, √(1 - r * r) * (1 / 2), 0, -(√(1 - r * r) * (1 / 2))⟩) sr g
      (biquadResponse ⟨-2 * r * co, r * r, √(1 - r * r) * (1 / 2), 0, -(√(1 - r * r) * (1 / 2))⟩ (phaseStep g sr)) := fun g => C44_biquad _ hst.1 hst.2 _
  refine ⟨(χ - Real.arctan t) * sr / (2 * Real.pi), (χ + Real.arctan t) * sr / (2 * Real.pi), ⟨⟨by positivity, ?_, ?_, hP⟩, fun g g0 g1 => ?_, ?_⟩, by field_simp; ring⟩
  · have := Real.arctan_pos.2 htp
    gcongr
    linarith
  · rw [div_lt_iff₀ (by positivity)]; nlinarith
  · have hθ0 : 0 < phaseStep g sr := by unfold phaseStep; positivity
    have hθ1 : phaseStep g sr < Real.pi := by unfold phaseStep; rw [div_lt_iff₀ h0]; nlinarith
    refine ⟨_, hgain g, ?_, ?_⟩
    · rw [hpow _ hθ0 hθ1]
      have hs : 0 < Real.sin (phaseStep g sr) := Real.sin_pos_of_pos_of_lt_pi hθ0 hθ1
      refine mul_le_of_le_one_right hP.le ?_
      rw [div_le_one (by positivity)]
      linarith [sq_nonneg (Real.cos (phaseStep g sr) - p)]
    · rw [hpow _ hθ0 hθ1]
      have hs : 0 < Real.sin (phaseStep g sr) := Real.sin_pos_of_pos_of_lt_pi hθ0 hθ1
      have hb := hband _ hθ0 hθ1
      have e : 1 / (1 - r * r) / 2 ≤ 1 / (1 - r * r) * (t ^ 2 * Real.sin (phaseStep g sr) ^ 2 / ((Real.cos (phaseStep g sr) - p) ^ 2 + t ^ 2 * Real.sin (phaseStep g sr) ^ 2)) ↔
          (Real.cos (phaseStep g sr) - p) ^ 2 ≤ t ^ 2 * Real.sin (phaseStep g sr) ^ 2 := by
        rw [div_eq_mul_one_div, mul_le_mul_iff_right₀ hP, le_div_iff₀ (by positivity)]
        constructor <;> intro h <;> linarith
      rw [e, hb]
      unfold phaseStep
      rw [div_le_iff₀ (by positivity : 0 < 2 * Real.pi), le_div_iff₀ (by positivity : 0 < 2 * Real.pi), le_div_iff₀ h0, div_le_iff₀ h0]
  · refine ⟨Real.arccos p * sr / (2 * Real.pi), _, ?_, ?_, hgain _, ?_⟩
    · rw [abs_lt] at hp
      have := Real.arccos_pos.2 hp.2
      positivity
    · rw [abs_lt] at hp
      have : Real.arccos p < Real.pi := by
        refine lt_of_le_of_ne (Real.arccos_le_pi p) fun h => ?_
        have := Real.arccos_eq_pi.1 h
        linarith
      rw [div_lt_iff₀ (by positivity)]; nlinarith
    · have e : phaseStep (Real.arccos p * sr / (2 * Real.pi)) sr = Real.arccos p := by unfold phaseStep; field_simp
      rw [abs_lt] at hp
      have h1 := Real.arccos_pos.2 hp.2
      have h2 : Real.arccos p < Real.pi := by
        refine lt_of_le_of_ne (Real.arccos_le_pi p) fun h => ?_
        have := Real.arccos_eq_pi.1 h
        linarith
      rw [e, hpow _ h1 h2, Real.cos_arccos hp.1.le hp.2.le]
      have hs : 0 < Real.sin (Real.arccos p) := Real.sin_pos_of_pos_of_lt_pi h1 h2
      rw [sub_self, zero_pow two_ne_zero, zero_add, div_self (by positivity), mul_one]

/-- Only one band can be the one passed. -/
theorem HalfPower.unique {n : Node ℝ 1 1} {sr lo hi P lo' hi' P' : ℝ} (hs : Nonempty n.σ) (h : HalfPower n sr lo hi P) (h' : HalfPower n sr lo' hi' P') : lo = lo' ∧ hi = hi' ∧ P = P' := by
  have one : ∀ {f H K}, GainAt n sr f H → GainAt n sr f K → H = K := fun a b => a.unique b ⟨hs.some, trivial⟩
  have hP : P = P' := by
    apply le_antisymm
    · obtain ⟨f, H, f0, f1, hg, e⟩ := h.peak
      obtain ⟨K, hk, hle, _⟩ := h'.gains f f0 f1
      rw [← e, one hg hk]; exact hle
    · obtain ⟨f, H, f0, f1, hg, e⟩ := h'.peak
      obtain ⟨K, hk, hle, _⟩ := h.gains f f0 f1
      rw [← e, one hg hk]; exact hle
  subst hP
  have iff : ∀ f, 0 < f → f < sr / 2 → (lo ≤ f ∧ f ≤ hi ↔ lo' ≤ f ∧ f ≤ hi') := by
    intro f f0 f1
    obtain ⟨H, hg, _, e⟩ := h.gains f f0 f1
    obtain ⟨K, hk, _, e'⟩ := h'.gains f f0 f1
    rw [← e, ← e', one hg hk]
  obtain ⟨a1, a2, a3, _⟩ := h.pos
  obtain ⟨b1, b2, b3, _⟩ := h'.pos
  have i1 := (iff lo a1 (by linarith)).1 ⟨le_rfl, a2⟩
  have i2 := (iff hi (by linarith) a3).1 ⟨a2, le_rfl⟩
  have i3 := (iff lo' b1 (by linarith)).2 ⟨le_rfl, b2⟩
  have i4 := (iff hi' (by linarith) b3).2 ⟨b2, le_rfl⟩
  exact ⟨by linarith, by linarith, rfl⟩

/-! ## How wide it is -/

theorem gd_deriv (x : ℝ) : HasDerivAt (fun x => Real.arctan (Real.sinh x / Real.cosh x)) (1 / Real.cosh (2 * x)) x := by
  have hc := Real.cosh_pos x
  have h1 : HasDerivAt (fun x => Real.sinh x / Real.cosh x) ((Real.cosh x * Real.cosh x - Real.sinh x * Real.sinh x) / Real.cosh x ^ 2) x :=
    (Real.hasDerivAt_sinh x).div (Real.hasDerivAt_cosh x) hc.ne'
  refine (h1.arctan).congr_deriv ?_
  rw [Real.cosh_two_mul]
  have := Real.cosh_sq x
  have h2 : 0 < Real.cosh x ^ 2 + Real.sinh x ^ 2 := by positivity
  field_simp
  linarith

theorem gd_le {x : ℝ} (hx : 0 ≤ x) : Real.arctan (Real.sinh x / Real.cosh x) ≤ x ∧ x - 2 / 3 * x ^ 3 ≤ Real.arctan (Real.sinh x / Real.cosh x) := by
  constructor
  · have hd : ∀ y, HasDerivAt (fun x => x - Real.arctan (Real.sinh x / Real.cosh x)) (1 - 1 / Real.cosh (2 * y)) y := fun y => (hasDerivAt_id y).sub (gd_deriv y)
    have := monotone_of_deriv_nonneg (f := fun x => x - Real.arctan (Real.sinh x / Real.cosh x)) (fun y => (hd y).differentiableAt) (fun y => by
      rw [(hd y).deriv, sub_nonneg, div_le_one (Real.cosh_pos _)]; exact Real.one_le_cosh _) hx
    simp at this
    exact this
  · have hd : ∀ y, HasDerivAt (fun x => Real.arctan (Real.sinh x / Real.cosh x) - (x - 2 / 3 * x ^ 3)) (1 / Real.cosh (2 * y) - (1 - 2 * y ^ 2)) y := fun y => by
      refine ((gd_deriv y).sub ((hasDerivAt_id y).sub (((hasDerivAt_id y).pow 3).const_mul (2 / 3)))).congr_deriv ?_
      simp; ring
    have := monotone_of_deriv_nonneg (f := fun x => Real.arctan (Real.sinh x / Real.cosh x) - (x - 2 / 3 * x ^ 3)) (fun y => (hd y).differentiableAt) (fun y => by
      rw [(hd y).deriv, sub_nonneg, le_div_iff₀ (Real.cosh_pos _)]
      have h1 := Real.cosh_le_exp_half_sq (2 * y)
      rw [show (2 * y) ^ 2 / 2 = 2 * y ^ 2 by ring] at h1
      have h2 := Real.add_one_le_exp (-(2 * y ^ 2))
      have hc := Real.cosh_pos (2 * y)
      by_cases h : 0 ≤ 1 - 2 * y ^ 2
      · calc (1 - 2 * y ^ 2) * Real.cosh (2 * y) ≤ Real.exp (-(2 * y ^ 2)) * Real.exp (2 * y ^ 2) := by
              apply mul_le_mul (by linarith) h1 hc.le (Real.exp_pos _).le
          _ = 1 := by rw [← Real.exp_add]; simp
      · push Not at h; nlinarith) hx
    simp at this
    linarith

/-- **C109, in part: for the Q of the prelude** (missing is the bandwidth of the hacker modules, see `C109_violation_bandwidth`). The band passed is the center frequency divided by the Q, up to the square of the angle `π f / (q sr)`, and never wider. -/
theorem C109_q_partial {sr f q : ℝ} (hf : 0 < f) (hsr : 2 * f < sr) (hq : 0 < q) : ∃ lo hi P : ℝ, HalfPower (resonatorHz sr f q) sr lo hi P ∧ hi - lo ≤ f / q ∧
    f / q * (1 - 2 / 3 * (Real.pi * f / (q * sr)) ^ 2) ≤ hi - lo := by
  obtain ⟨lo, hi, h, e⟩ := C109_bandwidth hf hsr hq
  have h0 : 0 < sr := by linarith
  have hpi := Real.pi_pos
  have hx : 0 ≤ Real.pi * f / (q * sr) := by positivity
  obtain ⟨g1, g2⟩ := gd_le hx
  rw [← Real.tanh_eq_sinh_div_cosh] at g1 g2
  refine ⟨lo, hi, _, h, ?_, ?_⟩
  · rw [e]
    calc sr / Real.pi * _ ≤ sr / Real.pi * (Real.pi * f / (q * sr)) := by gcongr
      _ = f / q := by field_simp
  · rw [e]
    calc f / q * (1 - 2 / 3 * (Real.pi * f / (q * sr)) ^ 2) = sr / Real.pi * (Real.pi * f / (q * sr) - 2 / 3 * (Real.pi * f / (q * sr)) ^ 3) := by field_simp
      _ ≤ _ := by gcongr

/-- **C109, for the center.** A resonator at up to a quarter of the sample rate with a Q of one half or more passes its center frequency. -/
theorem C109_center {sr f q lo hi P : ℝ} (hf : 0 < f) (hsr : 4 * f ≤ sr) (hq : 1 / 2 ≤ q) (h : HalfPower (resonatorHz sr f q) sr lo hi P) : lo ≤ f ∧ f ≤ hi := by
  have h0 : 0 < sr := by linarith
  have hpi := Real.pi_pos
  have hsr' : 2 * f < sr := by linarith
  have hq' : 0 < q := by linarith
  obtain ⟨hr1, hr0⟩ := radius_lt hf hsr' hq'
  obtain ⟨_, _, hb, _⟩ := C109_bandwidth hf hsr' hq'
  obtain ⟨_, _, eP⟩ := h.unique ⟨(⟨0, 0, 0, 0⟩ : BiquadSt ℝ)⟩ hb
  have hst := C65_resonator_stable hf hsr' hq'
  obtain ⟨H, hg, _, hiff⟩ := h.gains f hf (by linarith)
  rw [← hiff]
  have hg' : GainAt (resonatorHz sr f q) sr f (biquadResponse (resonatorCoefs sr f q) (phaseStep f sr)) := C44_biquad _ hst.1 hst.2 _
  rw [HasResponse.unique hg hg' ⟨(⟨0, 0, 0, 0⟩ : BiquadSt ℝ), trivial⟩]
  have hE : Real.exp (-(2 * Real.pi * f / (q * sr))) = Real.exp (-Real.pi * f / (q * sr)) * Real.exp (-Real.pi * f / (q * sr)) := by
    rw [← Real.exp_add]; congr 1; ring
  rw [eP, hE]
  have hω : phaseStep f sr = 2 * Real.pi * f / sr := by unfold phaseStep; ring
  unfold resonatorCoefs
  dsimp only
  rw [power_eq, hω]
  have w0 : 0 < 2 * Real.pi * f / sr := by positivity
  have w1 : 2 * Real.pi * f / sr ≤ Real.pi / 2 := by rw [div_le_div_iff₀ h0 (by norm_num)]; nlinarith
  have hx : 1 - Real.exp (-Real.pi * f / (q * sr)) ≤ 2 * Real.pi * f / sr := by
    have := Real.add_one_le_exp (-Real.pi * f / (q * sr))
    have e : -(-Real.pi * f / (q * sr)) = Real.pi * f / (q * sr) := by ring
    have : Real.pi * f / (q * sr) ≤ 2 * Real.pi * f / sr := by
      rw [div_le_div_iff₀ (by positivity) h0]
      have : 0 < Real.pi * f * sr := by positivity
      nlinarith
    linarith
  generalize 2 * Real.pi * f / sr = w at *
  generalize Real.exp (-Real.pi * f / (q * sr)) = r at *
  have hs : 0 < Real.sin w := Real.sin_pos_of_pos_of_lt_pi w0 (by linarith)
  have hc : 0 ≤ Real.cos w := Real.cos_nonneg_of_neg_pi_div_two_le_of_le (by linarith) w1
  have hsc : w * Real.cos w ≤ Real.sin w := by
    rcases w1.lt_or_eq with hlt | heq
    · have := Real.lt_tan w0 hlt
      have hcp : 0 < Real.cos w := Real.cos_pos_of_mem_Ioo ⟨by linarith, hlt⟩
      rw [Real.tan_eq_sin_div_cos, lt_div_iff₀ hcp] at this
      exact this.le
    · rw [heq, Real.cos_pi_div_two, mul_zero, Real.sin_pi_div_two]; norm_num
  have hrr : 0 < 1 - r * r := by nlinarith
  have key : (1 - r) * Real.cos w ≤ (1 + r) * Real.sin w := by nlinarith
  have key2 : ((1 - r) * Real.cos w) ^ 2 ≤ ((1 + r) * Real.sin w) ^ 2 := by
    apply pow_le_pow_left₀ _ key
    apply mul_nonneg _ hc
    linarith
  rw [show 4 * (√(1 - r * r) * (1 / 2)) ^ 2 = √(1 - r * r) ^ 2 by ring, Real.sq_sqrt hrr.le]
  rw [div_div, div_le_div_iff₀ (by positivity) (by positivity)]
  have e1 : (1 + r * r) * Real.cos w + -2 * r * Real.cos w = (1 - r) * ((1 - r) * Real.cos w) := by ring
  rw [e1, mul_pow]
  have := mul_le_mul_of_nonneg_left key2 (sq_nonneg (1 - r))
  nlinarith

/-- **C109, the negation for the bandwidth of the hacker modules.** A resonator at 440 Hz with a bandwidth of 110 Hz, as documented, passes a band of 4 Hz at most. -/
theorem C109_violation_bandwidth : (∃ lo hi P : ℝ, HalfPower (resonatorHzHacker 44100 440 110) 44100 lo hi P) ∧
    ∀ lo hi P : ℝ, HalfPower (resonatorHzHacker 44100 440 110) 44100 lo hi P → hi - lo ≤ 4 := by
  obtain ⟨lo, hi, P, h, h1, _⟩ := C109_q_partial (sr := 44100) (f := 440) (q := 110) (by norm_num) (by norm_num) (by norm_num)
  refine ⟨⟨lo, hi, P, h⟩, fun lo' hi' P' h' => ?_⟩
  obtain ⟨e1, e2, _⟩ := HalfPower.unique ⟨(⟨0, 0, 0, 0⟩ : BiquadSt ℝ)⟩ h h'
  rw [← e1, ← e2]
  norm_num at h1
  linarith

/-- In the hacker modules a resonator with twice the bandwidth passes a narrower band. -/
theorem C109_violation_order : ∃ lo hi P lo' hi' P' : ℝ, HalfPower (resonatorHzHacker 44100 440 110) 44100 lo hi P ∧ HalfPower (resonatorHzHacker 44100 440 220) 44100 lo' hi' P' ∧ hi' - lo' < hi - lo := by
  obtain ⟨lo, hi, P, h, _, h1⟩ := C109_q_partial (sr := 44100) (f := 440) (q := 110) (by norm_num) (by norm_num) (by norm_num)
  obtain ⟨lo', hi', P', h', h2, _⟩ := C109_q_partial (sr := 44100) (f := 440) (q := 220) (by norm_num) (by norm_num) (by norm_num)
  refine ⟨lo, hi, P, lo', hi', P', h, h', ?_⟩
  have hpi := Real.pi_pos
  have hpi4 := Real.pi_lt_four
  have : (Real.pi * 440 / (110 * 44100)) ^ 2 ≤ (4 * 440 / (110 * 44100)) ^ 2 := by gcongr
  norm_num at h1 h2 this ⊢
  linarith

/-- **C109, the negation for tones.** The gain of the resonator for tones is not constant: the narrower the band, the louder. With the Q four times as high the greatest power is at least 3 times as high. -/
theorem C109_violation_tones : ∃ lo hi P lo' hi' P' : ℝ, HalfPower (resonatorHz 44100 440 10) 44100 lo hi P ∧ HalfPower (resonatorHz 44100 440 40) 44100 lo' hi' P' ∧ 3 * P ≤ P' := by
  obtain ⟨lo, hi, h, _⟩ := C109_bandwidth (sr := 44100) (f := 440) (q := 10) (by norm_num) (by norm_num) (by norm_num)
  obtain ⟨lo', hi', h', _⟩ := C109_bandwidth (sr := 44100) (f := 440) (q := 40) (by norm_num) (by norm_num) (by norm_num)
  refine ⟨lo, hi, _, lo', hi', _, h, h', ?_⟩
  have hpi := Real.pi_pos
  have hpi4 := Real.pi_lt_four
  have e : Real.exp (-(2 * Real.pi * 440 / (10 * 44100))) = Real.exp (-(2 * Real.pi * 440 / (40 * 44100))) ^ 4 := by
    rw [← Real.exp_nat_mul]; congr 1; push_cast; ring
  have h1 := Real.add_one_le_exp (-(2 * Real.pi * 440 / (40 * 44100)))
  have h2 : Real.exp (-(2 * Real.pi * 440 / (40 * 44100))) < 1 := by rw [Real.exp_lt_one_iff]; have : 0 < 2 * Real.pi * 440 / (40 * 44100) := by positivity
                                                                     linarith
  rw [e]
  have h3 : (0.99 : ℝ) ≤ Real.exp (-(2 * Real.pi * 440 / (40 * 44100))) := by
    refine le_trans ?_ h1
    have : 2 * Real.pi * 440 / (40 * 44100) ≤ 2 * 4 * 440 / (40 * 44100) := by gcongr
    norm_num at this ⊢
    linarith
  generalize Real.exp (-(2 * Real.pi * 440 / (40 * 44100))) = y at *
  have h4 : 0 < 1 - y := by linarith
  have h5 : 0 < 1 - y ^ 4 := by nlinarith [mul_pos h4 (by positivity : 0 < 1 + y), sq_nonneg y, mul_pos (mul_pos h4 (by positivity : 0 < 1 + y)) (by positivity : 0 < 1 + y ^ 2)]
  rw [← div_eq_mul_one_div, div_le_div_iff₀ h5 h4]
  have : (1 - y ^ 4) = (1 - y) * (1 + y + y ^ 2 + y ^ 3) := by ring
  rw [this]
  have h6 : 3 ≤ 1 + y + y ^ 2 + y ^ 3 := by nlinarith [sq_nonneg y, pow_le_pow_left₀ (by norm_num : (0:ℝ) ≤ 0.99) h3 2, pow_le_pow_left₀ (by norm_num : (0:ℝ) ≤ 0.99) h3 3]
  nlinarith

/-! ## Level of noise -/

theorem click_rec (c : BiquadCoefs ℝ) (k : Nat) : clickOut (biquadNode c) (⟨0, 0, 0, 0⟩ : BiquadSt ℝ) (k + 3) =
    -c.a1 * clickOut (biquadNode c) (⟨0, 0, 0, 0⟩ : BiquadSt ℝ) (k + 2) - c.a2 * clickOut (biquadNode c) (⟨0, 0, 0, 0⟩ : BiquadSt ℝ) (k + 1) := by
  have h : clickOut (biquadNode c) (⟨0, 0, 0, 0⟩ : BiquadSt ℝ) (k + 3) = c.b0 * (if k + 3 = 0 then 1 else 0) + c.b1 * (if k + 2 = 0 then 1 else 0) + c.b2 * (if k + 1 = 0 then 1 else 0) -
    c.a1 * clickOut (biquadNode c) (⟨0, 0, 0, 0⟩ : BiquadSt ℝ) (k + 2) - c.a2 * clickOut (biquadNode c) (⟨0, 0, 0, 0⟩ : BiquadSt ℝ) (k + 1) := rfl
  rw [h]; simp

/-- The energy of what is still to come from the last two outputs. -/
def restEnergy (a1 a2 u v : ℝ) : ℝ :=
  let P := (1 + a2) / ((1 - a2) * ((1 + a2) ^ 2 - a1 ^ 2))
  (P - 1) * u ^ 2 + 2 * (P * a1 * a2 / (1 + a2)) * u * v + P * a2 ^ 2 * v ^ 2

theorem restEnergy_step {a1 a2 : ℝ} (h2 : |a2| < 1) (h1 : |a1| < 1 + a2) (u v : ℝ) : restEnergy a1 a2 u v = (-a1 * u - a2 * v) ^ 2 + restEnergy a1 a2 (-a1 * u - a2 * v) u := by
  rw [abs_lt] at h1 h2
  have e1 : 1 - a2 ≠ 0 := by linarith
  have e2 : (1 + a2) ^ 2 - a1 ^ 2 ≠ 0 := by nlinarith
  have e3 : 1 + a2 ≠ 0 := by linarith
  unfold restEnergy
  field_simp
  ring

/-- The energy of the click response of any stable biquad with numerator `b (1 - z²)`. -/
theorem click_energy {a1 a2 b : ℝ} (h2 : |a2| < 1) (h1 : |a1| < 1 + a2) :
    HasSum (fun k => clickOut (biquadNode ⟨a1, a2, b, 0, -b⟩) (⟨0, 0, 0, 0⟩ : BiquadSt ℝ) k ^ 2) (2 * b ^ 2 / (1 - a2)) := by
  have hd := C65_biquad_dies_out (c := ⟨a1, a2, b, 0, -b⟩) ⟨h2, h1⟩ (⟨0, 0, 0, 0⟩ : BiquadSt ℝ) (fun j _ => if j = 0 then 1 else 0)
    (tendsto_const_nhds.congr' (by filter_upwards [eventually_gt_atTop 0] with k hk; simp; omega))
  generalize hy : clickOut (biquadNode ⟨a1, a2, b, 0, -b⟩) (⟨0, 0, 0, 0⟩ : BiquadSt ℝ) = y
  have hd' : Tendsto y atTop (𝓝 0) := by rw [← hy]; exact hd
  have hrec : ∀ k, y (k + 3) = -a1 * y (k + 2) - a2 * y (k + 1) := fun k => by rw [← hy]; exact click_rec _ k
  have y0 : y 0 = b := by rw [← hy]; show b * (if (0 : ℕ) = 0 then 1 else 0) + 0 * 0 + -b * 0 - a1 * 0 - a2 * 0 = _; simp
  have y1 : y 1 = -a1 * b := by
    have : y 1 = b * (if (1 : ℕ) = 0 then 1 else 0) + 0 * (if (0 : ℕ) = 0 then 1 else 0) + -b * 0 - a1 * y 0 - a2 * 0 := by rw [← hy]; rfl
    rw [this, y0]; simp
  have y2 : y 2 = -b - a1 * y 1 - a2 * y 0 := by
    have : y 2 = b * (if (2 : ℕ) = 0 then 1 else 0) + 0 * (if (1 : ℕ) = 0 then 1 else 0) + -b * (if (0 : ℕ) = 0 then 1 else 0) - a1 * y 1 - a2 * y 0 := by rw [← hy]; rfl
    rw [this]; simp
  have hpart : ∀ n, ∑ k ∈ Finset.range (n + 3), y k ^ 2 = y 0 ^ 2 + y 1 ^ 2 + y 2 ^ 2 + restEnergy a1 a2 (y 2) (y 1) - restEnergy a1 a2 (y (n + 2)) (y (n + 1)) := by
    intro n
    induction n with
    | zero => simp [Finset.sum_range_succ]
    | succ n ih =>
      rw [show n + 1 + 3 = (n + 3) + 1 by ring, Finset.sum_range_succ, ih, hrec n]
      have := restEnergy_step h2 h1 (y (n + 2)) (y (n + 1))
      rw [show n + 1 + 1 = n + 2 by ring]
      linarith
  have hrest : Tendsto (fun n => restEnergy a1 a2 (y (n + 2)) (y (n + 1))) atTop (𝓝 0) := by
    have t1 := hd'.comp (tendsto_add_atTop_nat 2)
    have t2 := hd'.comp (tendsto_add_atTop_nat 1)
    have hc : Continuous fun p : ℝ × ℝ => restEnergy a1 a2 p.1 p.2 := by unfold restEnergy; fun_prop
    have := (hc.tendsto (0, 0)).comp (t1.prodMk_nhds t2)
    have e : restEnergy a1 a2 0 0 = 0 := by unfold restEnergy; ring
    simp only [e] at this
    exact this
  rw [hasSum_iff_tendsto_nat_of_nonneg (fun k => sq_nonneg _)]
  rw [← tendsto_add_atTop_iff_nat 3]
  simp only [hpart]
  have := (tendsto_const_nhds (x := y 0 ^ 2 + y 1 ^ 2 + y 2 ^ 2 + restEnergy a1 a2 (y 2) (y 1))).sub hrest
  rw [sub_zero] at this
  convert this using 2
  rw [y2, y1, y0]
  rw [abs_lt] at h1 h2
  have e1 : 1 - a2 ≠ 0 := by linarith
  have e2 : (1 + a2) ^ 2 - a1 ^ 2 ≠ 0 := by nlinarith
  have e3 : 1 + a2 ≠ 0 := by linarith
  unfold restEnergy
  field_simp
  ring

/-- **C109, in part: for noise** (missing are tones, see `C109_violation_tones`). The gain for noise is constant: the energy of the response to a click, by which the power of white noise is multiplied, is one half for every center, Q and sample rate. -/
theorem C109_noise_partial {sr f q : ℝ} (hf : 0 < f) (hsr : 2 * f < sr) (hq : 0 < q) :
    HasSum (fun k => clickOut (resonatorHz sr f q) (⟨0, 0, 0, 0⟩ : BiquadSt ℝ) k ^ 2) (1 / 2) := by
  obtain ⟨hr1, hr0⟩ := radius_lt hf hsr hq
  have hst := C65_resonator_stable hf hsr hq
  have h := click_energy (b := (resonatorCoefs sr f q).b0) hst.1 hst.2
  have e : 2 * (resonatorCoefs sr f q).b0 ^ 2 / (1 - (resonatorCoefs sr f q).a2) = 1 / 2 := by
    unfold resonatorCoefs
    dsimp only
    generalize Real.exp (-Real.pi * f / (q * sr)) = r at *
    have hrr : 0 < 1 - r * r := by nlinarith
    rw [mul_pow, Real.sq_sqrt hrr.le]
    generalize 1 - r * r = w at *
    field_simp
  rw [e] at h
  exact h

/-- The hypotheses are met by a resonator at concert pitch with a Q of 10. -/
example : (0 : ℝ) < 440 ∧ (2 : ℝ) * 440 < 44100 ∧ (0 : ℝ) < 10 := by norm_num

end Fundsp.Filter
