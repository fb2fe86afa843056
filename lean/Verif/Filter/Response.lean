import Verif.Filter.Model
import Verif.Filter.Recur
import Verif.Filter.Smooth
import Verif.Delay.Props
import Mathlib.Analysis.SpecialFunctions.Trigonometric.Bounds

/-! C44: the frequency responses reported by `route` are the true responses. -/

namespace Fundsp.Filter
open _root_.Filter Topology Delay

/-- `Complex64::from_polar(1.0, angle)`. -/
noncomputable def polar (θ : ℝ) : ℂ := Complex.exp (θ * Complex.I)

theorem polar_norm (θ : ℝ) : ‖polar θ‖ = 1 := Complex.norm_exp_ofReal_mul_I θ
theorem polar_ne (θ : ℝ) : polar θ ≠ 0 := Complex.exp_ne_zero _
theorem polar_neg (θ : ℝ) : polar (-θ) = (polar θ)⁻¹ := by
  unfold polar; rw [← Complex.exp_neg]; congr 1; push_cast; ring
theorem polar_nat (θ : ℝ) (n : ℕ) : polar (-(θ * n)) = (polar (-θ)) ^ n := by
  unfold polar; rw [← Complex.exp_nat_mul]; congr 1; push_cast; ring

/-- Phase advance per sample at frequency `f`: `frequency * TAU / sample_rate`. -/
noncomputable def phaseStep (f sr : ℝ) : ℝ := f * (2 * Real.pi) / sr

/-- Specification. The unit has complex response `H` at phase step `θ`: from every state in `P`, if the input is (asymptotically) a constant
plus the real part of a complex exponential of amplitude `A`, then the output is asymptotically a constant plus the exponential of amplitude
`A * H`. -/
def HasResponse (n : Node ℝ 1 1) (P : n.σ → Prop) (θ : ℝ) (H : ℂ) : Prop :=
  ∃ G : ℝ, ∀ (s : n.σ) (x : Nat → Frame ℝ 1) (A : ℂ) (d : ℝ), P s → AsympExp (polar θ) A d (fun k => x k 0) →
    AsympExp (polar θ) (A * H) (d * G) (fun k => n.ticks.out s x k 0)

/-- In particular for a pure complex exponential input. -/
theorem HasResponse.pure {n : Node ℝ 1 1} {P} {θ : ℝ} {H : ℂ} (h : HasResponse n P θ H) {s : n.σ} (hs : P s) (A : ℂ) :
    Tendsto (fun k => n.ticks.out s (fun j _ => (A * polar θ ^ j).re) k 0 - (A * H * polar θ ^ k).re) atTop (𝓝 0) := by
  obtain ⟨G, hG⟩ := h
  have := hG s (fun j _ => (A * polar θ ^ j).re) A 0 hs (AsympExp.exact _ _)
  unfold AsympExp at this
  simpa using this

/-- A unit has at most one response at each frequency. -/
theorem HasResponse.unique {n : Node ℝ 1 1} {P} {θ : ℝ} {H K : ℂ} (h : HasResponse n P θ H) (h' : HasResponse n P θ K) (hP : ∃ s, P s) : H = K := by
  obtain ⟨s, hs⟩ := hP
  refine AsympExp.unique (polar_norm θ) (fun A => ⟨fun k => n.ticks.out s (fun j _ => (A * polar θ ^ j).re) k 0, 0, ?_, ?_⟩)
  · have := h.pure hs A; unfold AsympExp; simpa using this
  · have := h'.pure hs A; unfold AsympExp; simpa using this

/-! ## Reported responses -/

/-- `Lowpole::route`: `filter.rs:82-93`, factor applied to the incoming response. -/
noncomputable def lowpoleResponse (c θ : ℝ) : ℂ := (1 - c) / (1 - c * polar (-θ))
/-- `DCBlock::route`: `filter.rs:159-170`. -/
noncomputable def dcblockResponse (c θ : ℝ) : ℂ := (1 - polar (-θ)) / (1 - c * polar (-θ))
/-- `Highpole::route`: `filter.rs:418-430`. -/
noncomputable def highpoleResponse (c θ : ℝ) : ℂ := c * (1 - polar (-θ)) / (1 - c * polar (-θ))
/-- `Allpole::route`: `filter.rs:331-343`. -/
noncomputable def allpoleResponse (eta θ : ℝ) : ℂ := (eta + polar (-θ)) / (1 + eta * polar (-θ))
/-- `Follow::route`: `follow.rs:117-130`. -/
noncomputable def followResponse (coeff θ : ℝ) : ℂ :=
  let c := 1 - coeff
  let pole : ℂ := (1 - c) / (1 - c * polar (-θ))
  pole * pole * pole
/-- `Pinkpass::route`: `filter.rs:242-262`. -/
noncomputable def pinkResponse (θ : ℝ) : ℂ :=
  let z1 := polar (-θ)
  (0.0555179 / (1 - 0.99886 * z1) + 0.0750759 / (1 - 0.99332 * z1) + 0.1538520 / (1 - 0.96900 * z1) + 0.3104856 / (1 - 0.86650 * z1)
    + 0.5329522 / (1 - 0.55000 * z1) + (-0.0168980) / (1 + 0.7616 * z1) + 0.115926 * z1 + 0.5362) * 0.115830421
/-- `Tick::route`: `delay.rs:53-64`. -/
noncomputable def tickResponse (θ : ℝ) : ℂ := polar (-θ)
/-- `Delay::route`: `delay.rs:126-138`. -/
noncomputable def delayResponse (d : ℕ) (θ : ℝ) : ℂ := polar (-(θ * d))
/-- `Fir::route`: `fir.rs:72-88`, the loop with accumulators `z` and `x`. -/
noncomputable def firResponse {N : Nat} (w : Frame ℝ N) (θ : ℝ) : ℂ :=
  ((List.range N).foldl (fun (zx : ℂ × ℂ) i => (zx.1 * polar (-θ), zx.2 + (if h : N - 1 - i < N then (w ⟨N - 1 - i, h⟩ : ℂ) else 0) * zx.1)) (1, 0)).2
/-- `BiquadCoefs::response`: `biquad.rs:118-129`. -/
noncomputable def biquadResponse (c : BiquadCoefs ℝ) (θ : ℝ) : ℂ :=
  let z1 := polar (-θ)
  let z2 := z1 * z1
  (c.b0 + c.b1 * z1 + c.b2 * z2) / (1 + c.a1 * z1 + c.a2 * z2)

/-! ## First order filters -/

theorem z1_den {c : ℝ} (hc : |c| < 1) (θ : ℝ) : 1 - c * polar (-θ) ≠ 0 := by
  intro h
  have h1 : (c : ℂ) * polar (-θ) = 1 := by linear_combination -h
  have h2 := congrArg norm h1
  rw [norm_mul, polar_norm, mul_one, Complex.norm_real, Real.norm_eq_abs, norm_one] at h2
  linarith

/-- Any first order recurrence has the response `(b0 + b1 z1) / (1 - c z1)`. -/
theorem hasResponse1 {n : Node ℝ 1 1} {P : n.σ → Prop} {c b0 b1 : ℝ} (hc : |c| < 1)
    (h : ∀ (s : n.σ) (x : Nat → Frame ℝ 1), P s → ∀ k, n.ticks.out s x (k + 1) 0 = b0 * x (k + 1) 0 + b1 * x k 0 + c * n.ticks.out s x k 0) (θ : ℝ) :
    HasResponse n P θ ((b0 + b1 * polar (-θ)) / (1 - c * polar (-θ))) := by
  have hc1 : 1 - c ≠ 0 := by intro h; have : c = 1 := by linarith
                             rw [this] at hc; simp at hc
  refine ⟨(b0 + b1) / (1 - c), fun s x A d hs hx => recur_response1 hc (h s x hs) ?_ (by field_simp) hx⟩
  have := z1_den hc θ
  have e : polar θ * polar (-θ) = 1 := by rw [polar_neg]; exact mul_inv_cancel₀ (polar_ne θ)
  rw [div_mul_eq_mul_div, div_eq_iff this]
  linear_combination (b1 + b0 * c) * e

theorem lowpole_coeff (cf : ℝ → ℝ) (s : LowpoleSt ℝ) (x : Nat → Frame ℝ 1) (k : Nat) :
    ((lowpoleNode cf 0).ticks.st s x k : LowpoleSt ℝ).coeff = s.coeff := by
  induction k with
  | zero => rfl
  | succ k ih => exact ih

/-- **C44, lowpole.** -/
theorem C44_lowpole (cf : ℝ → ℝ) (c : ℝ) (hc : |c| < 1) (θ : ℝ) :
    HasResponse (lowpoleNode cf 0) (fun s : LowpoleSt ℝ => s.coeff = c) θ (lowpoleResponse c θ) := by
  have := hasResponse1 (n := lowpoleNode cf 0) (P := fun s : LowpoleSt ℝ => s.coeff = c) (b0 := 1 - c) (b1 := 0) hc (fun s x hs k => ?_) θ
  · unfold lowpoleResponse
    convert this using 2
    push_cast; ring
  · have e := lowpole_coeff cf s x (k + 1)
    have hs' : s.coeff = c := hs
    rw [hs'] at e
    show (1 - ((lowpoleNode cf 0).ticks.st s x (k + 1) : LowpoleSt ℝ).coeff) * x (k + 1) 0
      + ((lowpoleNode cf 0).ticks.st s x (k + 1) : LowpoleSt ℝ).coeff * (lowpoleNode cf 0).ticks.out s x k 0 = _
    rw [e]; ring

theorem dc_coeff (s : PoleZero ℝ) (x : Nat → Frame ℝ 1) (k : Nat) : (dcblockNode.ticks.st s x k : PoleZero ℝ).coeff = s.coeff := by
  induction k with
  | zero => rfl
  | succ k ih => exact ih

/-- **C44, dcblock.** -/
theorem C44_dcblock (c : ℝ) (hc : |c| < 1) (θ : ℝ) :
    HasResponse dcblockNode (fun s : PoleZero ℝ => s.coeff = c) θ (dcblockResponse c θ) := by
  have := hasResponse1 (n := dcblockNode) (P := fun s : PoleZero ℝ => s.coeff = c) (b0 := 1) (b1 := -1) hc (fun s x hs k => ?_) θ
  · unfold dcblockResponse
    convert this using 2
    push_cast; ring
  · have e := dc_coeff s x (k + 1)
    have hs' : s.coeff = c := hs
    rw [hs'] at e
    show x (k + 1) 0 - x k 0 + (dcblockNode.ticks.st s x (k + 1) : PoleZero ℝ).coeff * dcblockNode.ticks.out s x k 0 = _
    rw [e]; ring

theorem hp_coeff (s : PoleZero ℝ) (x : Nat → Frame ℝ 1) (k : Nat) : (highpoleNode.ticks.st s x k : PoleZero ℝ).coeff = s.coeff := by
  induction k with
  | zero => rfl
  | succ k ih => exact ih

/-- **C44, highpole.** -/
theorem C44_highpole (c : ℝ) (hc : |c| < 1) (θ : ℝ) :
    HasResponse highpoleNode (fun s : PoleZero ℝ => s.coeff = c) θ (highpoleResponse c θ) := by
  have := hasResponse1 (n := highpoleNode) (P := fun s : PoleZero ℝ => s.coeff = c) (b0 := c) (b1 := -c) hc (fun s x hs k => ?_) θ
  · unfold highpoleResponse
    convert this using 2
    push_cast; ring
  · have e := hp_coeff s x (k + 1)
    have hs' : s.coeff = c := hs
    rw [hs'] at e
    show (highpoleNode.ticks.st s x (k + 1) : PoleZero ℝ).coeff * (highpoleNode.ticks.out s x k 0 + x (k + 1) 0 - x k 0) = _
    rw [e]; ring

theorem ap_coeff (s : PoleZero ℝ) (x : Nat → Frame ℝ 1) (k : Nat) : ((allpoleNode 0).ticks.st s x k : PoleZero ℝ).coeff = s.coeff := by
  induction k with
  | zero => rfl
  | succ k ih => exact ih

/-- **C44, allpole.** -/
theorem C44_allpole (eta : ℝ) (hc : |eta| < 1) (θ : ℝ) :
    HasResponse (allpoleNode 0) (fun s : PoleZero ℝ => s.coeff = eta) θ (allpoleResponse eta θ) := by
  have := hasResponse1 (n := allpoleNode 0) (P := fun s : PoleZero ℝ => s.coeff = eta) (b0 := eta) (b1 := 1) (c := -eta) (by simpa using hc) (fun s x hs k => ?_) θ
  · unfold allpoleResponse
    convert this using 2 <;> (push_cast; ring)
  · have e := ap_coeff s x (k + 1)
    have hs' : s.coeff = eta := hs
    rw [hs'] at e
    show ((allpoleNode 0).ticks.st s x (k + 1) : PoleZero ℝ).coeff * (x (k + 1) 0 - (allpoleNode 0).ticks.out s x k 0) + x k 0 = _
    rw [e]; ring

end Fundsp.Filter
