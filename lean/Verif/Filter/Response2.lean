import Verif.Filter.Response
import Verif.Filter.Fir

/-! C44, continued: cascades, delays, FIR, biquad and state variable filters. -/

namespace Fundsp.Filter
open _root_.Filter Topology Delay

theorem z1_mul (θ : ℝ) : polar θ * polar (-θ) = 1 := by rw [polar_neg]; exact mul_inv_cancel₀ (polar_ne θ)

/-- One pole `b0 / (1 - c z1)` as a relation between streams. -/
theorem pole_stream {c b0 : ℝ} (hc : |c| < 1) (θ : ℝ) {A : ℂ} {d : ℝ} {x y : ℕ → ℝ}
    (h : ∀ k, y (k + 1) = b0 * x (k + 1) + c * y k) (hx : AsympExp (polar θ) A d x) :
    AsympExp (polar θ) (A * (b0 / (1 - c * polar (-θ)))) (d * (b0 / (1 - c))) y := by
  have hc1 : 1 - c ≠ 0 := by intro h; have : c = 1 := by linarith
                             rw [this] at hc; simp at hc
  have h1 := z1_den hc θ
  refine recur_response1 (b1 := 0) hc (fun k => by rw [h k]; ring) ?_ (by field_simp; ring) hx
  rw [div_mul_eq_mul_div, div_eq_iff h1]
  push_cast
  linear_combination (b0 * c) * z1_mul θ

/-- **C44, follow.** -/
theorem C44_follow (coeff : ℝ) (h0 : 0 < coeff) (h1 : coeff ≤ 1) (θ : ℝ) :
    HasResponse followNode (fun s : FollowSt ℝ => s.coeff = coeff) θ (followResponse coeff θ) := by
  have hc : |1 - coeff| < 1 := by rw [abs_lt]; constructor <;> linarith
  refine ⟨coeff / (1 - (1 - coeff)) * (coeff / (1 - (1 - coeff))) * (coeff / (1 - (1 - coeff))), fun s x A d hs hx => ?_⟩
  have hs' : s.coeff = coeff := hs
  let t : Nat → FollowSt ℝ := fun k => followNode.ticks.st s x (k + 1)
  have hco : ∀ k, (t k).coeff = coeff ∧ (t k).coeffNow = coeff := by
    intro k
    induction k with
    | zero => exact ⟨hs', hs'⟩
    | succ k ih => exact ⟨ih.1, ih.1⟩
  have a1 := pole_stream (b0 := coeff) hc θ (x := fun k => x k 0) (y := fun k => (t k).v1) (fun k => by
    show (t k).coeffNow * x (k + 1) 0 + (1 - (t k).coeffNow) * (t k).v1 = _
    rw [(hco k).2]) hx
  have a2 := pole_stream (b0 := coeff) hc θ (x := fun k => (t k).v1) (y := fun k => (t k).v2) (fun k => by
    show (t k).coeffNow * (t (k + 1)).v1 + (1 - (t k).coeffNow) * (t k).v2 = _
    rw [(hco k).2]) a1
  have a3 := pole_stream (b0 := coeff) hc θ (x := fun k => (t k).v2) (y := fun k => (t k).v3) (fun k => by
    show (t k).coeffNow * (t (k + 1)).v2 + (1 - (t k).coeffNow) * (t k).v3 = _
    rw [(hco k).2]) a2
  convert a3 using 1
  · unfold followResponse; push_cast; ring_nf
  · ring
  · rfl

/-- **C44, pinkpass.** -/
theorem C44_pinkpass (θ : ℝ) : HasResponse pinkNode (fun _ => True) θ (pinkResponse θ) := by
  refine ⟨(0.0555179 / (1 - 0.99886) + 0.0750759 / (1 - 0.99332) + 0.1538520 / (1 - 0.96900) + 0.3104856 / (1 - 0.86650)
    + 0.5329522 / (1 - 0.55000) + (-0.0168980) / (1 - (-0.7616)) + 0.115926 + 0.5362) * 0.115830421, fun s x A d _ hx => ?_⟩
  let t : Nat → PinkSt ℝ := fun k => pinkNode.ticks.st s x (k + 1)
  have p : ∀ (c b : ℝ) (f : PinkSt ℝ → ℝ), |c| < 1 → (∀ k, f (t (k + 1)) = b * x (k + 1) 0 + c * f (t k)) →
      AsympExp (polar θ) (A * (b / (1 - c * polar (-θ)))) (d * (b / (1 - c))) (fun k => f (t k)) :=
    fun c b f hc h => pole_stream hc θ h hx
  have q0 := p 0.99886 0.0555179 PinkSt.b0 (by norm_num [abs_lt]) (fun k => by
    show 0.99886 * (t k).b0 + x (k + 1) 0 * 0.0555179 = _; ring)
  have q1 := p 0.99332 0.0750759 PinkSt.b1 (by norm_num [abs_lt]) (fun k => by
    show 0.99332 * (t k).b1 + x (k + 1) 0 * 0.0750759 = _; ring)
  have q2 := p 0.96900 0.1538520 PinkSt.b2 (by norm_num [abs_lt]) (fun k => by
    show 0.96900 * (t k).b2 + x (k + 1) 0 * 0.1538520 = _; ring)
  have q3 := p 0.86650 0.3104856 PinkSt.b3 (by norm_num [abs_lt]) (fun k => by
    show 0.86650 * (t k).b3 + x (k + 1) 0 * 0.3104856 = _; ring)
  have q4 := p 0.55000 0.5329522 PinkSt.b4 (by norm_num [abs_lt]) (fun k => by
    show 0.55000 * (t k).b4 + x (k + 1) 0 * 0.5329522 = _; ring)
  have q5 := p (-0.7616) (-0.0168980) PinkSt.b5 (by norm_num [abs_lt]) (fun k => by
    show -0.7616 * (t k).b5 - x (k + 1) 0 * 0.0168980 = _; ring)
  have q6 := (hx.smul 0.115926).delay (polar_ne θ) (y := fun k => (pinkNode.ticks.st s x k : PinkSt ℝ).b6) 1 (fun k => by
    show x k 0 * 0.115926 = _; ring)
  have q7 := hx.smul 0.5362
  have := ((((((((q0.add q1).add q2).add q3).add q4).add q5).add q6).add q7).smul 0.115830421)
  convert this using 1
  · unfold pinkResponse
    rw [polar_neg]
    push_cast
    ring_nf
  · ring
  · funext k
    show ((t k).b0 + (t k).b1 + (t k).b2 + (t k).b3 + (t k).b4 + (t k).b5 + (pinkNode.ticks.st s x k : PinkSt ℝ).b6 + x k 0 * 0.5362) * 0.115830421 = _
    ring

/-- **C44, tick.** -/
theorem C44_tick (θ : ℝ) : HasResponse (tickNode (0 : ℝ) 1) (fun _ => True) θ (tickResponse θ) := by
  refine ⟨1, fun s x A d _ hx => ?_⟩
  have := hx.delay (polar_ne θ) (y := fun k => (tickNode (0 : ℝ) 1).ticks.out s x k 0) 1 (fun k => rfl)
  rw [pow_one, ← polar_neg] at this
  rw [mul_one]
  exact this

theorem delay_out_later {s : Line ℝ} (hv : s.Valid) {n : Nat} (hl : s.buf.length = n + 1) (hn : n + 1 < 2 ^ 64) (x : Nat → Frame ℝ 1) (k : Nat) :
    (delayNode (0 : ℝ)).ticks.out s x (k + n) 0 = x k 0 := by
  show (delayTick 0 ((delayNode 0).ticks.st s x (k + n)) (x (k + n))).2 0 = _
  rw [delay_st 0 hv (by omega), delayTick_eq 0 (hv.pushes _ _) (by rw [Line.pushes_length]; omega), Line.pushes_length, hl]
  show (Line.pushes s (fun k => x k 0) (k + n + 1)).ago 0 (n + 1) = _
  rw [Line.ago_pushes hv 0 _ _ (by omega) (by omega), if_pos (by omega), show k + n + 1 - (n + 1) = k by omega]

/-- **C44, delay.** In every state reached since the sample rate was set. -/
theorem C44_delay (n : Nat) (hn : n + 1 < 2 ^ 64) (θ : ℝ) :
    HasResponse (delayNode (0 : ℝ)) (fun s : Line ℝ => s.Valid ∧ s.buf.length = n + 1) θ (delayResponse n θ) := by
  refine ⟨1, fun s x A d hs hx => ?_⟩
  obtain ⟨hv, hl⟩ := hs
  have := hx.delay (polar_ne θ) (y := fun k => (delayNode (0 : ℝ)).ticks.out s x k 0) n (fun k => delay_out_later hv hl hn x k)
  rw [← polar_neg, ← polar_nat] at this
  rw [mul_one]
  exact this

theorem firResponse_eq {N : Nat} (w : Frame ℝ N) (θ : ℝ) : firResponse w θ = ∑ i : Fin N, (w i : ℂ) * polar (-θ) ^ (N - 1 - i.1) := by
  have key : ∀ m, m ≤ N → (List.range m).foldl (fun (zx : ℂ × ℂ) i => (zx.1 * polar (-θ), zx.2 + (if h : N - 1 - i < N then (w ⟨N - 1 - i, h⟩ : ℂ) else 0) * zx.1)) (1, 0)
      = (polar (-θ) ^ m, ∑ i ∈ Finset.range m, (if h : N - 1 - i < N then (w ⟨N - 1 - i, h⟩ : ℂ) else 0) * polar (-θ) ^ i) := by
    intro m hm
    induction m with
    | zero => simp
    | succ m ih =>
      rw [List.range_succ, List.foldl_append, ih (by omega), Finset.sum_range_succ]
      simp [pow_succ]
  unfold firResponse
  rw [key N le_rfl]
  show ∑ i ∈ Finset.range N, _ = _
  rw [Finset.sum_range, ← Equiv.sum_comp Fin.revPerm]
  refine Finset.sum_congr rfl (fun i _ => ?_)
  have hi := i.2
  simp only [Fin.revPerm_apply, Fin.val_rev]
  rw [dif_pos (by omega)]
  have e : (⟨N - 1 - (N - (i.1 + 1)), by omega⟩ : Fin N) = i := Fin.ext (by show N - 1 - (N - (i.1 + 1)) = i.1; omega)
  rw [e, show N - (i.1 + 1) = N - 1 - i.1 by omega]

/-- **C44, fir.** -/
theorem C44_fir {N : Nat} (w : Frame ℝ N) (θ : ℝ) :
    HasResponse (firNode (0 : ℝ) (· + ·) (· * ·) w) (fun _ => True) θ (firResponse w θ) := by
  refine ⟨∑ i, w i, fun s x A d _ hx => ?_⟩
  have h := AsympExp.sum (w := polar θ) (A := fun i : Fin N => (w i : ℂ) * (A * (polar θ)⁻¹ ^ (N - 1 - i.1))) (d := fun i => w i * d)
    (x := fun i k => w i * (if h : i.1 + (k + 1) < N then s ⟨i.1 + (k + 1), h⟩ else x (i.1 + (k + 1) - N) 0)) (fun i => by
      have hi := i.2
      refine AsympExp.smul (w i) (hx.delay (polar_ne θ) (N - 1 - i.1) (fun k => ?_))
      rw [dif_neg (by omega), show i.1 + (k + (N - 1 - i.1) + 1) - N = k by omega])
  convert h using 1
  · rw [firResponse_eq, Finset.mul_sum]
    refine Finset.sum_congr rfl (fun i _ => ?_)
    rw [polar_neg]; ring
  · rw [Finset.mul_sum]; exact Finset.sum_congr rfl (fun i _ => by ring)
  · funext k
    exact (fir_out 0 (· + ·) (· * ·) w s x k).trans (foldl_finSum _)

/-- **C44, biquad.** For coefficients in the stability triangle. -/
theorem C44_biquad (c : BiquadCoefs ℝ) (h2 : |c.a2| < 1) (h1 : |c.a1| < 1 + c.a2) (θ : ℝ) :
    HasResponse (biquadNode c) (fun _ => True) θ (biquadResponse c θ) := by
  have hG : 1 + c.a1 + c.a2 ≠ 0 := by rw [abs_lt] at h1; linarith
  refine ⟨(c.b0 + c.b1 + c.b2) / (1 + c.a1 + c.a2), fun s x A d _ hx => ?_⟩
  have hw := char_ne_zero h2 h1 (polar_norm θ)
  have hz : (1 : ℂ) + c.a1 * polar (-θ) + c.a2 * (polar (-θ) * polar (-θ)) ≠ 0 := by
    have e : (1 : ℂ) + c.a1 * polar (-θ) + c.a2 * (polar (-θ) * polar (-θ)) = polar (-θ) ^ 2 * (polar θ ^ 2 + c.a1 * polar θ + c.a2) := by
      have := z1_mul θ
      linear_combination (-(polar θ * polar (-θ)) - 1 - c.a1 * polar (-θ)) * this
    rw [e]
    exact mul_ne_zero (pow_ne_zero _ (polar_ne _)) hw
  refine recur_response h2 h1 (b0 := c.b0) (b1 := c.b1) (b2 := c.b2) (fun k => ?_) ?_ (by field_simp) hx
  · show c.b0 * x (k + 2) 0 + c.b1 * x (k + 1) 0 + c.b2 * x k 0 - c.a1 * (biquadNode c).ticks.out s x (k + 1) 0 - c.a2 * (biquadNode c).ticks.out s x k 0 = _
    rfl
  · unfold biquadResponse
    simp only []
    rw [div_mul_eq_mul_div, div_eq_iff hz]
    have := z1_mul θ
    linear_combination (-(c.b0 * c.a1 * polar θ) - c.b0 * c.a2 * (polar θ * polar (-θ) + 1) + c.b1 * polar θ - c.b1 * c.a2 * polar (-θ)
      + c.b2 * (polar θ * polar (-θ) + 1) + c.b2 * c.a1 * polar (-θ)) * this

end Fundsp.Filter
