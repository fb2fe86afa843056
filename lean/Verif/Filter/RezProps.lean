import Mathlib.Analysis.Calculus.Deriv.MeanValue
import Mathlib.Analysis.SpecialFunctions.Trigonometric.DerivHyp
import Mathlib.Analysis.SpecialFunctions.Log.Deriv
import Mathlib.Topology.Algebra.Order.LiminfLimsup
import Mathlib.Topology.Order.MonotoneConvergence
import Mathlib.Tactic.LinearCombination
import Mathlib.Tactic.Positivity
import Verif.Filter.Rez
import Verif.Filter.Contract
import Verif.Core.ResetLeaf

/-! C79: the resonant two-pole filter. -/

namespace Fundsp.Filter
open _root_.Filter Topology

/-! ## Coefficients -/

/-- Gain of each of the two smoothers. -/
noncomputable def rezF (sr cutoff : ℝ) : ℝ := 2 * Real.sin (Real.pi * cutoff / sr)

/-- Feedback gain. -/
noncomputable def rezFb (sr cutoff q : ℝ) : ℝ := q + q / (1 - rezF sr cutoff)

theorem rezF_mem {sr c : ℝ} (hc : 0 < c) (h : 2 * c < sr) : 0 < rezF sr c ∧ rezF sr c < 2 := by
  have hsr : 0 < sr := by linarith
  have hpi := Real.pi_pos
  have h0 : 0 < Real.pi * c / sr := by positivity
  have h1 : Real.pi * c / sr < Real.pi / 2 := by
    rw [div_lt_div_iff₀ hsr (by norm_num)]
    nlinarith
  have hs := Real.sin_pos_of_pos_of_lt_pi h0 (by linarith)
  have hs1 : Real.sin (Real.pi * c / sr) < 1 := by
    rw [← Real.sin_pi_div_two]
    exact Real.sin_lt_sin_of_lt_of_le_pi_div_two (by linarith) (le_refl _) h1
  unfold rezF
  constructor <;> linarith

/-- The cached coefficients are those of the parameters. -/
structure RezSt.Cached (s : RezSt) : Prop where
  f : s.f = rezF s.sampleRate s.cutoff
  fb : s.fb = rezFb s.sampleRate s.cutoff s.q

theorem setCutoffQ_cached (s : RezSt) (c q : ℝ) : (s.setCutoffQ c q).Cached := ⟨rfl, rfl⟩

/-- **C79, settings.** A setting or a sample rate takes effect as if the filter had been made with it, and leaves the signal state alone. -/
theorem C79_settings (bp c0 q0 c q sr : ℝ) (s : RezSt) :
    ((rezNew bp c0 q0).setSampleRate sr).set (.centerQ c q) = (rezNew bp c q).setSampleRate sr ∧
    ((rezNew bp c0 q0).setSampleRate sr).set (.center c) = (rezNew bp c q0).setSampleRate sr ∧
    ((rezNew bp c0 q0).set (.centerQ c q)).setSampleRate sr = (rezNew bp c q).setSampleRate sr ∧
    (∀ p, (s.set p).buf0 = s.buf0 ∧ (s.set p).buf1 = s.buf1) ∧
    ((rezNew bp c q).setSampleRate sr).f = 2 * Real.sin (Real.pi * c / sr) ∧
    ((rezNew bp c q).setSampleRate sr).fb = q + q / (1 - 2 * Real.sin (Real.pi * c / sr)) := by
  refine ⟨rfl, rfl, rfl, fun p => ?_, rfl, rfl⟩
  cases p <;> exact ⟨rfl, rfl⟩

/-- **C79 is violated** at a cutoff of a sixth of the sample rate (7350 Hz at 44.1 kHz): the feedback gain is divided by zero. -/
theorem C79_violation_cutoff (sr : ℝ) (hsr : 0 < sr) : 1 - rezF sr (sr / 6) = 0 := by
  unfold rezF
  rw [show Real.pi * (sr / 6) / sr = Real.pi / 6 by field_simp, Real.sin_pi_div_six]
  norm_num

/-! ## The two buffers as sequences -/

/-- Coefficients and signal over time: `b0` and `b1` are the two smoothers. -/
structure RezSeq (f fb x b0 b1 : Nat → ℝ) : Prop where
  h0 : ∀ k, b0 (k + 1) = (1 - f k) * b0 k + f k * (x k + fb k * Real.tanh (b0 k - b1 k))
  h1 : ∀ k, b1 (k + 1) = (1 - f k) * b1 k + f k * b0 (k + 1)

theorem rez1_params (s : RezSt) (w : Nat → Frame ℝ 1) (k : Nat) :
    (rez1.ticks.st s w k : RezSt).f = s.f ∧ (rez1.ticks.st s w k : RezSt).fb = s.fb ∧ (rez1.ticks.st s w k : RezSt).bandpass = s.bandpass ∧
    (rez1.ticks.st s w k : RezSt).cutoff = s.cutoff ∧ (rez1.ticks.st s w k : RezSt).q = s.q ∧ (rez1.ticks.st s w k : RezSt).sampleRate = s.sampleRate := by
  induction k with
  | zero => exact ⟨rfl, rfl, rfl, rfl, rfl, rfl⟩
  | succ k ih => exact ih

theorem rez1_seq (s : RezSt) (w : Nat → Frame ℝ 1) :
    RezSeq (fun _ => s.f) (fun _ => s.fb) (fun k => w k 0) (fun k => (rez1.ticks.st s w k : RezSt).buf0) (fun k => (rez1.ticks.st s w k : RezSt).buf1) ∧
    ∀ k, rez1.stream s w k 0 = (rez1.ticks.st s w (k + 1) : RezSt).buf1 - s.bandpass * (rez1.ticks.st s w (k + 1) : RezSt).buf0 := by
  have e0 : ∀ k, (rez1.ticks.st s w (k + 1) : RezSt) = ((rez1.ticks.st s w k : RezSt).step (w k 0)).1 := fun _ => rfl
  refine ⟨⟨fun k => ?_, fun k => ?_⟩, fun k => ?_⟩
  · obtain ⟨h1, h2, -⟩ := rez1_params s w k
    simp only [e0, RezSt.step]
    rw [h1, h2]; ring
  · obtain ⟨h1, h2, -⟩ := rez1_params s w k
    simp only [e0, RezSt.step]
    rw [h1]; ring
  · obtain ⟨-, -, h3, -⟩ := rez1_params s w k
    rw [← h3]; rfl

/-! ## Zero resonance -/

/-- Specification: a one-pole smoother `y[k] = (1 - f) y[k-1] + f x[k]`, at rest before the start. -/
def smoothed (f : ℝ) (x : Nat → ℝ) : Nat → ℝ
  | 0 => f * x 0
  | k + 1 => (1 - f) * smoothed f x k + f * x (k + 1)

/-- **C79, zero resonance.** A new or reset filter with resonance zero gives, in lowpass mode, the input smoothed twice; the bandpass output
is the difference of the two smoothers. -/
theorem C79_zero_resonance (s : RezSt) (hc : s.Cached) (hq : s.q = 0) (w : Nat → Frame ℝ 1) (k : Nat) :
    rez1.stream (rez1.reset s) w k 0 = smoothed (rezF s.sampleRate s.cutoff) (smoothed (rezF s.sampleRate s.cutoff) fun j => w j 0) k
      - s.bandpass * smoothed (rezF s.sampleRate s.cutoff) (fun j => w j 0) k := by
  have hs : ((rez1.reset s) : RezSt) = s.reset := rfl
  obtain ⟨⟨h0, h1⟩, h2⟩ := rez1_seq s.reset w
  rw [hs, h2 k]
  have hf : s.reset.f = rezF s.sampleRate s.cutoff := hc.f
  have hfb : s.reset.fb = 0 := by
    show s.fb = 0
    rw [hc.fb, hq]; simp [rezFb]
  rw [hf, hfb] at h0
  rw [hf] at h1
  generalize rezF s.sampleRate s.cutoff = f at *
  have a0 : ∀ k, (rez1.ticks.st s.reset w (k + 1) : RezSt).buf0 = smoothed f (fun j => w j 0) k := by
    intro k
    induction k with
    | zero =>
      have := h0 0
      rw [this, show (rez1.ticks.st s.reset w 0 : RezSt).buf0 = 0 from rfl]
      simp [smoothed]
    | succ k ih =>
      have := h0 (k + 1)
      rw [this, ih]
      simp [smoothed]
  have a1 : ∀ k, (rez1.ticks.st s.reset w (k + 1) : RezSt).buf1 = smoothed f (smoothed f fun j => w j 0) k := by
    intro k
    induction k with
    | zero =>
      have := h1 0
      rw [this, a0, show (rez1.ticks.st s.reset w 0 : RezSt).buf1 = 0 from rfl]
      simp [smoothed]
    | succ k ih =>
      have := h1 (k + 1)
      rw [this, ih, a0]
      simp [smoothed]
  rw [a0, a1]
  rfl

/-! ## Boundedness -/

theorem rez_bound {f fb x b0 b1 : Nat → ℝ} (h : RezSeq f fb x b0 b1) {ε M B C : ℝ} (hε : 0 < ε) (hf : ∀ k, ε ≤ f k ∧ f k ≤ 2 - ε)
    (hx : ∀ k, |x k| ≤ M) (hB : ∀ k, |fb k| ≤ B) (hC : 2 * (M + B) / ε ≤ C) (hC0 : |b0 0| ≤ C) (hC1 : |b1 0| ≤ 2 * C / ε) (k : Nat) :
    |b0 k| ≤ C ∧ |b1 k| ≤ 2 * C / ε := by
  have hM : 0 ≤ M := le_trans (abs_nonneg _) (hx 0)
  have hB0 : 0 ≤ B := le_trans (abs_nonneg _) (hB 0)
  have hc : 2 * (M + B) ≤ ε * C := by rw [div_le_iff₀ hε] at hC; linarith
  have key : ∀ (g D y v v' : ℝ), ε ≤ g → g ≤ 2 - ε → |v| ≤ D → 2 * y ≤ ε * D → |v'| ≤ y → |(1 - g) * v + g * v'| ≤ D := by
    intro g D y v v' h1 h2 h3 h4 h5
    have h6 : |1 - g| ≤ 1 - ε := abs_le.2 ⟨by linarith, by linarith⟩
    have h7 : |(1 - g) * v + g * v'| ≤ |1 - g| * |v| + g * |v'| := by
      refine (abs_add_le _ _).trans ?_
      rw [abs_mul, abs_mul, abs_of_nonneg (show 0 ≤ g by linarith)]
    have h8 : |1 - g| * |v| ≤ (1 - ε) * D := mul_le_mul h6 h3 (abs_nonneg _) (le_trans (abs_nonneg _) h6)
    have h9 : g * |v'| ≤ 2 * y := mul_le_mul (by linarith) h5 (abs_nonneg _) (by norm_num)
    linarith
  induction k with
  | zero => exact ⟨hC0, hC1⟩
  | succ k ih =>
    have t0 : |b0 (k + 1)| ≤ C := by
      rw [h.h0 k]
      refine key _ _ (M + B) _ _ (hf k).1 (hf k).2 ih.1 hc ?_
      refine (abs_add_le _ _).trans (add_le_add (hx k) ?_)
      rw [abs_mul]
      have ht : |Real.tanh (b0 k - b1 k)| ≤ 1 := abs_le.2 ⟨(Real.neg_one_lt_tanh _).le, (Real.tanh_lt_one _).le⟩
      calc |fb k| * |Real.tanh (b0 k - b1 k)| ≤ B * 1 := mul_le_mul (hB k) ht (abs_nonneg _) hB0
        _ = B := mul_one _
    refine ⟨t0, ?_⟩
    rw [h.h1 k]
    refine key _ _ C _ _ (hf k).1 (hf k).2 ih.2 ?_ t0
    rw [mul_div_assoc', le_div_iff₀ hε]
    linarith

/-- **C79, boundedness.** With any fixed cutoff below half the sample rate, other than a sixth of it, and any resonance, the output stays
bounded for bounded input, from any state. -/
theorem C79_bounded (s : RezSt) (hs : s.Cached) (hc : 0 < s.cutoff) (hn : 2 * s.cutoff < s.sampleRate) (_h6 : 6 * s.cutoff ≠ s.sampleRate)
    (M : ℝ) : ∃ B, ∀ w : Nat → Frame ℝ 1, (∀ k, |w k 0| ≤ M) → ∀ k, |rez1.stream s w k 0| ≤ B := by
  obtain ⟨hf0, hf2⟩ := rezF_mem hc hn
  rw [← hs.f] at hf0 hf2
  set ε := min s.f (2 - s.f) with hε
  have hε0 : 0 < ε := lt_min hf0 (by linarith)
  set C := max (2 * (M + |s.fb|) / ε) (max |s.buf0| (|s.buf1| * ε / 2)) with hC
  refine ⟨2 * C / ε + |s.bandpass| * C, fun w hw k => ?_⟩
  obtain ⟨h, ho⟩ := rez1_seq s w
  have hb := rez_bound h (ε := ε) (M := M) (B := |s.fb|) (C := C) hε0
    (fun _ => ⟨min_le_left _ _, by have := min_le_right s.f (2 - s.f); linarith⟩) hw (fun _ => le_refl _) (le_max_left _ _)
    ((le_max_left _ _).trans (le_max_right _ _))
    (by
      have : |s.buf1| * ε / 2 ≤ C := (le_max_right _ _).trans (le_max_right _ _)
      rw [le_div_iff₀ hε0]
      show |s.buf1| * ε ≤ _
      linarith) (k + 1)
  rw [ho k]
  refine (abs_sub _ _).trans ?_
  rw [abs_mul]
  exact add_le_add hb.2 (mul_le_mul_of_nonneg_left hb.1 (abs_nonneg _))

theorem follow_spec (s : RezSt) (hs : s.Cached) (c q : ℝ) : (s.follow c q).f = rezF s.sampleRate c ∧ (s.follow c q).fb = rezFb s.sampleRate c q ∧
    (s.follow c q).Cached ∧ (s.follow c q).sampleRate = s.sampleRate ∧ (s.follow c q).bandpass = s.bandpass ∧
    (s.follow c q).buf0 = s.buf0 ∧ (s.follow c q).buf1 = s.buf1 := by
  unfold RezSt.follow
  split
  · exact ⟨rfl, rfl, ⟨rfl, rfl⟩, rfl, rfl, rfl, rfl⟩
  · rename_i hne
    have h1 : c = s.cutoff := by by_contra h; exact hne (Or.inl h)
    have h2 : q = s.q := by by_contra h; exact hne (Or.inr h)
    subst h1 h2
    exact ⟨hs.f, hs.fb, hs, rfl, rfl, rfl, rfl⟩

theorem rez3_cached (s : RezSt) (hs : s.Cached) (w : Nat → Frame ℝ 3) (k : Nat) :
    (rez3.ticks.st s w k : RezSt).Cached ∧ (rez3.ticks.st s w k : RezSt).sampleRate = s.sampleRate ∧ (rez3.ticks.st s w k : RezSt).bandpass = s.bandpass := by
  induction k with
  | zero => exact ⟨hs, rfl, rfl⟩
  | succ k ih =>
    obtain ⟨-, -, h1, h2, h3, -⟩ := follow_spec _ ih.1 (w k 1) (w k 2)
    exact ⟨⟨h1.f, h1.fb⟩, h2.trans ih.2.1, h3.trans ih.2.2⟩

theorem rez3_seq (s : RezSt) (hs : s.Cached) (w : Nat → Frame ℝ 3) :
    RezSeq (fun k => rezF s.sampleRate (w k 1)) (fun k => rezFb s.sampleRate (w k 1) (w k 2)) (fun k => w k 0)
      (fun k => (rez3.ticks.st s w k : RezSt).buf0) (fun k => (rez3.ticks.st s w k : RezSt).buf1) ∧
    ∀ k, rez3.stream s w k 0 = (rez3.ticks.st s w (k + 1) : RezSt).buf1 - s.bandpass * (rez3.ticks.st s w (k + 1) : RezSt).buf0 := by
  have e0 : ∀ k, ∃ r : RezSt, (rez3.ticks.st s w (k + 1) : RezSt) = (r.step (w k 0)).1 ∧ rez3.stream s w k 0 = (r.step (w k 0)).2 ∧
      r.f = rezF s.sampleRate (w k 1) ∧ r.fb = rezFb s.sampleRate (w k 1) (w k 2) ∧ r.bandpass = s.bandpass ∧
      r.buf0 = (rez3.ticks.st s w k : RezSt).buf0 ∧ r.buf1 = (rez3.ticks.st s w k : RezSt).buf1 := by
    intro k
    obtain ⟨hc, hr, hb⟩ := rez3_cached s hs w k
    obtain ⟨h1, h2, -, h4, h5, h6, h7⟩ := follow_spec _ hc (w k 1) (w k 2)
    exact ⟨_, rfl, rfl, hr ▸ h1, hr ▸ h2, h5.trans hb, h6, h7⟩
  refine ⟨⟨fun k => ?_, fun k => ?_⟩, fun k => ?_⟩
  · obtain ⟨r, h1, -, h3, h4, -, h6, h7⟩ := e0 k
    simp only [h1]
    rw [← h3, ← h4, ← h6, ← h7]
    simp only [RezSt.step]; ring
  · obtain ⟨r, h1, -, h3, h4, -, h6, h7⟩ := e0 k
    simp only [h1]
    rw [← h3, ← h7]
    simp only [RezSt.step]; ring
  · obtain ⟨r, h1, h2, -, -, h5, -⟩ := e0 k
    rw [h2, h1, ← h5]; rfl

/-- **C79, boundedness with parameter inputs.** The same when cutoff and resonance vary over time, as long as the cutoff stays away from zero,
half and a sixth of the sample rate, expressed by bounds on the two coefficients. -/
theorem C79_bounded_inputs (s : RezSt) (hs : s.Cached) (M ε G : ℝ) (hε : 0 < ε) :
    ∃ B, ∀ w : Nat → Frame ℝ 3, (∀ k, |w k 0| ≤ M) → (∀ k, ε ≤ rezF s.sampleRate (w k 1) ∧ rezF s.sampleRate (w k 1) ≤ 2 - ε) →
      (∀ k, |rezFb s.sampleRate (w k 1) (w k 2)| ≤ G) → ∀ k, |rez3.stream s w k 0| ≤ B := by
  set C := max (2 * (M + G) / ε) (max |s.buf0| (|s.buf1| * ε / 2)) with hC
  refine ⟨2 * C / ε + |s.bandpass| * C, fun w hw hf hg k => ?_⟩
  obtain ⟨h, ho⟩ := rez3_seq s hs w
  have hb := rez_bound h (ε := ε) (M := M) (B := G) (C := C) hε hf hw hg (le_max_left _ _)
    ((le_max_left _ _).trans (le_max_right _ _))
    (by
      have : |s.buf1| * ε / 2 ≤ C := (le_max_right _ _).trans (le_max_right _ _)
      rw [le_div_iff₀ hε]
      show |s.buf1| * ε ≤ _
      linarith) (k + 1)
  rw [ho k]
  refine (abs_sub _ _).trans ?_
  rw [abs_mul]
  exact add_le_add hb.2 (mul_le_mul_of_nonneg_left hb.1 (abs_nonneg _))

/-- **C79, parameters.** With constant parameter inputs the filter with parameter inputs is the filter with those parameters. -/
theorem C79_inputs (bp c0 q0 c q sr : ℝ) (w : Nat → Frame ℝ 3) (hw : ∀ k, w k 1 = c ∧ w k 2 = q) (k : Nat) :
    rez3.stream ((rezNew bp c0 q0).setSampleRate sr) w k 0 = rez1.stream ((rezNew bp c q).setSampleRate sr) (fun j _ => w j 0) k 0 := by
  obtain ⟨⟨a0, a1⟩, a2⟩ := rez3_seq ((rezNew bp c0 q0).setSampleRate sr) ⟨rfl, rfl⟩ w
  obtain ⟨⟨b0, b1⟩, b2⟩ := rez1_seq ((rezNew bp c q).setSampleRate sr) (fun j _ => w j 0)
  have key : ∀ k, (rez3.ticks.st ((rezNew bp c0 q0).setSampleRate sr) w k : RezSt).buf0 =
        (rez1.ticks.st ((rezNew bp c q).setSampleRate sr) (fun j _ => w j 0) k : RezSt).buf0 ∧
      (rez3.ticks.st ((rezNew bp c0 q0).setSampleRate sr) w k : RezSt).buf1 =
        (rez1.ticks.st ((rezNew bp c q).setSampleRate sr) (fun j _ => w j 0) k : RezSt).buf1 := by
    intro k
    induction k with
    | zero => exact ⟨rfl, rfl⟩
    | succ k ih =>
      have hA := a0 k
      have hB := b0 k
      simp only [(hw k).1, (hw k).2, ih.1, ih.2] at hA
      have e0 := hA.trans hB.symm
      refine ⟨e0, ?_⟩
      have hA1 := a1 k
      have hB1 := b1 k
      simp only [(hw k).1, ih.2, e0] at hA1
      exact hA1.trans hB1.symm
  rw [a2, b2, (key (k + 1)).1, (key (k + 1)).2]
  rfl

/-! ## Constant input -/

/-- **C79, rest.** Once both smoothers are at the level of a constant input they stay there: the lowpass passes it, the bandpass gives zero. -/
theorem C79_rest (s : RezSt) (c : ℝ) (h0 : s.buf0 = c) (h1 : s.buf1 = c) (k : Nat) :
    rez1.stream s (fun _ _ => c) k 0 = (1 - s.bandpass) * c := by
  obtain ⟨⟨a0, a1⟩, a2⟩ := rez1_seq s (fun _ _ => c)
  have key : ∀ k, (rez1.ticks.st s (fun _ _ => c) k : RezSt).buf0 = c ∧ (rez1.ticks.st s (fun _ _ => c) k : RezSt).buf1 = c := by
    intro k
    induction k with
    | zero => exact ⟨h0, h1⟩
    | succ k ih =>
      have hA := a0 k
      have hB := a1 k
      simp only [ih.1, ih.2, sub_self, Real.tanh_zero, mul_zero, add_zero] at hA
      have e : (rez1.ticks.st s (fun _ _ => c) (k + 1) : RezSt).buf0 = c := by rw [hA]; ring
      simp only [ih.2, e] at hB
      exact ⟨e, by rw [hB]; ring⟩
  rw [a2, (key (k + 1)).1, (key (k + 1)).2]; ring

theorem sinh_le_mul_cosh {x : ℝ} (hx : 0 ≤ x) : Real.sinh x ≤ x * Real.cosh x := by
  have hm : MonotoneOn (fun x : ℝ => x * Real.cosh x - Real.sinh x) (Set.Ici 0) := by
    refine monotoneOn_of_deriv_nonneg (convex_Ici 0) (by fun_prop) (by fun_prop) ?_
    intro y hy
    rw [interior_Ici] at hy
    have hd : HasDerivAt (fun x : ℝ => x * Real.cosh x - Real.sinh x) (1 * Real.cosh y + y * Real.sinh y - Real.cosh y) y :=
      ((hasDerivAt_id y).mul (Real.hasDerivAt_cosh y)).sub (Real.hasDerivAt_sinh y)
    rw [hd.deriv]
    have := Real.sinh_nonneg_iff.2 (le_of_lt hy)
    have hy' : 0 < y := hy
    nlinarith
  have := hm (Set.mem_Ici.2 (le_refl 0)) (Set.mem_Ici.2 hx) hx
  simp at this
  exact this

/-- `tanh x` lies between 0 and `x`. -/
theorem tanh_sector (x : ℝ) : Real.tanh x ^ 2 ≤ x * Real.tanh x := by
  have hpos : ∀ y : ℝ, 0 ≤ y → 0 ≤ Real.tanh y ∧ Real.tanh y ≤ y := by
    intro y hy
    rw [Real.tanh_eq_sinh_div_cosh]
    exact ⟨div_nonneg (Real.sinh_nonneg_iff.2 hy) (Real.cosh_pos y).le, (div_le_iff₀ (Real.cosh_pos y)).2 (sinh_le_mul_cosh hy)⟩
  rcases le_total 0 x with h | h
  · obtain ⟨h1, h2⟩ := hpos x h
    nlinarith
  · obtain ⟨h1, h2⟩ := hpos (-x) (by linarith)
    rw [Real.tanh_neg] at h1 h2
    nlinarith

theorem hasDerivAt_tanh' (x : ℝ) : HasDerivAt Real.tanh (1 / Real.cosh x ^ 2) x := by
  have h := (Real.hasDerivAt_sinh x).div (Real.hasDerivAt_cosh x) (Real.cosh_pos x).ne'
  have e : (Real.sinh / Real.cosh) = Real.tanh := by funext y; rw [Pi.div_apply, Real.tanh_eq_sinh_div_cosh]
  rw [e] at h
  have h2 : Real.cosh x * Real.cosh x - Real.sinh x * Real.sinh x = 1 := by have := Real.cosh_sq x; nlinarith
  rw [h2] at h
  exact h

/-- The integral of `x - tanh x` over `tanh x`. -/
noncomputable def store (x : ℝ) : ℝ := x * Real.tanh x - Real.log (Real.cosh x) - Real.tanh x ^ 2 / 2

theorem hasDerivAt_store (x : ℝ) : HasDerivAt store ((x - Real.tanh x) * (1 / Real.cosh x ^ 2)) x := by
  have h1 := (hasDerivAt_id x).mul (hasDerivAt_tanh' x)
  have h2 := (Real.hasDerivAt_cosh x).log (Real.cosh_pos x).ne'
  have h3 := ((hasDerivAt_tanh' x).pow 2).div_const 2
  have h := (h1.sub h2).sub h3
  refine (h.congr_deriv ?_)
  have : Real.sinh x / Real.cosh x = Real.tanh x := (Real.tanh_eq_sinh_div_cosh x).symm
  rw [this]
  simp
  ring

theorem sub_tanh_mono : Monotone fun x : ℝ => x - Real.tanh x := by
  refine monotone_of_deriv_nonneg (fun x => ((hasDerivAt_id x).sub (hasDerivAt_tanh' x)).differentiableAt) fun x => ?_
  have := ((hasDerivAt_id x).sub (hasDerivAt_tanh' x)).deriv
  erw [this]
  have : 1 ≤ Real.cosh x ^ 2 := by nlinarith [Real.one_le_cosh x]
  rw [sub_nonneg, div_le_one (by linarith)]
  exact this

/-- Convexity in terms of `tanh`, with the oddness of `tanh`. -/
theorem store_le (d e : ℝ) : store d - store e ≤ (d - Real.tanh d) * (Real.tanh d + Real.tanh e) := by
  set F : ℝ → ℝ := fun x => store x - (d - Real.tanh d) * Real.tanh x with hF
  have hd : ∀ x, HasDerivAt F ((x - Real.tanh x - (d - Real.tanh d)) * (1 / Real.cosh x ^ 2)) x := by
    intro x
    refine ((hasDerivAt_store x).sub ((hasDerivAt_tanh' x).const_mul _)).congr_deriv ?_
    ring
  have hc : Continuous F := continuous_iff_continuousAt.2 fun x => (hd x).continuousAt
  have hpos : ∀ x : ℝ, 0 < 1 / Real.cosh x ^ 2 := fun x => by have := Real.cosh_pos x; positivity
  have hmin : ∀ x, F d ≤ F x := by
    intro x
    rcases le_total d x with h | h
    · have : MonotoneOn F (Set.Ici d) := by
        refine monotoneOn_of_deriv_nonneg (convex_Ici d) hc.continuousOn (fun y _ => (hd y).differentiableAt.differentiableWithinAt) ?_
        intro y hy
        rw [interior_Ici] at hy
        rw [(hd y).deriv]
        have : d - Real.tanh d ≤ y - Real.tanh y := sub_tanh_mono (le_of_lt hy)
        exact mul_nonneg (by linarith) (hpos y).le
      exact this (Set.mem_Ici.2 (le_refl d)) (Set.mem_Ici.2 h) h
    · have : AntitoneOn F (Set.Iic d) := by
        refine antitoneOn_of_deriv_nonpos (convex_Iic d) hc.continuousOn (fun y _ => (hd y).differentiableAt.differentiableWithinAt) ?_
        intro y hy
        rw [interior_Iic] at hy
        rw [(hd y).deriv]
        have : y - Real.tanh y ≤ d - Real.tanh d := sub_tanh_mono (le_of_lt hy)
        exact mul_nonpos_of_nonpos_of_nonneg (by linarith) (hpos y).le
      exact this (Set.mem_Iic.2 h) (Set.mem_Iic.2 (le_refl d)) h
  have := hmin (-e)
  have he : store (-e) = store e := by simp [store, Real.tanh_neg, Real.cosh_neg]
  simp only [hF, he, Real.tanh_neg] at this
  nlinarith

theorem store_abs_le (x : ℝ) : store x ≤ |x| := by
  have h1 : 0 ≤ Real.log (Real.cosh x) := Real.log_nonneg (Real.one_le_cosh x)
  have h2 : x * Real.tanh x ≤ |x| := by
    calc x * Real.tanh x ≤ |x * Real.tanh x| := le_abs_self _
      _ = |x| * |Real.tanh x| := abs_mul _ _
      _ ≤ |x| * 1 := mul_le_mul_of_nonneg_left (Real.abs_tanh_lt_one x).le (abs_nonneg _)
      _ = |x| := mul_one _
  unfold store
  nlinarith [sq_nonneg (Real.tanh x)]

/-- Convergence of the loop seen from its rest point: `E` is the scaled first smoother, `d` the difference of the two. The loop is that of a linear filter with
an odd, monotone function of slope at most one in its feedback. The function `W` below combines a quadratic form with the integral of that function (a
Lyapunov function of the type of Zames, Falb and O'Shea for the multiplier `1 + 1/z`). -/
theorem rez_settle {p q : ℝ} (hp : -1 < p) (hp1 : p < 1) (hq : 0 ≤ q) (hq1 : q < 1) {E d : Nat → ℝ} {B : ℝ}
    (hB : ∀ k, |E k| ≤ B ∧ |d k| ≤ B)
    (hE : ∀ k, E (k + 1) = p * E k + (1 - p ^ 2) * (q * Real.tanh (d k)))
    (hd : ∀ k, d (k + 1) = (p - 1) * E k + p * d k + (1 - p ^ 2) * (q * Real.tanh (d k))) :
    Tendsto E atTop (𝓝 0) ∧ Tendsto d atTop (𝓝 0) := by
  have hh : 0 < 1 - p ^ 2 := by nlinarith
  have hm : 0 < 1 - p := by linarith
  have hB0 : 0 ≤ B := (abs_nonneg _).trans (hB 0).1
  set u : Nat → ℝ := fun k => Real.tanh (d k) with hu
  set N : Nat → ℝ := fun k => d k - q * u k with hN
  set Q : Nat → ℝ := fun k => (2 / (1 - p ^ 2)) * E k ^ 2 - 2 / (1 - p) * (E k * d k) + 2 / (1 - p) * d k ^ 2 with hQ
  set W : Nat → ℝ := fun k => Q k - N k ^ 2 - q * (1 - q) * u k ^ 2 - 2 * q * store (d k) with hW
  have hu1 : ∀ k, |u k| ≤ 1 := fun k => (Real.abs_tanh_lt_one _).le
  -- decrease
  have hlow : ∀ k, (N k + N (k + 1)) ^ 2 + q * (1 - q) * (u k + u (k + 1)) ^ 2 ≤ W k - W (k + 1) := by
    intro k
    have hs := store_le (d k) (d (k + 1))
    have hid : Q k - Q (k + 1) = 2 * N k * (d k + d (k + 1)) := by
      have hne : (1 - p ^ 2) ≠ 0 := hh.ne'
      have hne2 : (1 - p) ≠ 0 := hm.ne'
      have e1 : 2 / (1 - p) = 2 * (1 + p) / (1 - p ^ 2) := by
        rw [div_eq_div_iff hne2 hne]; ring
      simp only [hQ, hN, e1, hE k, hd k]
      field_simp
      ring
    have hs' := mul_le_mul_of_nonneg_left hs (show 0 ≤ 2 * q by linarith)
    change 2 * q * (store (d k) - store (d (k + 1))) ≤ 2 * q * ((d k - u k) * (u k + u (k + 1))) at hs'
    have e2 : W k - W (k + 1) = (Q k - Q (k + 1)) - N k ^ 2 + N (k + 1) ^ 2 - q * (1 - q) * u k ^ 2 + q * (1 - q) * u (k + 1) ^ 2
        - 2 * q * (store (d k) - store (d (k + 1))) := by simp only [hW]; ring
    rw [e2, hid]
    have e3 : 2 * N k * (d k + d (k + 1)) - N k ^ 2 + N (k + 1) ^ 2 - q * (1 - q) * u k ^ 2 + q * (1 - q) * u (k + 1) ^ 2
        - 2 * q * ((d k - u k) * (u k + u (k + 1))) = (N k + N (k + 1)) ^ 2 + q * (1 - q) * (u k + u (k + 1)) ^ 2 := by
      simp only [hN]; ring
    linarith
  have hq01 : 0 ≤ q * (1 - q) := mul_nonneg hq (by linarith)
  have hanti : Antitone W := antitone_nat_of_succ_le fun k => by
    have := hlow k
    have h2 : 0 ≤ (N k + N (k + 1)) ^ 2 + q * (1 - q) * (u k + u (k + 1)) ^ 2 := by positivity
    linarith
  have hWlow : ∀ k, -(2 / (1 - p) * B ^ 2) - (B + 1) ^ 2 - 1 - 2 * B ≤ W k := by
    intro k
    obtain ⟨b1, b2⟩ := hB k
    have hc : 0 < 2 / (1 - p) := by positivity
    have h1 : E k * d k ≤ B ^ 2 := by
      calc E k * d k ≤ |E k * d k| := le_abs_self _
        _ = |E k| * |d k| := abs_mul _ _
        _ ≤ B * B := mul_le_mul b1 b2 (abs_nonneg _) hB0
        _ = B ^ 2 := by ring
    have h1' := mul_le_mul_of_nonneg_left h1 hc.le
    have h2 : |N k| ≤ B + 1 := by
      refine (abs_sub _ _).trans (add_le_add b2 ?_)
      rw [abs_mul, abs_of_nonneg hq]
      calc q * |u k| ≤ 1 * 1 := mul_le_mul hq1.le (hu1 k) (abs_nonneg _) zero_le_one
        _ = 1 := one_mul 1
    have h2' : N k ^ 2 ≤ (B + 1) ^ 2 := by
      rw [← sq_abs]; exact pow_le_pow_left₀ (abs_nonneg _) h2 2
    have h3 : q * (1 - q) * u k ^ 2 ≤ 1 := by
      have : u k ^ 2 ≤ 1 := by rw [← sq_abs]; exact pow_le_one₀ (abs_nonneg _) (hu1 k)
      have : q * (1 - q) ≤ 1 := by nlinarith
      nlinarith
    have h4 : 2 * q * store (d k) ≤ 2 * B := by
      have h5 : store (d k) ≤ B := (store_abs_le _).trans b2
      nlinarith
    have h6 : 0 ≤ (2 / (1 - p ^ 2)) * E k ^ 2 := by positivity
    have h7 : 0 ≤ 2 / (1 - p) * d k ^ 2 := by positivity
    simp only [hW, hQ]
    linarith
  obtain ⟨L, hL⟩ : ∃ L, Tendsto W atTop (𝓝 L) :=
    ⟨_, tendsto_atTop_ciInf hanti ⟨_, by rintro _ ⟨k, rfl⟩; exact hWlow k⟩⟩
  have hdiff : Tendsto (fun k => W k - W (k + 1)) atTop (𝓝 0) := by
    have := hL.sub (hL.comp (tendsto_add_atTop_nat 1))
    simpa using this
  have abs_of_sq : ∀ u : Nat → ℝ, Tendsto (fun k => u k ^ 2) atTop (𝓝 0) → Tendsto u atTop (𝓝 0) := by
    intro u hu
    have := (Real.continuous_sqrt.tendsto 0).comp hu
    simp only [Real.sqrt_zero, Function.comp_def, Real.sqrt_sq_eq_abs] at this
    exact (tendsto_zero_iff_abs_tendsto_zero _).2 this
  have hN0 : Tendsto (fun k => N k + N (k + 1)) atTop (𝓝 0) := by
    refine abs_of_sq _ (squeeze_zero (fun k => sq_nonneg _) (fun k => ?_) hdiff)
    have h2 : 0 ≤ q * (1 - q) * (u k + u (k + 1)) ^ 2 := by positivity
    linarith [hlow k]
  have hU0 : Tendsto (fun k => q * u k + q * u (k + 1)) atTop (𝓝 0) := by
    refine abs_of_sq _ (squeeze_zero (g := fun k => q / (1 - q) * (W k - W (k + 1))) (fun k => sq_nonneg _) (fun k => ?_) (by simpa using hdiff.const_mul (q / (1 - q))))
    have h1 : 0 < 1 - q := by linarith
    have h2 : q * (1 - q) * (u k + u (k + 1)) ^ 2 ≤ W k - W (k + 1) := by nlinarith [hlow k, sq_nonneg (N k + N (k + 1))]
    have h3 := mul_le_mul_of_nonneg_left h2 (show 0 ≤ q / (1 - q) by positivity)
    refine le_trans (le_of_eq ?_) h3
    field_simp
  have hA : Tendsto (fun k => d k + d (k + 1)) atTop (𝓝 0) := by
    have := hN0.add hU0
    rw [add_zero] at this
    refine this.congr fun k => ?_
    simp only [hN]; ring
  -- the alternating limit is excluded by the sign of the feedback
  have hrec : ∀ k, d (k + 2) - 2 * p * d (k + 1) + p ^ 2 * d k = (1 - p ^ 2) * (q * u (k + 1) - q * u k) := by
    intro k
    have e1 := hd (k + 1)
    rw [hE k] at e1
    have e2 := hd k
    show d (k + 1 + 1) - _ + _ = _
    simp only [hu]
    linear_combination e1 - p * e2
  have hA1 := hA.comp (tendsto_add_atTop_nat 1)
  have hG : Tendsto (fun k => (1 + p) ^ 2 * d k + 2 * (1 - p ^ 2) * (q * u k)) atTop (𝓝 0) := by
    have h := ((hA1.const_mul (-1)).add (hA.const_mul (1 + 2 * p))).add (hU0.const_mul (1 - p ^ 2))
    simp only [mul_zero, add_zero] at h
    refine h.congr fun k => ?_
    have := hrec k
    simp only [Function.comp_apply]
    linear_combination -this
  have hdG : Tendsto (fun k => |d k * ((1 + p) ^ 2 * d k + 2 * (1 - p ^ 2) * (q * u k))|) atTop (𝓝 0) := by
    have h := ((tendsto_zero_iff_abs_tendsto_zero _).1 hG).const_mul B
    rw [mul_zero] at h
    refine squeeze_zero (fun k => abs_nonneg _) (fun k => ?_) h
    rw [abs_mul]
    exact mul_le_mul_of_nonneg_right (hB k).2 (abs_nonneg _)
  have hd0 : Tendsto d atTop (𝓝 0) := by
    have h1p : 0 < (1 + p) ^ 2 := by have : 0 < 1 + p := by linarith
                                     positivity
    have hdG' := hdG.div_const ((1 + p) ^ 2)
    rw [zero_div] at hdG'
    refine abs_of_sq _ (squeeze_zero (fun k => sq_nonneg _) (fun k => ?_) hdG')
    rw [le_div_iff₀ h1p]
    refine le_trans ?_ (le_abs_self _)
    have h2 : 0 ≤ d k * u k := le_trans (sq_nonneg _) (tanh_sector (d k))
    have h3 : 0 ≤ 2 * (1 - p ^ 2) * q * (d k * u k) := by positivity
    nlinarith
  refine ⟨?_, hd0⟩
  have hu0 : Tendsto u atTop (𝓝 0) := by
    refine abs_of_sq _ (squeeze_zero (fun k => sq_nonneg _) (fun k => ?_) (((tendsto_zero_iff_abs_tendsto_zero _).1 hd0)))
    refine (tanh_sector (d k)).trans ?_
    calc d k * u k ≤ |d k * u k| := le_abs_self _
      _ = |d k| * |u k| := abs_mul _ _
      _ ≤ |d k| * 1 := mul_le_mul_of_nonneg_left (hu1 k) (abs_nonneg _)
      _ = |d k| := mul_one _
  have h := (((hd0.const_mul p).add (hu0.const_mul ((1 - p ^ 2) * q))).sub (hd0.comp (tendsto_add_atTop_nat 1))).div_const (1 - p)
  simp only [mul_zero, add_zero, sub_zero, zero_div] at h
  refine h.congr fun k => ?_
  rw [div_eq_iff hm.ne']
  simp only [Function.comp_apply, hd k, hu]
  ring

theorem rez_seq_settle {f q bp c : ℝ} (hf0 : 0 < f) (hf2 : f < 2) (h6 : f ≠ 1) (hq : 0 ≤ q) (hq1 : q < 1)
    {b0 b1 : Nat → ℝ} (h : RezSeq (fun _ => f) (fun _ => q + q / (1 - f)) (fun _ => c) b0 b1) :
    Tendsto (fun k => b1 (k + 1) - bp * b0 (k + 1)) atTop (𝓝 ((1 - bp) * c)) := by
  have hf1 : 1 - f ≠ 0 := fun h => h6 (by linarith)
  obtain ⟨B, hB⟩ : ∃ B, ∀ k, |(1 - f) * (b0 k - c)| ≤ B ∧ |b0 k - b1 k| ≤ B := by
    set ε := min f (2 - f) with hε
    have hε0 : 0 < ε := lt_min hf0 (by linarith)
    set C := max (2 * (|c| + |q + q / (1 - f)|) / ε) (max |b0 0| (|b1 0| * ε / 2)) with hC
    have hb := rez_bound h (ε := ε) (M := |c|) (B := |q + q / (1 - f)|) (C := C) hε0
      (fun _ => ⟨min_le_left _ _, by have := min_le_right f (2 - f); linarith⟩) (fun _ => le_refl _) (fun _ => le_refl _) (le_max_left _ _)
      ((le_max_left _ _).trans (le_max_right _ _))
      (by
        have : |b1 0| * ε / 2 ≤ C := (le_max_right _ _).trans (le_max_right _ _)
        rw [le_div_iff₀ hε0]
        linarith)
    refine ⟨max (|1 - f| * (C + |c|)) (C + 2 * C / ε), fun k => ⟨le_trans ?_ (le_max_left _ _), le_trans ?_ (le_max_right _ _)⟩⟩
    · rw [abs_mul]
      exact mul_le_mul_of_nonneg_left ((abs_sub _ _).trans (add_le_add (hb k).1 (le_refl _))) (abs_nonneg _)
    · exact (abs_sub _ _).trans (add_le_add (hb k).1 (hb k).2)
  obtain ⟨hE, hd⟩ := rez_settle (p := 1 - f) (q := q) (by linarith) (by linarith) hq hq1
    (E := fun k => (1 - f) * (b0 k - c)) (d := fun k => b0 k - b1 k) hB
    (fun k => by
      show (1 - f) * (b0 (k + 1) - c) = _
      rw [h.h0 k]; field_simp; ring)
    (fun k => by
      show b0 (k + 1) - b1 (k + 1) = _
      rw [h.h1 k, h.h0 k]; field_simp; ring)
  have t0 : Tendsto b0 atTop (𝓝 c) := by
    have := (hE.const_mul (1 - f)⁻¹).add_const c
    simp only [mul_zero, zero_add] at this
    refine this.congr fun k => ?_
    field_simp; ring
  have t1 : Tendsto b1 atTop (𝓝 c) := by
    have := t0.sub hd
    simpa using this
  have t2 := (t1.sub (t0.const_mul bp)).comp (tendsto_add_atTop_nat 1)
  rw [show c - bp * c = (1 - bp) * c by ring] at t2
  exact t2

/-- **C79, settling.** Fed a constant, the filter settles from any state: the lowpass output tends to the constant and the bandpass output to zero, for all
resonances from zero up to, but not including, one. -/
theorem C79_settles (s : RezSt) (hs : s.Cached) (hc : 0 < s.cutoff) (hn : 2 * s.cutoff < s.sampleRate) (h6 : rezF s.sampleRate s.cutoff ≠ 1)
    (hq : 0 ≤ s.q) (hq1 : s.q < 1) (c : ℝ) :
    Tendsto (fun k => rez1.stream s (fun _ _ => c) k 0) atTop (𝓝 ((1 - s.bandpass) * c)) := by
  obtain ⟨hf0, hf2⟩ := rezF_mem hc hn
  obtain ⟨a0, a2⟩ := rez1_seq s (fun _ _ => c)
  rw [hs.f, hs.fb] at a0
  exact (rez_seq_settle (bp := s.bandpass) hf0 hf2 h6 hq hq1 a0).congr fun k => (a2 k).symm

/-! ## Reset -/

/-- **C79/C19, reset.** A reset filter with fixed parameters sounds like a new one. -/
theorem C79_reset (init : RezSt) (h : init.reset = init) : ResetFresh rez1 init :=
  resetFresh_ofTick_eq (fun s : RezSt => s.reset = init.reset) rfl (fun _ _ h => h) (fun _ hs => (hs.trans h : _))

/-- **C79/C19, reset with parameter inputs.** -/
theorem C79_reset_inputs (init : RezSt) (h : init.reset = init) (hc : init.Cached) : ResetFresh rez3 init := by
  refine TickFresh.ofTick (tickFresh_of_rel (n := rez3)
    (P := fun s : RezSt => s.Cached ∧ s.sampleRate = init.sampleRate ∧ s.bandpass = init.bandpass)
    (R := fun s t : RezSt => s.Cached ∧ t.Cached ∧ s.sampleRate = t.sampleRate ∧ s.bandpass = t.bandpass ∧ s.buf0 = t.buf0 ∧ s.buf1 = t.buf1)
    ⟨hc, rfl, rfl⟩ ?_ (fun s hs => ⟨⟨hs.1.f, hs.1.fb⟩, hs.2⟩) (fun s hs => ?_) ?_)
  · intro s x hs
    have := rez3_cached s hs.1 (fun _ => x) 1
    exact ⟨this.1, this.2.1.trans hs.2.1, this.2.2.trans hs.2.2⟩
  · refine ⟨⟨hs.1.f, hs.1.fb⟩, hc, hs.2.1, hs.2.2, ?_, ?_⟩ <;> rw [← h] <;> rfl
  · rintro s t x ⟨h1, h2, h3, h4, h5, h6⟩
    have s1 := rez3_seq s h1 (fun _ => x)
    have t1 := rez3_seq t h2 (fun _ => x)
    have s2 := rez3_cached s h1 (fun _ => x) 1
    have t2 := rez3_cached t h2 (fun _ => x) 1
    have e0 : (rez3.ticks.st s (fun _ => x) 1 : RezSt).buf0 = (rez3.ticks.st t (fun _ => x) 1 : RezSt).buf0 := by
      have A := s1.1.h0 0
      have B := t1.1.h0 0
      simp only [show (rez3.ticks.st s (fun _ => x) 0 : RezSt) = s from rfl, show (rez3.ticks.st t (fun _ => x) 0 : RezSt) = t from rfl,
        h3, h5, h6] at A B
      exact A.trans B.symm
    have e1 : (rez3.ticks.st s (fun _ => x) 1 : RezSt).buf1 = (rez3.ticks.st t (fun _ => x) 1 : RezSt).buf1 := by
      have A := s1.1.h1 0
      have B := t1.1.h1 0
      simp only [show (rez3.ticks.st s (fun _ => x) 0 : RezSt) = s from rfl, show (rez3.ticks.st t (fun _ => x) 0 : RezSt) = t from rfl,
        h3, h6, e0] at A B
      exact A.trans B.symm
    refine ⟨⟨s2.1, t2.1, s2.2.1.trans (h3.trans t2.2.1.symm), s2.2.2.trans (h4.trans t2.2.2.symm), e0, e1⟩, ?_⟩
    funext c
    obtain rfl : c = 0 := Subsingleton.elim _ _
    have A := s1.2 0
    have B := t1.2 0
    rw [e0, e1, h4] at A
    exact A.trans B.symm

/-! ## Non-vacuity -/

/-- A lowpass at 1000 Hz with resonance 0.99 meets the hypotheses of the theorems above. -/
example : ∃ s : RezSt, s = rezNew 0 1000 0.99 ∧ s.Cached ∧ 0 < s.cutoff ∧ 2 * s.cutoff < s.sampleRate ∧ rezF s.sampleRate s.cutoff ≠ 1 ∧
    0 ≤ s.q ∧ s.q < 1 ∧ s.reset = s ∧ 6 * s.cutoff ≠ s.sampleRate := by
  have hf : (rezF 44100 1000) < 1 := by
    unfold rezF
    have : Real.sin (Real.pi * 1000 / 44100) < Real.sin (Real.pi / 6) := by
      have := Real.pi_pos
      apply Real.sin_lt_sin_of_lt_of_le_pi_div_two <;> linarith
    rw [Real.sin_pi_div_six] at this
    linarith
  refine ⟨_, rfl, ⟨rfl, rfl⟩, by norm_num [rezNew, RezSt.setCutoffQ], by norm_num [rezNew, RezSt.setCutoffQ], ne_of_lt hf, by norm_num [rezNew, RezSt.setCutoffQ],
    by norm_num [rezNew, RezSt.setCutoffQ], rfl, by norm_num [rezNew, RezSt.setCutoffQ]⟩

end Fundsp.Filter
