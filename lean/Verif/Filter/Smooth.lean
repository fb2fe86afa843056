import Verif.Filter.Model
import Verif.Filter.Contract
import Mathlib.Analysis.SpecialFunctions.Log.Basic
import Mathlib.Analysis.SpecialFunctions.Exp
import Mathlib.Analysis.Complex.ExponentialBounds
import Mathlib.Analysis.Real.Pi.Bounds
import Mathlib.Tactic.LinearCombination
import Mathlib.Tactic.FieldSimp

/-! C41 (smoothers) and C42 (DC removal). -/

namespace Fundsp.Filter
open _root_.Filter Topology

/-! ## Coefficients -/

/-- `Lowpole::set_cutoff`, `Highpole::set_cutoff`: `filter.rs:43-46,374-377`. -/
noncomputable def poleCoeff (sr f : ℝ) : ℝ := Real.exp (-(2 * Real.pi) * f / sr)

/-- `DCBlock::set_cutoff`: `filter.rs:123-126`. -/
noncomputable def dcCoeff (sr f : ℝ) : ℝ := 1 - 2 * Real.pi / sr * f

/-- `logistic`: `follow.rs:12-16`. -/
noncomputable def logistic (x : ℝ) : ℝ := 1 / (1 + Real.exp (0 - x))

/-- `halfway_coeff`: `follow.rs:18-24`. -/
noncomputable def halfwayCoeff (samples : ℝ) : ℝ :=
  1 - min 0.9999999 (logistic (Real.log (max 1 samples) - 0.861624594696583) * 1.13228543863477 - 0.1322853859)

theorem poleCoeff_mem {sr f : ℝ} (hsr : 0 < sr) (hf : 0 ≤ f) : 0 < poleCoeff sr f ∧ poleCoeff sr f ≤ 1 := by
  refine ⟨Real.exp_pos _, Real.exp_le_one_iff.2 ?_⟩
  have : 0 ≤ 2 * Real.pi * f / sr := by have := Real.pi_pos; positivity
  have e : -(2 * Real.pi) * f / sr = -(2 * Real.pi * f / sr) := by ring
  rw [e]; linarith

theorem poleCoeff_lt {sr f : ℝ} (hsr : 0 < sr) (hf : 0 < f) : 0 < poleCoeff sr f ∧ poleCoeff sr f < 1 := by
  have h : -(2 * Real.pi) * f / sr < 0 := by
    have : 0 < 2 * Real.pi * f / sr := by have := Real.pi_pos; positivity
    have e : -(2 * Real.pi) * f / sr = -(2 * Real.pi * f / sr) := by ring
    rw [e]; linarith
  refine ⟨Real.exp_pos _, ?_⟩
  rw [poleCoeff, ← Real.exp_zero]
  exact Real.exp_lt_exp.2 h

theorem dcCoeff_mem {sr f : ℝ} (hsr : 0 < sr) (hf : 0 < f) (h : 2 * Real.pi * f ≤ sr) : 0 ≤ dcCoeff sr f ∧ dcCoeff sr f < 1 := by
  unfold dcCoeff
  have e : 2 * Real.pi / sr * f = 2 * Real.pi * f / sr := by ring
  have h1 : 0 < 2 * Real.pi * f / sr := by have := Real.pi_pos; positivity
  have h2 : 2 * Real.pi * f / sr ≤ 1 := (div_le_one hsr).2 h
  rw [e]; constructor <;> linarith

/-- The follower coefficient is in `(0, 1]` for every response time. -/
theorem halfwayCoeff_mem (samples : ℝ) : 0 < halfwayCoeff samples ∧ halfwayCoeff samples ≤ 1 := by
  unfold halfwayCoeff
  refine ⟨by have := min_le_left (0.9999999 : ℝ) (logistic (Real.log (max 1 samples) - 0.861624594696583) * 1.13228543863477 - 0.1322853859); linarith, ?_⟩
  have h0 : 0 ≤ Real.log (max 1 samples) := Real.log_nonneg (le_max_left _ _)
  have h1 : Real.exp (0 - (Real.log (max 1 samples) - 0.861624594696583)) ≤ Real.exp 1 := Real.exp_le_exp.2 (by linarith)
  have h2 := Real.exp_one_lt_d9
  have h3 : (1 : ℝ) / 4 ≤ logistic (Real.log (max 1 samples) - 0.861624594696583) := by
    unfold logistic
    exact one_div_le_one_div_of_le (by positivity) (by linarith)
  have h4 : (0 : ℝ) ≤ min 0.9999999 (logistic (Real.log (max 1 samples) - 0.861624594696583) * 1.13228543863477 - 0.1322853859) :=
    le_min (by norm_num) (by linarith)
  linarith

/-! ## Specifications -/

/-- Values stay within `[lo, hi]`. -/
def Within (lo hi : ℝ) (w : Nat → ℝ) : Prop := ∀ k, lo ≤ w k ∧ w k ≤ hi

/-- The stream approaches `x` monotonically, never crossing it, from the starting value `y`. -/
def MonotoneTo (y x : ℝ) (w : Nat → ℝ) : Prop :=
  (y ≤ x → y ≤ w 0 ∧ ∀ k, w k ≤ w (k + 1) ∧ w k ≤ x) ∧ (x ≤ y → w 0 ≤ y ∧ ∀ k, w (k + 1) ≤ w k ∧ x ≤ w k)

theorem mix_mem {lo hi c a b : ℝ} (h0 : 0 ≤ c) (h1 : c ≤ 1) (ha : lo ≤ a ∧ a ≤ hi) (hb : lo ≤ b ∧ b ≤ hi) :
    lo ≤ (1 - c) * a + c * b ∧ (1 - c) * a + c * b ≤ hi := by
  constructor <;> nlinarith [mul_nonneg h0 (sub_nonneg.2 hb.1), mul_nonneg (sub_nonneg.2 h1) (sub_nonneg.2 ha.1),
    mul_nonneg h0 (sub_nonneg.2 hb.2), mul_nonneg (sub_nonneg.2 h1) (sub_nonneg.2 ha.2)]

/-! ## Lowpole -/

theorem lowpole_state {cf : ℝ → ℝ} {n : Nat} {s : LowpoleSt ℝ} {w : Nat → Frame ℝ (n + 1)} {lo hi : ℝ}
    (hc : 0 ≤ s.coeff ∧ s.coeff ≤ 1) (hcf : ∀ k (h : 1 < n + 1), 0 ≤ cf (w k ⟨1, h⟩) ∧ cf (w k ⟨1, h⟩) ≤ 1)
    (hs : lo ≤ s.value ∧ s.value ≤ hi) (hw : Within lo hi (fun k => w k 0)) (k : Nat) :
    let t : LowpoleSt ℝ := (lowpoleNode cf n).ticks.st s w k
    (0 ≤ t.coeff ∧ t.coeff ≤ 1) ∧ lo ≤ t.value ∧ t.value ≤ hi := by
  induction k with
  | zero => exact ⟨hc, hs⟩
  | succ k ih =>
    obtain ⟨t, ht⟩ : ∃ t : LowpoleSt ℝ, t = (lowpoleNode cf n).ticks.st s w k := ⟨_, rfl⟩
    have e : (lowpoleNode cf n).ticks.st s w (k + 1) = (lowpoleTick cf n t (w k)).1 := by rw [ht]; rfl
    simp only [← ht] at ih
    simp only [e]
    unfold lowpoleTick
    by_cases h : 1 < n + 1
    · by_cases hx : w k ⟨1, h⟩ ≠ t.cutoff
      · simp only [h, dif_pos, if_pos hx]
        exact ⟨hcf k h, mix_mem (hcf k h).1 (hcf k h).2 (hw k) ih.2⟩
      · simp only [h, dif_pos, if_neg hx]
        exact ⟨ih.1, mix_mem ih.1.1 ih.1.2 (hw k) ih.2⟩
    · simp only [h, dif_neg, not_false_iff]
      exact ⟨ih.1, mix_mem ih.1.1 ih.1.2 (hw k) ih.2⟩

/-- **C41, lowpole.** With any (also time varying) cutoff, the output stays within the range spanned by the initial state and the input. -/
theorem C41_lowpole_range {cf : ℝ → ℝ} {n : Nat} {s : LowpoleSt ℝ} {w : Nat → Frame ℝ (n + 1)} {lo hi : ℝ}
    (hc : 0 ≤ s.coeff ∧ s.coeff ≤ 1) (hcf : ∀ k (h : 1 < n + 1), 0 ≤ cf (w k ⟨1, h⟩) ∧ cf (w k ⟨1, h⟩) ≤ 1)
    (hs : lo ≤ s.value ∧ s.value ≤ hi) (hw : Within lo hi (fun k => w k 0)) :
    Within lo hi (fun k => (lowpoleNode cf n).ticks.out s w k 0) := by
  intro k
  exact (lowpole_state hc hcf hs hw (k + 1)).2

/-- **C41, lowpole.** Nonnegative cutoffs in Hz meet the requirement above. -/
theorem C41_lowpole_cutoff {sr f : ℝ} (hsr : 0 < sr) (hf : 0 ≤ f) : 0 ≤ poleCoeff sr f ∧ poleCoeff sr f ≤ 1 :=
  ⟨(poleCoeff_mem hsr hf).1.le, (poleCoeff_mem hsr hf).2⟩

theorem lowpole_const (cf : ℝ → ℝ) (s : LowpoleSt ℝ) (x : ℝ) (k : Nat) :
    (lowpoleNode cf 0).ticks.st s (fun _ _ => x) k = ⟨x + s.coeff ^ k * (s.value - x), s.coeff, s.cutoff⟩ := by
  induction k with
  | zero =>
    show s = _
    cases s; simp
  | succ k ih =>
    have e : (lowpoleNode cf 0).ticks.st s (fun _ _ => x) (k + 1)
      = (lowpoleTick cf 0 ((lowpoleNode cf 0).ticks.st s (fun _ _ => x) k) (fun _ => x)).1 := rfl
    rw [e, ih]
    show (⟨(1 - s.coeff) * x + s.coeff * (x + s.coeff ^ k * (s.value - x)), s.coeff, s.cutoff⟩ : LowpoleSt ℝ) = _
    congr 1; ring

/-- **C41, lowpole.** With constant input `x` the output approaches `x` monotonically and converges to it, from any state. -/
theorem C41_lowpole_const (cf : ℝ → ℝ) (s : LowpoleSt ℝ) (x : ℝ) (h0 : 0 ≤ s.coeff) (h1 : s.coeff < 1) :
    MonotoneTo s.value x (fun k => (lowpoleNode cf 0).ticks.out s (fun _ _ => x) k 0)
      ∧ Tendsto (fun k => (lowpoleNode cf 0).ticks.out s (fun _ _ => x) k 0) atTop (𝓝 x) := by
  have e : ∀ k, (lowpoleNode cf 0).ticks.out s (fun _ _ => x) k 0 = x + s.coeff ^ (k + 1) * (s.value - x) := by
    intro k
    exact congrArg LowpoleSt.value (lowpole_const cf s x (k + 1))
  have hp : ∀ k, 0 ≤ s.coeff ^ k := fun k => pow_nonneg h0 k
  have hd : ∀ k, s.coeff ^ (k + 1) ≤ s.coeff ^ k := fun k => pow_le_pow_of_le_one h0 h1.le (by omega)
  constructor
  · simp only [MonotoneTo, e]
    refine ⟨fun h => ⟨?_, fun k => ⟨?_, ?_⟩⟩, fun h => ⟨?_, fun k => ⟨?_, ?_⟩⟩⟩
    · have := hd 0; have := hp 1; norm_num at *; nlinarith
    · nlinarith [hd (k + 1), hp (k + 1)]
    · nlinarith [hp (k + 1)]
    · have := hd 0; have := hp 1; norm_num at *; nlinarith
    · nlinarith [hd (k + 1), hp (k + 1)]
    · nlinarith [hp (k + 1)]
  · simp only [e]
    have := ((tendsto_pow_atTop_nhds_zero_of_lt_one h0 h1).comp (tendsto_add_atTop_nat 1)).mul_const (s.value - x)
    simpa using this.const_add x

/-! ## Followers -/

theorem filterPole_sub (x v a r : ℝ) : filterPole x v a r - x = if v ≤ x then (1 - a) * (v - x) else (1 - r) * (v - x) := by
  unfold filterPole
  split
  · rename_i h; rw [max_eq_right (by linarith), max_eq_left (by linarith)]; ring
  · rename_i h; rw [max_eq_left (by linarith), max_eq_right (by linarith)]; ring

theorem filterPole_up {x v a r : ℝ} (ha : 0 ≤ a ∧ a ≤ 1) (h : v ≤ x) : v ≤ filterPole x v a r ∧ filterPole x v a r ≤ x := by
  have e := filterPole_sub x v a r
  rw [if_pos h] at e
  constructor <;> nlinarith [mul_nonneg ha.1 (sub_nonneg.2 h), mul_nonneg (sub_nonneg.2 ha.2) (sub_nonneg.2 h)]

theorem filterPole_down {x v a r : ℝ} (hr : 0 ≤ r ∧ r ≤ 1) (h : x ≤ v) : x ≤ filterPole x v a r ∧ filterPole x v a r ≤ v := by
  rcases eq_or_lt_of_le h with rfl | h'
  · unfold filterPole; simp
  have e := filterPole_sub x v a r
  rw [if_neg (by linarith)] at e
  constructor <;> nlinarith [mul_nonneg hr.1 (sub_nonneg.2 h), mul_nonneg (sub_nonneg.2 hr.2) (sub_nonneg.2 h)]

theorem filterPole_mem {lo hi x v a r : ℝ} (ha : 0 ≤ a ∧ a ≤ 1) (hr : 0 ≤ r ∧ r ≤ 1) (hx : lo ≤ x ∧ x ≤ hi) (hv : lo ≤ v ∧ v ≤ hi) :
    lo ≤ filterPole x v a r ∧ filterPole x v a r ≤ hi := by
  rcases le_total v x with h | h
  · have := filterPole_up (r := r) ha h; constructor <;> linarith [this.1, this.2]
  · have := filterPole_down (a := a) hr h; constructor <;> linarith [this.1, this.2]

/-- Valid coefficients: attack and release factors in `[0, 1]`. -/
structure AFollowSt.Ok (s : AFollowSt ℝ) : Prop where
  a : 0 ≤ s.acoeff ∧ s.acoeff ≤ 1
  r : 0 ≤ s.rcoeff ∧ s.rcoeff ≤ 1
  an : 0 ≤ s.acoeffNow ∧ s.acoeffNow ≤ 1
  rn : 0 ≤ s.rcoeffNow ∧ s.rcoeffNow ≤ 1

def AFollowSt.In (lo hi : ℝ) (s : AFollowSt ℝ) : Prop := (lo ≤ s.v1 ∧ s.v1 ≤ hi) ∧ (lo ≤ s.v2 ∧ s.v2 ≤ hi) ∧ (lo ≤ s.v3 ∧ s.v3 ≤ hi)

theorem AFollowSt.Ok.tick {s : AFollowSt ℝ} (h : s.Ok) (x : ℝ) : (afollowTick s x).1.Ok := ⟨h.a, h.r, h.a, h.r⟩

theorem AFollowSt.Ok.st {s : AFollowSt ℝ} (h : s.Ok) (w : Nat → Frame ℝ 1) : ∀ k, AFollowSt.Ok (afollowNode.ticks.st s w k)
  | 0 => h
  | k + 1 => (h.st w k).tick _

theorem afollow_in {s : AFollowSt ℝ} (h : s.Ok) {lo hi x : ℝ} (hs : s.In lo hi) (hx : lo ≤ x ∧ x ≤ hi) : (afollowTick s x).1.In lo hi := by
  have h1 := filterPole_mem h.an h.rn hx hs.1
  have h2 := filterPole_mem h.an h.rn h1 hs.2.1
  exact ⟨h1, h2, filterPole_mem h.an h.rn h2 hs.2.2⟩

theorem afollow_in_st {s : AFollowSt ℝ} (h : s.Ok) {lo hi : ℝ} {w : Nat → Frame ℝ 1} (hs : s.In lo hi) (hw : Within lo hi (fun k => w k 0)) :
    ∀ k, AFollowSt.In lo hi (afollowNode.ticks.st s w k)
  | 0 => hs
  | k + 1 => afollow_in (h.st w k) (afollow_in_st h hs hw k) (hw k)

/-- **C41, afollow.** The output stays within the range spanned by the initial state and the input, for any attack and release. -/
theorem C41_afollow_range {s : AFollowSt ℝ} (h : s.Ok) {lo hi : ℝ} {w : Nat → Frame ℝ 1} (hs : s.In lo hi)
    (hw : Within lo hi (fun k => w k 0)) : Within lo hi (fun k => afollowNode.ticks.out s w k 0) :=
  fun k => (afollow_in_st h hs hw (k + 1)).2.2

theorem afollow_up {s : AFollowSt ℝ} (h : s.Ok) {x : ℝ} (h1 : s.v3 ≤ s.v2) (h2 : s.v2 ≤ s.v1) (h3 : s.v1 ≤ x) :
    let t := (afollowTick s x).1
    s.v3 ≤ t.v3 ∧ t.v3 ≤ t.v2 ∧ t.v2 ≤ t.v1 ∧ t.v1 ≤ x := by
  have a1 := filterPole_up (r := s.rcoeffNow) h.an h3
  have a2 := filterPole_up (r := s.rcoeffNow) h.an (h2.trans a1.1)
  have a3 := filterPole_up (r := s.rcoeffNow) h.an (h1.trans a2.1)
  exact ⟨a3.1, a3.2, a2.2, a1.2⟩

theorem afollow_down {s : AFollowSt ℝ} (h : s.Ok) {x : ℝ} (h1 : s.v2 ≤ s.v3) (h2 : s.v1 ≤ s.v2) (h3 : x ≤ s.v1) :
    let t := (afollowTick s x).1
    t.v3 ≤ s.v3 ∧ t.v2 ≤ t.v3 ∧ t.v1 ≤ t.v2 ∧ x ≤ t.v1 := by
  have a1 := filterPole_down (a := s.acoeffNow) h.rn h3
  have a2 := filterPole_down (a := s.acoeffNow) h.rn (a1.2.trans h2)
  have a3 := filterPole_down (a := s.acoeffNow) h.rn (a2.2.trans h1)
  exact ⟨a3.2, a3.1, a2.1, a1.1⟩

/-- **C41, afollow.** From rest at any value, the output moves monotonically towards a constant input and never crosses it. -/
theorem C41_afollow_monotone {s : AFollowSt ℝ} (h : s.Ok) {y x : ℝ} (hs : s.v1 = y ∧ s.v2 = y ∧ s.v3 = y) :
    MonotoneTo y x (fun k => afollowNode.ticks.out s (fun _ _ => x) k 0) := by
  obtain ⟨e1, e2, e3⟩ := hs
  constructor
  · intro hy
    have inv : ∀ k, let t : AFollowSt ℝ := afollowNode.ticks.st s (fun _ _ => x) k; t.v3 ≤ t.v2 ∧ t.v2 ≤ t.v1 ∧ t.v1 ≤ x := by
      intro k
      induction k with
      | zero => exact ⟨by show s.v3 ≤ s.v2; rw [e2, e3], by show s.v2 ≤ s.v1; rw [e1, e2], by show s.v1 ≤ x; rw [e1]; exact hy⟩
      | succ k ih => exact (afollow_up (h.st _ k) ih.1 ih.2.1 ih.2.2).2
    have up := fun k => (afollow_up (h.st (fun _ _ => x) k) (inv k).1 (inv k).2.1 (inv k).2.2)
    refine ⟨?_, fun k => ⟨(up (k + 1)).1, ((up k).2.1.trans (up k).2.2.1).trans (up k).2.2.2⟩⟩
    have := (up 0).1
    exact e3 ▸ this
  · intro hy
    have inv : ∀ k, let t : AFollowSt ℝ := afollowNode.ticks.st s (fun _ _ => x) k; t.v2 ≤ t.v3 ∧ t.v1 ≤ t.v2 ∧ x ≤ t.v1 := by
      intro k
      induction k with
      | zero => exact ⟨by show s.v2 ≤ s.v3; rw [e2, e3], by show s.v1 ≤ s.v2; rw [e1, e2], by show x ≤ s.v1; rw [e1]; exact hy⟩
      | succ k ih => exact (afollow_down (h.st _ k) ih.1 ih.2.1 ih.2.2).2
    have dn := fun k => (afollow_down (h.st (fun _ _ => x) k) (inv k).1 (inv k).2.1 (inv k).2.2)
    refine ⟨?_, fun k => ⟨(dn (k + 1)).1, ((dn k).2.2.2.trans (dn k).2.2.1).trans (dn k).2.1⟩⟩
    have := (dn 0).1
    exact e3 ▸ this

theorem filterPole_contract {x v a r c : ℝ} (ha : 1 - a ≤ c) (hr : 1 - r ≤ c) (ha1 : a ≤ 1) (hr1 : r ≤ 1) :
    |filterPole x v a r - x| ≤ c * |v - x| := by
  rw [filterPole_sub]
  split
  · rw [abs_mul, abs_of_nonneg (by linarith : 0 ≤ 1 - a)]; exact mul_le_mul_of_nonneg_right ha (abs_nonneg _)
  · rw [abs_mul, abs_of_nonneg (by linarith : 0 ≤ 1 - r)]; exact mul_le_mul_of_nonneg_right hr (abs_nonneg _)

/-- One pole chasing a convergent stream converges to the same limit. -/
theorem pole_chase {v i : ℕ → ℝ} {a r : ℕ → ℝ} {x c : ℝ} (hc : 0 ≤ c) (hc1 : c < 1)
    (h : ∀ k, v (k + 1) = filterPole (i k) (v k) (a k) (r k)) (ha : ∀ k, 1 - a k ≤ c ∧ a k ≤ 1) (hr : ∀ k, 1 - r k ≤ c ∧ r k ≤ 1)
    (hi : Tendsto i atTop (𝓝 x)) : Tendsto v atTop (𝓝 x) := by
  have hd : Tendsto (fun k => |i k - x|) atTop (𝓝 0) := by
    have := (hi.sub_const x).abs; simpa using this
  have hu : Tendsto (fun k => |v k - x|) atTop (𝓝 0) := by
    refine tendsto_of_contraction (e := fun k => 2 * |i k - x|) hc hc1 (fun _ => abs_nonneg _) (fun k => ?_) (by simpa using hd.const_mul 2)
    have h1 := filterPole_contract (x := i k) (v := v k) (ha k).1 (hr k).1 (ha k).2 (hr k).2
    rw [← h k] at h1
    have h2 : |v (k + 1) - x| ≤ |v (k + 1) - i k| + |i k - x| := abs_sub_le _ _ _
    have h3 : |v k - i k| ≤ |v k - x| + |i k - x| := by rw [abs_sub_comm (i k) x]; exact abs_sub_le _ _ _
    have h4 := mul_le_mul_of_nonneg_left h3 hc
    have h5 : c * |i k - x| ≤ 1 * |i k - x| := mul_le_mul_of_nonneg_right hc1.le (abs_nonneg _)
    linarith
  have := tendsto_zero_iff_abs_tendsto_zero _ |>.2 hu
  simpa using this.add_const x

/-- **C41, afollow.** With constant input the output converges to it, from any state. -/
theorem C41_afollow_converges {s : AFollowSt ℝ} (h : s.Ok) (ha : 0 < s.acoeff) (hr : 0 < s.rcoeff) (x : ℝ) :
    Tendsto (fun k => afollowNode.ticks.out s (fun _ _ => x) k 0) atTop (𝓝 x) := by
  -- from the second sample on the coefficients are constant
  let t : Nat → AFollowSt ℝ := fun k => afollowNode.ticks.st s (fun _ _ => x) (k + 1)
  have hco : ∀ k, (t k).acoeff = s.acoeff ∧ (t k).rcoeff = s.rcoeff ∧ (t k).acoeffNow = s.acoeff ∧ (t k).rcoeffNow = s.rcoeff := by
    intro k
    induction k with
    | zero => exact ⟨rfl, rfl, rfl, rfl⟩
    | succ k ih => exact ⟨ih.1, ih.2.1, ih.1, ih.2.1⟩
  have hc : 0 ≤ max (1 - s.acoeff) (1 - s.rcoeff) := le_max_of_le_left (by linarith [h.a.2])
  have hc1 : max (1 - s.acoeff) (1 - s.rcoeff) < 1 := max_lt (by linarith) (by linarith)
  have hA : ∀ k, 1 - (t k).acoeffNow ≤ max (1 - s.acoeff) (1 - s.rcoeff) ∧ (t k).acoeffNow ≤ 1 := fun k => by
    rw [(hco k).2.2.1]; exact ⟨le_max_left _ _, h.a.2⟩
  have hR : ∀ k, 1 - (t k).rcoeffNow ≤ max (1 - s.acoeff) (1 - s.rcoeff) ∧ (t k).rcoeffNow ≤ 1 := fun k => by
    rw [(hco k).2.2.2]; exact ⟨le_max_right _ _, h.r.2⟩
  have t1 : Tendsto (fun k => (t k).v1) atTop (𝓝 x) := pole_chase hc hc1 (i := fun _ => x) (fun k => rfl) hA hR tendsto_const_nhds
  have t2 : Tendsto (fun k => (t k).v2) atTop (𝓝 x) :=
    pole_chase hc hc1 (i := fun k => (t (k + 1)).v1) (fun k => rfl) hA hR (t1.comp (tendsto_add_atTop_nat 1))
  have t3 : Tendsto (fun k => (t k).v3) atTop (𝓝 x) :=
    pole_chase hc hc1 (i := fun k => (t (k + 1)).v2) (fun k => rfl) hA hR (t2.comp (tendsto_add_atTop_nat 1))
  exact t3

/-- The symmetric follower computes the same as the asymmetric one with equal coefficients. -/
def FollowSt.toA (s : FollowSt ℝ) : AFollowSt ℝ := ⟨s.v1, s.v2, s.v3, s.coeff, s.coeff, s.coeffNow, s.coeffNow⟩

theorem filterPole_same (x v a : ℝ) : filterPole x v a a = a * x + (1 - a) * v := by
  unfold filterPole
  rcases le_total v x with h | h
  · rw [max_eq_right (by linarith), max_eq_left (by linarith)]; ring
  · rw [max_eq_left (by linarith), max_eq_right (by linarith)]; ring

theorem followTick_toA (s : FollowSt ℝ) (x : ℝ) : (followTick s x).1.toA = (afollowTick s.toA x).1 ∧ (followTick s x).2 = (afollowTick s.toA x).2 := by
  simp only [followTick, afollowTick, FollowSt.toA, filterPole_same, and_self]

theorem follow_st (s : FollowSt ℝ) (w : Nat → Frame ℝ 1) : ∀ k, FollowSt.toA (followNode.ticks.st s w k) = afollowNode.ticks.st s.toA w k
  | 0 => rfl
  | k + 1 => by
    have h := (followTick_toA (followNode.ticks.st s w k) (w k 0)).1
    rw [follow_st s w k] at h
    exact h

theorem follow_out (s : FollowSt ℝ) (w : Nat → Frame ℝ 1) (k : Nat) : followNode.ticks.out s w k 0 = afollowNode.ticks.out s.toA w k 0 := by
  have h := (followTick_toA (followNode.ticks.st s w k) (w k 0)).2
  rw [follow_st s w k] at h
  exact h

structure FollowSt.Ok (s : FollowSt ℝ) : Prop where
  c : 0 ≤ s.coeff ∧ s.coeff ≤ 1
  n : 0 ≤ s.coeffNow ∧ s.coeffNow ≤ 1

theorem FollowSt.Ok.toA {s : FollowSt ℝ} (h : s.Ok) : s.toA.Ok := ⟨h.c, h.c, h.n, h.n⟩

/-- **C41, follow.** Range. -/
theorem C41_follow_range {s : FollowSt ℝ} (h : s.Ok) {lo hi : ℝ} {w : Nat → Frame ℝ 1}
    (hs : (lo ≤ s.v1 ∧ s.v1 ≤ hi) ∧ (lo ≤ s.v2 ∧ s.v2 ≤ hi) ∧ (lo ≤ s.v3 ∧ s.v3 ≤ hi))
    (hw : Within lo hi (fun k => w k 0)) : Within lo hi (fun k => followNode.ticks.out s w k 0) := by
  intro k
  beta_reduce
  rw [follow_out]
  exact C41_afollow_range h.toA hs hw k

/-- **C41, follow.** Monotone approach from rest and convergence from any state. -/
theorem C41_follow_const {s : FollowSt ℝ} (h : s.Ok) (h0 : 0 < s.coeff) (x : ℝ) :
    (∀ y, s.v1 = y ∧ s.v2 = y ∧ s.v3 = y → MonotoneTo y x (fun k => followNode.ticks.out s (fun _ _ => x) k 0))
      ∧ Tendsto (fun k => followNode.ticks.out s (fun _ _ => x) k 0) atTop (𝓝 x) := by
  have e : (fun k => followNode.ticks.out s (fun _ _ => x) k 0) = fun k => afollowNode.ticks.out s.toA (fun _ _ => x) k 0 :=
    funext (fun k => follow_out s _ k)
  rw [e]
  exact ⟨fun y hy => C41_afollow_monotone h.toA hy, C41_afollow_converges h.toA h0 h0 x⟩

/-- **C41, follow.** The first sample after reset is passed through exactly, so a follower starts without a transient. -/
theorem C41_first_sample (s : FollowSt ℝ) (t : AFollowSt ℝ) (w : Nat → Frame ℝ 1) :
    followNode.ticks.out (followReset s) w 0 0 = w 0 0 ∧ afollowNode.ticks.out (afollowReset t) w 0 0 = w 0 0 := by
  constructor
  · show (followTick (followReset s) (w 0 0)).2 = _
    simp [followTick, followReset]
  · show (afollowTick (afollowReset t) (w 0 0)).2 = _
    simp [afollowTick, afollowReset, filterPole_same]

/-- **C41.** Every response time gives a coefficient meeting the hypotheses above. -/
theorem C41_response_time (samples : ℝ) : 0 < halfwayCoeff samples ∧ halfwayCoeff samples ≤ 1 := halfwayCoeff_mem samples

/-- The restriction to rest in `C41_follow_const` is needed: after inputs 0, 1 the output of `follow` still rises when the input returns to 0. -/
theorem C41_moving_start : ∃ s : FollowSt ℝ, s.Ok ∧ 0 < s.coeff ∧ ¬ MonotoneTo s.v3 0 (fun k => followNode.ticks.out s (fun _ _ => 0) k 0) := by
  refine ⟨⟨1/2, 1/4, 1/8, 1/2, 1/2⟩, ⟨by norm_num, by norm_num⟩, by norm_num, ?_⟩
  intro h
  have := (h.2 (by norm_num)).1
  change (followTick (⟨1/2, 1/4, 1/8, 1/2, 1/2⟩ : FollowSt ℝ) 0).2 ≤ 1/8 at this
  norm_num [followTick] at this

example : ∃ s : AFollowSt ℝ, s.Ok ∧ 0 < s.acoeff ∧ 0 < s.rcoeff ∧ s.acoeff ≠ s.rcoeff :=
  ⟨⟨0, 0, 0, 1/2, 1/4, 1, 1⟩, ⟨by norm_num, by norm_num, by norm_num, by norm_num⟩, by norm_num, by norm_num, by norm_num⟩

example : 0 ≤ poleCoeff 48000 100 ∧ poleCoeff 48000 100 ≤ 1 := C41_lowpole_cutoff (by norm_num) (by norm_num)

/-! ## DC removal -/

/-- For both filters the removed part `x - y` follows the input like a one-pole smoother. -/
def removed (s : PoleZero ℝ) : ℝ := s.x1 - s.y1

theorem dc_state {s : PoleZero ℝ} (h0 : 0 ≤ s.coeff) (h1 : s.coeff ≤ 1) {B : ℝ} {w : Nat → Frame ℝ 1}
    (hx : |s.x1| ≤ B) (hm : |s.x1 - s.y1| ≤ B) (hw : ∀ k, |w k 0| ≤ B) (k : Nat) :
    let t : PoleZero ℝ := dcblockNode.ticks.st s w k
    t.coeff = s.coeff ∧ |t.x1| ≤ B ∧ |t.x1 - t.y1| ≤ B := by
  induction k with
  | zero => exact ⟨rfl, hx, hm⟩
  | succ k ih =>
    obtain ⟨t, ht⟩ : ∃ t : PoleZero ℝ, t = dcblockNode.ticks.st s w k := ⟨_, rfl⟩
    have e : dcblockNode.ticks.st s w (k + 1) = (⟨w k 0, w k 0 - t.x1 + t.coeff * t.y1, t.coeff⟩ : PoleZero ℝ) := by rw [ht]; rfl
    simp only [← ht] at ih
    simp only [e]
    refine ⟨ih.1, hw k, ?_⟩
    have := mix_mem h0 h1 (abs_le.1 ih.2.1) (abs_le.1 ih.2.2)
    rw [abs_le]
    have e2 : w k 0 - (w k 0 - t.x1 + t.coeff * t.y1) = (1 - s.coeff) * t.x1 + s.coeff * (t.x1 - t.y1) := by rw [ih.1]; ring
    rw [e2]; exact this

/-- **C42, dcblock.** From silence, an input bounded by `B` gives an output bounded by `2 B`, forever. -/
theorem C42_dcblock_bounded {s : PoleZero ℝ} (h0 : 0 ≤ s.coeff) (h1 : s.coeff ≤ 1) {B : ℝ} {w : Nat → Frame ℝ 1}
    (hw : ∀ k, |w k 0| ≤ B) (k : Nat) : |dcblockNode.ticks.out s.reset w k 0| ≤ 2 * B := by
  have hB : 0 ≤ B := (abs_nonneg _).trans (hw 0)
  have h := dc_state (s := s.reset) h0 h1 (B := B) (w := w) (by simpa [PoleZero.reset] using hB) (by simpa [PoleZero.reset] using hB) hw (k + 1)
  have e : dcblockNode.ticks.out s.reset w k 0 = (dcblockNode.ticks.st s.reset w (k + 1) : PoleZero ℝ).y1 := rfl
  have h2 := h.2.1
  have h3 := h.2.2
  rw [abs_le] at h2 h3
  rw [e, abs_le]
  constructor <;> linarith [h2.1, h2.2, h3.1, h3.2]

theorem hp_state {s : PoleZero ℝ} (h0 : 0 ≤ s.coeff) (h1 : s.coeff ≤ 1) {B : ℝ} {w : Nat → Frame ℝ 1}
    (hx : |s.x1| ≤ B) (hm : |s.x1 - s.y1| ≤ B) (hw : ∀ k, |w k 0| ≤ B) (k : Nat) :
    let t : PoleZero ℝ := highpoleNode.ticks.st s w k
    t.coeff = s.coeff ∧ |t.x1| ≤ B ∧ |t.x1 - t.y1| ≤ B := by
  induction k with
  | zero => exact ⟨rfl, hx, hm⟩
  | succ k ih =>
    obtain ⟨t, ht⟩ : ∃ t : PoleZero ℝ, t = highpoleNode.ticks.st s w k := ⟨_, rfl⟩
    have e : highpoleNode.ticks.st s w (k + 1) = (⟨w k 0, t.coeff * (t.y1 + w k 0 - t.x1), t.coeff⟩ : PoleZero ℝ) := by rw [ht]; rfl
    simp only [← ht] at ih
    simp only [e]
    refine ⟨ih.1, hw k, ?_⟩
    have := mix_mem h0 h1 (abs_le.1 (hw k)) (abs_le.1 ih.2.2)
    rw [abs_le]
    have e2 : w k 0 - t.coeff * (t.y1 + w k 0 - t.x1) = (1 - s.coeff) * w k 0 + s.coeff * (t.x1 - t.y1) := by rw [ih.1]; ring
    rw [e2]; exact this

/-- **C42, highpole.** From silence, an input bounded by `B` gives an output bounded by `2 B`, forever. -/
theorem C42_highpole_bounded {s : PoleZero ℝ} (h0 : 0 ≤ s.coeff) (h1 : s.coeff ≤ 1) {B : ℝ} {w : Nat → Frame ℝ 1}
    (hw : ∀ k, |w k 0| ≤ B) (k : Nat) : |highpoleNode.ticks.out s.reset w k 0| ≤ 2 * B := by
  have hB : 0 ≤ B := (abs_nonneg _).trans (hw 0)
  have h := hp_state (s := s.reset) h0 h1 (B := B) (w := w) (by simpa [PoleZero.reset] using hB) (by simpa [PoleZero.reset] using hB) hw (k + 1)
  have e : highpoleNode.ticks.out s.reset w k 0 = (highpoleNode.ticks.st s.reset w (k + 1) : PoleZero ℝ).y1 := rfl
  have h2 := h.2.1
  have h3 := h.2.2
  rw [abs_le] at h2 h3
  rw [e, abs_le]
  constructor <;> linarith [h2.1, h2.2, h3.1, h3.2]

theorem dc_const (s : PoleZero ℝ) (x : ℝ) (k : Nat) : dcblockNode.ticks.st s (fun _ _ => x) (k + 1)
    = (⟨x, s.coeff ^ k * (x - s.x1 + s.coeff * s.y1), s.coeff⟩ : PoleZero ℝ) := by
  induction k with
  | zero => show (⟨x, x - s.x1 + s.coeff * s.y1, s.coeff⟩ : PoleZero ℝ) = _; simp
  | succ k ih =>
    have e : dcblockNode.ticks.st s (fun _ _ => x) (k + 1 + 1) = (dcblockNode.tick (dcblockNode.ticks.st s (fun _ _ => x) (k + 1)) (fun _ => x)).1 := rfl
    rw [e, ih]
    show (⟨x, x - x + s.coeff * (s.coeff ^ k * (x - s.x1 + s.coeff * s.y1)), s.coeff⟩ : PoleZero ℝ) = _
    congr 1; ring

theorem hp_const (s : PoleZero ℝ) (x : ℝ) (k : Nat) : highpoleNode.ticks.st s (fun _ _ => x) (k + 1)
    = (⟨x, s.coeff ^ (k + 1) * (s.y1 + x - s.x1), s.coeff⟩ : PoleZero ℝ) := by
  induction k with
  | zero => show (⟨x, s.coeff * (s.y1 + x - s.x1), s.coeff⟩ : PoleZero ℝ) = _; simp
  | succ k ih =>
    have e : highpoleNode.ticks.st s (fun _ _ => x) (k + 1 + 1) = (highpoleNode.tick (highpoleNode.ticks.st s (fun _ _ => x) (k + 1)) (fun _ => x)).1 := rfl
    rw [e, ih]
    show (⟨x, s.coeff * (s.coeff ^ (k + 1) * (s.y1 + x - s.x1) + x - x), s.coeff⟩ : PoleZero ℝ) = _
    congr 1; ring

/-- **C42.** A constant input decays to zero at the output, from any state: dcblock. -/
theorem C42_dcblock_const (s : PoleZero ℝ) (h : |s.coeff| < 1) (x : ℝ) :
    Tendsto (fun k => dcblockNode.ticks.out s (fun _ _ => x) k 0) atTop (𝓝 0) := by
  have e : (fun k => dcblockNode.ticks.out s (fun _ _ => x) k 0) = fun k => s.coeff ^ k * (x - s.x1 + s.coeff * s.y1) :=
    funext (fun k => congrArg PoleZero.y1 (dc_const s x k))
  rw [e]
  simpa using (tendsto_pow_atTop_nhds_zero_of_abs_lt_one h).mul_const (x - s.x1 + s.coeff * s.y1)

/-- **C42.** A constant input decays to zero at the output, from any state: highpole. -/
theorem C42_highpole_const (s : PoleZero ℝ) (h : |s.coeff| < 1) (x : ℝ) :
    Tendsto (fun k => highpoleNode.ticks.out s (fun _ _ => x) k 0) atTop (𝓝 0) := by
  have e : (fun k => highpoleNode.ticks.out s (fun _ _ => x) k 0) = fun k => s.coeff ^ (k + 1) * (s.y1 + x - s.x1) :=
    funext (fun k => congrArg PoleZero.y1 (hp_const s x k))
  rw [e]
  have := ((tendsto_pow_atTop_nhds_zero_of_abs_lt_one h).comp (tendsto_add_atTop_nat 1)).mul_const (s.y1 + x - s.x1)
  simpa using this

/-- **C42.** The coefficients for cutoff frequencies in Hz meet the hypotheses (`dcblock` needs `cutoff ≤ sample_rate / tau`). -/
theorem C42_coefficients {sr f : ℝ} (hsr : 0 < sr) (hf : 0 < f) :
    |poleCoeff sr f| < 1 ∧ (2 * Real.pi * f ≤ sr → |dcCoeff sr f| < 1) := by
  refine ⟨?_, fun h => ?_⟩
  · rw [abs_of_pos (poleCoeff_lt hsr hf).1]; exact (poleCoeff_lt hsr hf).2
  · rw [abs_of_nonneg (dcCoeff_mem hsr hf h).1]; exact (dcCoeff_mem hsr hf h).2

/-- The default cutoff of `dcblock()`: 10 Hz at 44.1 kHz. -/
example : |dcCoeff 44100 10| < 1 := (C42_coefficients (by norm_num) (by norm_num)).2 (by have := Real.pi_lt_d2; linarith)

end Fundsp.Filter
