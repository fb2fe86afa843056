import Verif.Shape.Model
import Verif.Math.Props
import Verif.Core.ResetProps
import Mathlib.Analysis.SpecificLimits.Basic
import Mathlib.Topology.Algebra.Order.LiminfLimsup
import Mathlib.Algebra.BigOperators.Intervals

/-! C72: waveshapers. -/

namespace Fundsp.Shape
open _root_.Filter Topology

/-! ## Block processing -/

/-- The item function of a shape agrees with its sample function applied to the lanes in order. -/
def Shape.Agrees {α : Type} (S : Shape α) : Prop :=
  ∀ s x, (S.simd s x).1 = (lanes S.shape x 8 s).1 ∧ ∀ k, k < 8 → (S.simd s x).2 k = (lanes S.shape x 8 s).2 k

theorem lanes_spec {α σ : Type} (f : σ → α → σ × α) (x : Nat → Frame α 1) (s : σ) : ∀ n,
    (lanes f (fun k => x k 0) n s).1 = (Mealy.mk σ (fun s (x : Frame α 1) => ((f s (x 0)).1, (fun _ => (f s (x 0)).2 : Frame α 1)))).st s x n ∧
    ∀ k, k < n → (lanes f (fun k => x k 0) n s).2 k
      = (Mealy.mk σ (fun s (x : Frame α 1) => ((f s (x 0)).1, (fun _ => (f s (x 0)).2 : Frame α 1)))).out s x k 0 := by
  intro n
  induction n with
  | zero => exact ⟨rfl, fun k hk => absurd hk (by omega)⟩
  | succ n ih =>
    obtain ⟨a, b⟩ := ih
    refine ⟨?_, ?_⟩
    · show (f (lanes f (fun k => x k 0) n s).1 (x n 0)).1 = _
      rw [a]; rfl
    · intro k hk
      show (if k = n then (f (lanes f (fun k => x k 0) n s).1 (x n 0)).2 else (lanes f (fun k => x k 0) n s).2 k) = _
      split
      · next h => subst h; rw [a]; rfl
      · next h => exact b k (by omega)

/-- **C72** A shaper renders the same in blocks as sample by sample if the two functions of its shape agree. -/
theorem C72_block_equals_tick {α : Type} (S : Shape α) (h : S.Agrees) : BlockEqualsTick (shaperNode S) := by
  refine blockEqualsTick_of_exact ?_
  intro g s size inp out _ _
  refine simdProcess_exact (P := fun _ => True) (fun _ _ _ => trivial) ?_ g s size inp out trivial
  intro s x _
  obtain ⟨a, b⟩ := h s (fun k => x k 0)
  obtain ⟨c, d⟩ := lanes_spec S.shape x s 8
  refine ⟨a.trans c, fun k hk => ?_⟩
  funext i
  have hi : i = 0 := Subsingleton.elim _ _
  subst hi
  exact (b k hk).trans (d k hk)

theorem agrees_scalar {α : Type} (σ : Type) (f : σ → α → σ × α) (r : σ → σ) (t : σ → ℝ → σ) : (Shape.scalar σ f r t).Agrees :=
  fun _ _ => ⟨rfl, fun _ _ => rfl⟩

theorem lanes_pure {α : Type} (f : α → α) (x : Nat → α) : ∀ n k, k < n → (lanes (fun (_ : Unit) x => ((), f x)) x n ()).2 k = f (x k) := by
  intro n
  induction n with
  | zero => intro k hk; omega
  | succ n ih =>
    intro k hk
    show (if k = n then f (x n) else _) = _
    split
    · next h => rw [h]
    · next h => exact ih k (by omega)

theorem agrees_pure {α : Type} (f g : α → α) (h : ∀ x, g x = f x) : (Shape.pure f g).Agrees :=
  fun _ x => ⟨rfl, fun k hk => (h (x k)).trans (lanes_pure f x 8 k hk).symm⟩

/-- **C72** All shapes of the library agree with themselves in blocks, whatever their parameters, except that softsign needs nonnegative
hardness (see `C34_violation_softsign_simd`) and that the staircase needs the two rounding functions to agree on the values that
occur. An adaptive shape agrees around *any* inner shape, since it never uses the item function of the inner shape. -/
theorem C72_shapes (h lo hi : ℝ) (f : ℝ → ℝ) (S : Shape ℝ) : (shapeFn f).Agrees ∧ (clipS h).Agrees ∧ (clipToS lo hi).Agrees ∧ (tanhS h).Agrees ∧
    (atanS h).Agrees ∧ (0 ≤ h → (softsignS h).Agrees) ∧ (∀ r q : ℝ → ℤ, (∀ x, q x = r x) → (crushS r q h).Agrees) ∧
    (softCrushS h).Agrees ∧ (adaptive S).Agrees := by
  refine ⟨agrees_scalar _ _ _ _, agrees_pure _ _ fun _ => rfl, agrees_pure _ _ fun _ => rfl, agrees_scalar _ _ _ _,
    agrees_pure _ _ fun _ => rfl, fun h0 => agrees_pure _ _ fun x => ?_, fun r q e => agrees_pure _ _ fun x => ?_,
    agrees_pure _ _ fun _ => rfl, agrees_scalar _ _ _ _⟩
  · exact (Math.C34_shapers h x).2.2.2.2.2.2 h0
  · rw [Math.crush, Math.crush, e]

/-- Adaptive distortion around adaptive distortion around `tanh`, as a leaf of a graph. -/
example : BlockEqualsTick (shaperNode (adaptive (adaptive (tanhS 2)))) := C72_block_equals_tick _ (C72_shapes 0 0 0 id _).2.2.2.2.2.2.2.2

/-- **C72** is violated by `Crush` if the item function rounds halves to even while the sample function rounds them away from zero:
an input of 1/2 with one level per unit gives 1 when ticked and 0 in a block. -/
theorem C72_violation_crush (r q : ℝ → ℤ) (hr : r (1 / 2) = 1) (hq : q (1 / 2) = 0) :
    ((crushS r q 1).shape () (1 / 2)).2 = 1 ∧ ((crushS r q 1).simd () (fun _ => 1 / 2)).2 0 = 0 := by
  constructor
  · show ((r (1 / 2 * 1) : ℤ) : ℝ) / 1 = 1
    rw [mul_one, hr]; norm_num
  · show ((q (1 / 2 * 1) : ℤ) : ℝ) / 1 = 0
    rw [mul_one, hq]; norm_num

/-! ## Level estimation -/

/-- Specification of the level: after the samples `x 0 .. x k`, the exponentially weighted mean of the powers `1e-6 + x²`, started from
`l0`, with weight ratio `s` per sample. -/
noncomputable def level (s l0 : ℝ) (x : Nat → ℝ) (k : Nat) : ℝ :=
  s ^ (k + 1) * l0 + (1 - s) * ∑ j ∈ Finset.range (k + 1), s ^ (k - j) * (1e-6 + x j ^ 2)

theorem level_zero (s l0 : ℝ) (x : Nat → ℝ) : level s l0 x 0 = s * l0 + (1 - s) * (1e-6 + x 0 ^ 2) := by
  simp [level]

theorem level_succ (s l0 : ℝ) (x : Nat → ℝ) (k : Nat) : level s l0 x (k + 1) = s * level s l0 x k + (1 - s) * (1e-6 + x (k + 1) ^ 2) := by
  have e : ∑ j ∈ Finset.range (k + 1), s ^ (k + 1 - j) * (1e-6 + x j ^ 2) = s * ∑ j ∈ Finset.range (k + 1), s ^ (k - j) * (1e-6 + x j ^ 2) := by
    rw [Finset.mul_sum]
    refine Finset.sum_congr rfl fun j hj => ?_
    have hj := Finset.mem_range.1 hj
    rw [show k + 1 - j = (k - j) + 1 by omega, pow_succ]; ring
  unfold level
  rw [Finset.sum_range_succ, e, Nat.sub_self, pow_zero]
  ring

/-- Smoothing factor of a state. -/
theorem adaptive_st (S : Shape ℝ) (s : AdaptiveSt S.σ) (w : Nat → Frame ℝ 1) : ∀ k,
    let t := (shaperNode (adaptive S)).ticks.st s w (k + 1)
    AdaptiveSt.smoothing t = s.smoothing ∧ AdaptiveSt.timescale t = s.timescale ∧
    AdaptiveSt.state t = level s.smoothing s.state (fun j => w j 0) k ∧
    AdaptiveSt.inner t = (shaperNode S).ticks.st s.inner (fun j _ => w j 0 / Real.sqrt (level s.smoothing s.state (fun j => w j 0) j)) (k + 1) := by
  intro k
  induction k with
  | zero =>
    refine ⟨rfl, rfl, ?_, ?_⟩
    · show s.smoothing * s.state + (1 - s.smoothing) * (1.0e-6 + w 0 0 * w 0 0) = _
      rw [level_zero]; norm_num; left; ring
    · show (S.shape s.inner (w 0 0 / Real.sqrt (s.smoothing * s.state + (1 - s.smoothing) * (1.0e-6 + w 0 0 * w 0 0)))).1
        = (S.shape s.inner (w 0 0 / Real.sqrt (level s.smoothing s.state (fun j => w j 0) 0))).1
      rw [level_zero]; norm_num [pow_two]
  | succ k ih =>
    simp only at ih ⊢
    generalize ht : (shaperNode (adaptive S)).ticks.st s w (k + 1) = t at ih
    obtain ⟨a, b, c, d⟩ := ih
    have e : (shaperNode (adaptive S)).ticks.st s w (k + 1 + 1) = ((shaperNode (adaptive S)).tick t (w (k + 1))).1 := by rw [← ht]; rfl
    have hl : AdaptiveSt.smoothing t * AdaptiveSt.state t + (1 - AdaptiveSt.smoothing t) * (1.0e-6 + w (k + 1) 0 * w (k + 1) 0)
        = level s.smoothing s.state (fun j => w j 0) (k + 1) := by
      rw [a, c, level_succ]; norm_num; left; ring
    rw [e]
    refine ⟨a, b, hl, ?_⟩
    show (S.shape (AdaptiveSt.inner t) (w (k + 1) 0 / Real.sqrt (AdaptiveSt.smoothing t * AdaptiveSt.state t
        + (1 - AdaptiveSt.smoothing t) * (1.0e-6 + w (k + 1) 0 * w (k + 1) 0)))).1 = _
    rw [hl, d]
    rfl

/-- **C72** The adaptive shaper plays its inner shape on the input divided by the square root of the level. -/
theorem C72_adaptive (S : Shape ℝ) (s : AdaptiveSt S.σ) (w : Nat → Frame ℝ 1) (k : Nat) :
    (shaperNode (adaptive S)).stream s w k
      = (shaperNode S).stream s.inner (fun j _ => w j 0 / Real.sqrt (level s.smoothing s.state (fun j => w j 0) j)) k := by
  cases k with
  | zero =>
    show (fun _ => (S.shape s.inner (w 0 0 / Real.sqrt (s.smoothing * s.state + (1 - s.smoothing) * (1.0e-6 + w 0 0 * w 0 0)))).2)
        = (fun _ => (S.shape s.inner (w 0 0 / Real.sqrt (level s.smoothing s.state (fun j => w j 0) 0))).2)
    rw [level_zero]; norm_num [pow_two]
  | succ k =>
    obtain ⟨a, _, c, d⟩ := adaptive_st S s w k
    generalize ht : (shaperNode (adaptive S)).ticks.st s w (k + 1) = t at a c d
    have hl : AdaptiveSt.smoothing t * AdaptiveSt.state t + (1 - AdaptiveSt.smoothing t) * (1.0e-6 + w (k + 1) 0 * w (k + 1) 0)
        = level s.smoothing s.state (fun j => w j 0) (k + 1) := by
      rw [a, c, level_succ]; norm_num; left; ring
    have e : (shaperNode (adaptive S)).stream s w (k + 1) = ((shaperNode (adaptive S)).tick t (w (k + 1))).2 := by rw [← ht]; rfl
    rw [e]
    show (fun _ => (S.shape (AdaptiveSt.inner t) (w (k + 1) 0 / Real.sqrt (AdaptiveSt.smoothing t * AdaptiveSt.state t
        + (1 - AdaptiveSt.smoothing t) * (1.0e-6 + w (k + 1) 0 * w (k + 1) 0)))).2) = _
    rw [hl, d]
    rfl

/-- The smoothing factor of a timescale at a sample rate lies strictly between zero and one. -/
theorem smoothing_mem {ts sr : ℝ} (h : 0 < ts) (h' : 0 < sr) : 0 < (0.5 : ℝ) ^ (1 / (ts * sr)) ∧ (0.5 : ℝ) ^ (1 / (ts * sr)) < 1 := by
  have : 0 < 1 / (ts * sr) := by positivity
  exact ⟨Real.rpow_pos_of_pos (by norm_num) _, Real.rpow_lt_one (by norm_num) (by norm_num) this⟩

/-- **C72** The timescale is the time it takes to move halfway to a new level: `n` samples of constant power reduce the distance of the
level to its target to the fraction `2 ^ (- n / (timescale * sample rate))`. -/
theorem C72_halfway (S : Shape ℝ) (s : AdaptiveSt S.σ) (sr l0 : ℝ) (x : Nat → ℝ) (c : ℝ) (n : Nat) (hx : ∀ j, j ≤ n → x j ^ 2 = c) :
    level (AdaptiveSt.setRate S s sr).smoothing l0 x n - (1e-6 + c)
      = (1 / 2 : ℝ) ^ (((n + 1 : Nat) : ℝ) / (s.timescale * sr)) * (l0 - (1e-6 + c)) := by
  have hs : ((1 / 2 : ℝ) ^ (((n + 1 : Nat) : ℝ) / (s.timescale * sr))) = (AdaptiveSt.setRate S s sr).smoothing ^ (n + 1) := by
    show _ = ((0.5 : ℝ) ^ (1 / (s.timescale * sr))) ^ (n + 1)
    rw [← Real.rpow_natCast, ← Real.rpow_mul (by norm_num), show (0.5 : ℝ) = 1 / 2 by norm_num]
    congr 1; ring
  rw [hs]
  clear hs
  generalize (AdaptiveSt.setRate S s sr).smoothing = r
  induction n with
  | zero => rw [level_zero, hx 0 (le_refl _)]; ring
  | succ n ih =>
    rw [level_succ, hx (n + 1) (le_refl _)]
    have := ih (fun j hj => hx j (by omega))
    linear_combination r * this

/-- One timescale: half the distance. -/
example : (1 / 2 : ℝ) ^ (((4410 : Nat) : ℝ) / (0.1 * 44100)) = 1 / 2 := by norm_num

theorem level_ge {s l0 : ℝ} (h0 : 0 ≤ s) (h1 : s ≤ 1) (hl : 1e-6 ≤ l0) (x : Nat → ℝ) : ∀ k, 1e-6 ≤ level s l0 x k := by
  have key : ∀ a b : ℝ, 1e-6 ≤ a → 1e-6 ≤ s * a + (1 - s) * (1e-6 + b ^ 2) := by
    intro a b ha
    have h2 := mul_le_mul_of_nonneg_left ha h0
    have h3 := mul_nonneg (sub_nonneg.2 h1) (sq_nonneg b)
    nlinarith
  intro k
  induction k with
  | zero => rw [level_zero]; exact key _ _ hl
  | succ k ih => rw [level_succ]; exact key _ _ ih

/-- **C72** (partial: the full statement is about a new node, which violates it, `C72_violation_floor`) After `reset` the level never
falls below -60 dB (an RMS level of one thousandth), whatever the input. -/
theorem C72_floor_partial (S : Shape ℝ) (s : AdaptiveSt S.σ) (h0 : 0 ≤ s.smoothing) (h1 : s.smoothing ≤ 1) (w : Nat → Frame ℝ 1) (k : Nat) :
    (1 / 1000 : ℝ) ≤ Real.sqrt (level s.smoothing ((adaptive S).reset s : AdaptiveSt S.σ).state (fun j => w j 0) k) := by
  have : 1e-6 ≤ level s.smoothing ((adaptive S).reset s : AdaptiveSt S.σ).state (fun j => w j 0) k := by
    refine level_ge h0 h1 ?_ _ k
    show (1e-6 : ℝ) ≤ 1.0e-3
    norm_num
  refine Real.le_sqrt_of_sq_le (le_trans ?_ this)
  norm_num

/-- **C72** is violated: in a new node the level starts from zero, so that it is below the stated minimum of -60 dB after any number of
silent samples. -/
theorem C72_violation_floor (S : Shape ℝ) (inner : S.σ) (ts : ℝ) (hts : 0 < ts) (k : Nat) :
    Real.sqrt (level (adaptiveNew S ts inner).smoothing (adaptiveNew S ts inner).state (fun _ => 0) k) < 1 / 1000 := by
  have hm := smoothing_mem (ts := ts) (sr := 44100) hts (by norm_num)
  have e := C72_halfway S { inner := inner, timescale := ts, smoothing := 0, state := 0 } 44100 0 (fun _ => 0) 0 k (fun _ _ => by norm_num)
  have h2 : 0 < (1 / 2 : ℝ) ^ (((k + 1 : Nat) : ℝ) / (ts * 44100)) := Real.rpow_pos_of_pos (by norm_num) _
  have : level (adaptiveNew S ts inner).smoothing (adaptiveNew S ts inner).state (fun _ => 0) k < 1e-6 := by
    show level (AdaptiveSt.setRate S { inner := inner, timescale := ts, smoothing := 0, state := 0 } 44100).smoothing 0 (fun _ => 0) k < 1e-6
    have h3 : 0 < (1 / 2 : ℝ) ^ (((k + 1 : Nat) : ℝ) / (ts * 44100)) * 1e-6 := by positivity
    nlinarith [e]
  have h4 : Real.sqrt (level (adaptiveNew S ts inner).smoothing (adaptiveNew S ts inner).state (fun _ => 0) k) < Real.sqrt 1e-6 := by
    refine (Real.sqrt_lt_sqrt_iff_of_pos (by norm_num)).2 this
  refine lt_of_lt_of_le h4 (le_of_eq ?_)
  rw [show (1e-6 : ℝ) = (1 / 1000) ^ 2 by norm_num, Real.sqrt_sq (by norm_num)]

/-- **C72** Whatever the input and the start, the argument of the inner shape is bounded: no sample is more than `1 / √(1 - s)` times the
level. -/
theorem C72_crest {s l0 : ℝ} (h0 : 0 ≤ s) (h1 : s < 1) (hl : 0 ≤ l0) (x : Nat → ℝ) (k : Nat) :
    |x k / Real.sqrt (level s l0 x k)| ≤ 1 / Real.sqrt (1 - s) := by
  have hnn : ∀ k, 0 ≤ level s l0 x k := by
    intro k
    have : 0 ≤ 1 - s := by linarith
    unfold level
    refine add_nonneg (by positivity) (mul_nonneg this (Finset.sum_nonneg fun j _ => ?_))
    positivity
  have hp : 0 < 1 - s := by linarith
  have hge : (1 - s) * x k ^ 2 ≤ level s l0 x k ∧ 0 < level s l0 x k := by
    have hpos : 0 < (1 - s) * 1e-6 := by positivity
    cases k with
    | zero =>
      rw [level_zero]
      have := mul_nonneg h0 hl
      have h2 := mul_nonneg hp.le (sq_nonneg (x 0))
      constructor <;> nlinarith
    | succ k =>
      rw [level_succ]
      have := mul_nonneg h0 (hnn k)
      have h2 := mul_nonneg hp.le (sq_nonneg (x (k + 1)))
      constructor <;> nlinarith
  obtain ⟨hge, hpos⟩ := hge
  have hs := Real.sqrt_pos.2 hpos
  have hs' := Real.sqrt_pos.2 hp
  rw [abs_div, abs_of_pos hs, div_le_div_iff₀ hs hs', one_mul, ← Real.sqrt_sq_eq_abs, ← Real.sqrt_mul (sq_nonneg _)]
  refine Real.sqrt_le_sqrt ?_
  linarith

/-- **C72** With input of constant magnitude the level tends to the power of the input (plus the floor), so the inner shape is driven at
unit level. -/
theorem C72_limit {s l0 c : ℝ} (h0 : 0 ≤ s) (h1 : s < 1) (x : Nat → ℝ) (hx : ∀ j, x j ^ 2 = c) :
    Tendsto (level s l0 x) atTop (𝓝 (1e-6 + c)) := by
  have e : ∀ k, level s l0 x k = (1e-6 + c) + s ^ (k + 1) * (l0 - (1e-6 + c)) := by
    intro k
    induction k with
    | zero => rw [level_zero, hx 0]; ring
    | succ k ih => rw [level_succ, hx (k + 1), ih]; ring
  have : Tendsto (fun k : ℕ => (1e-6 + c) + s ^ (k + 1) * (l0 - (1e-6 + c))) atTop (𝓝 ((1e-6 + c) + 0 * (l0 - (1e-6 + c)))) := by
    refine tendsto_const_nhds.add (Tendsto.mul_const _ ?_)
    exact (tendsto_pow_atTop_nhds_zero_of_lt_one h0 h1).comp (tendsto_add_atTop_nat 1)
  rw [zero_mul, add_zero] at this
  exact (tendsto_congr e).2 this

example : ∀ j : Nat, ((-1 : ℝ) ^ j * 3) ^ 2 = 9 := fun j => by rw [mul_pow, ← pow_mul, mul_comm j 2, pow_mul]; norm_num

/-! ## Reset -/

/-- **C72** (partial: the adaptive shape violates it, `C72_violation_reset`) Resetting a memoryless shaper at any time gives the
output of a new one. -/
theorem C72_reset_partial {α : Type} (f g : α → α) : ResetFresh (shaperNode (Shape.pure f g)) () := by
  refine resetFresh_of_eq (fun _ => True) trivial (fun _ _ _ => trivial) (fun _ _ _ _ _ _ => trivial) (fun _ _ => rfl)

/-- **C72** is violated: a new adaptive shaper has level zero while `reset` sets the level to 1e-3, so the first sample after a reset
differs from the first sample of a new shaper, for every timescale. -/
theorem C72_violation_reset (ts : ℝ) (hts : 0 < ts) :
    (shaperNode (adaptive (shapeFn id))).stream (shaperNew (adaptive (shapeFn id)) (adaptiveNew (shapeFn id) ts ())) (fun _ _ => 1) 0 0
    ≠ (shaperNode (adaptive (shapeFn id))).stream ((shaperNode (adaptive (shapeFn id))).reset
        (shaperNew (adaptive (shapeFn id)) (adaptiveNew (shapeFn id) ts ()))) (fun _ _ => 1) 0 0 := by
  have hm := smoothing_mem (ts := ts) (sr := 44100) hts (by norm_num)
  show (1 : ℝ) / Real.sqrt ((0.5 : ℝ) ^ (1 / (ts * 44100)) * 0 + (1 - (0.5 : ℝ) ^ (1 / (ts * 44100))) * (1.0e-6 + 1 * 1))
    ≠ (1 : ℝ) / Real.sqrt ((0.5 : ℝ) ^ (1 / (ts * 44100)) * 1.0e-3 + (1 - (0.5 : ℝ) ^ (1 / (ts * 44100))) * (1.0e-6 + 1 * 1))
  generalize (0.5 : ℝ) ^ (1 / (ts * 44100)) = r at hm
  intro h
  have h1 : 0 < r * 0 + (1 - r) * (1.0e-6 + 1 * 1 : ℝ) := by nlinarith [hm.1, hm.2]
  have h2 : r * 0 + (1 - r) * (1.0e-6 + 1 * 1 : ℝ) < r * 1.0e-3 + (1 - r) * (1.0e-6 + 1 * 1 : ℝ) := by nlinarith [hm.1, hm.2]
  have h3 := Real.sqrt_lt_sqrt h1.le h2
  have h4 := Real.sqrt_pos.2 h1
  exact absurd h (ne_of_gt (one_div_lt_one_div_of_lt h4 h3))

end Fundsp.Shape
