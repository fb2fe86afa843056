import Verif.Filter.Model
import Verif.Delay.Props
import Mathlib.Algebra.BigOperators.Group.Finset.Basic
import Mathlib.Algebra.BigOperators.Intervals
import Mathlib.Algebra.Order.BigOperators.Group.Finset
import Mathlib.Tactic.LinearCombination
import Mathlib.Tactic.FieldSimp
import Mathlib.Tactic.Linarith
import Mathlib.Tactic.Positivity

/-! C40: energy balance of allpass filters. -/

namespace Fundsp.Filter
open Delay

/-- Specification: on the states satisfying `P` there is a nonnegative stored energy `V` such that whatever goes in comes out or is stored:
output energy + stored energy after = input energy + stored energy before, at every sample. -/
structure LosslessOn (n : Node ℝ 1 1) (P : n.σ → Prop) (V : n.σ → ℝ) : Prop where
  closed : ∀ s x, P s → P (n.tick s x).1
  reset : ∀ s, P s → P (n.reset s)
  nonneg : ∀ s, P s → 0 ≤ V s
  silent : ∀ s, P s → V (n.reset s) = 0
  balance : ∀ s x, P s → (n.tick s x).2 0 ^ 2 + V (n.tick s x).1 = x 0 ^ 2 + V s

/-- Energy of the first `k` samples. -/
noncomputable def sumSq (y : Nat → Frame ℝ 1) (k : Nat) : ℝ := ∑ j ∈ Finset.range k, y j 0 ^ 2

theorem LosslessOn.st {n : Node ℝ 1 1} {P V} (h : LosslessOn n P V) {s : n.σ} (hs : P s) (w : Nat → Frame ℝ 1) : ∀ k, P (n.ticks.st s w k)
  | 0 => hs
  | k + 1 => h.closed _ _ (h.st hs w k)

/-- Over any number of samples: energy out + stored = energy in + initially stored. -/
theorem LosslessOn.total {n : Node ℝ 1 1} {P V} (h : LosslessOn n P V) {s : n.σ} (hs : P s) (w : Nat → Frame ℝ 1) (k : Nat) :
    sumSq (n.ticks.out s w) k + V (n.ticks.st s w k) = sumSq w k + V s := by
  induction k with
  | zero => simp [sumSq]; rfl
  | succ k ih =>
    have hb := h.balance (n.ticks.st s w k) (w k) (h.st hs w k)
    unfold sumSq at ih ⊢
    rw [Finset.sum_range_succ, Finset.sum_range_succ]
    have e1 : n.ticks.out s w k = (n.tick (n.ticks.st s w k) (w k)).2 := rfl
    have e2 : n.ticks.st s w (k + 1) = (n.tick (n.ticks.st s w k) (w k)).1 := rfl
    rw [e1, e2]
    linarith

/-- From silence, output energy never exceeds input energy. -/
theorem LosslessOn.passive {n : Node ℝ 1 1} {P V} (h : LosslessOn n P V) {s : n.σ} (hs : P s) (w : Nat → Frame ℝ 1) (k : Nat) :
    sumSq (n.ticks.out (n.reset s) w) k ≤ sumSq w k := by
  have h1 := h.total (h.reset s hs) w k
  have h2 := h.nonneg _ (h.st (h.reset s hs) w k)
  rw [h.silent s hs] at h1
  linarith

/-! ### The delay is lossless -/

/-- Energy of the samples on their way through a delay of `d` samples. -/
noncomputable def delayEnergy (d : Nat) (s : Line ℝ) : ℝ := ∑ j ∈ Finset.range d, s.ago 0 (j + 1) ^ 2

theorem delay_lossless (d : Nat) (hd : d + 1 < 2 ^ 64) :
    LosslessOn (delayNode (0 : ℝ)) (fun s : Line ℝ => s.Valid ∧ s.buf.length = d + 1) (delayEnergy d) where
  closed := by
    rintro s x ⟨hv, hl⟩
    have e : ((delayNode (0 : ℝ)).tick s x).1 = s.push (x 0) := congrArg Prod.fst (delayTick_eq 0 hv (by omega) x)
    show Line.Valid ((delayNode (0 : ℝ)).tick s x).1 ∧ _
    rw [e]
    exact ⟨hv.push _, (Line.push_length (s : Line ℝ) (x 0)).trans hl⟩
  reset := by
    rintro s ⟨hv, hl⟩
    exact ⟨hv.reset 0, by show (Line.reset 0 s).buf.length = _; simp [Line.reset, hl]⟩
  nonneg := by intro s _; exact Finset.sum_nonneg (fun j _ => sq_nonneg _)
  silent := by
    rintro s ⟨hv, hl⟩
    exact Finset.sum_eq_zero (fun j _ => by
      have e : Line.ago 0 (Line.reset 0 (s : Line ℝ)) (j + 1) = 0 := Line.ago_reset _ _ _
      exact (congrArg (· ^ 2) e).trans (by norm_num))
  balance := by
    rintro s x ⟨hv, hl⟩
    have e : (delayNode (0 : ℝ)).tick s x = (s.push (x 0), fun _ => (s.push (x 0)).ago 0 s.buf.length) := delayTick_eq 0 hv (by omega) x
    rw [e]
    show (s.push (x 0)).ago 0 s.buf.length ^ 2 + delayEnergy d (s.push (x 0)) = x 0 ^ 2 + delayEnergy d s
    rw [hl]
    unfold delayEnergy
    have h1 : ∑ j ∈ Finset.range (d + 1), (s.push (x 0)).ago 0 (j + 1) ^ 2 = x 0 ^ 2 + ∑ j ∈ Finset.range d, s.ago 0 (j + 1) ^ 2 := by
      rw [Finset.sum_range_succ', Line.ago_push_one hv, add_comm]
      congr 1
      refine Finset.sum_congr rfl (fun j hj => ?_)
      have := Finset.mem_range.1 hj
      rw [Line.ago_push_succ hv 0 _ (by omega) (by omega)]
    rw [Finset.sum_range_succ] at h1
    linarith

/-! ### The nested allpass -/

/-- **C40.** The nested allpass around any lossless unit is itself lossless, for every coefficient of magnitude below one; so nesting can be
repeated. -/
theorem C40_allnest {X : Node ℝ 1 1} {P V} (h : LosslessOn X P V) (eta : ℝ) (he : |eta| < 1) :
    LosslessOn (allnestNode X 0) (fun s : AllNestSt X => P s.x ∧ s.eta = eta) (fun s => (1 - eta ^ 2) * (s.z ^ 2 + V s.x)) where
  closed := by rintro s x ⟨hp, rfl⟩; exact ⟨h.closed _ _ hp, rfl⟩
  reset := by rintro s ⟨hp, rfl⟩; exact ⟨h.reset _ hp, rfl⟩
  nonneg := by
    rintro s ⟨hp, _⟩
    have h1 : eta ^ 2 < 1 := (sq_lt_one_iff_abs_lt_one _).2 he
    exact mul_nonneg (by linarith) (add_nonneg (sq_nonneg _) (h.nonneg _ hp))
  silent := by
    rintro s ⟨hp, _⟩
    show (1 - eta ^ 2) * ((0 : ℝ) ^ 2 + V (X.reset s.x)) = 0
    rw [h.silent _ hp]; ring
  balance := by
    rintro s x ⟨hp, rfl⟩
    have hb := h.balance s.x (fun _ => x 0 - s.eta * s.z) hp
    show (s.eta * (x 0 - s.eta * s.z) + s.z) ^ 2 + (1 - s.eta ^ 2) * ((X.tick s.x (fun _ => x 0 - s.eta * s.z)).2 0 ^ 2
      + V (X.tick s.x (fun _ => x 0 - s.eta * s.z)).1) = x 0 ^ 2 + (1 - s.eta ^ 2) * (s.z ^ 2 + V s.x)
    linear_combination (1 - s.eta ^ 2) * hb

/-- **C40.** In particular the allpass around a delay never outputs more energy than went in. -/
theorem C40_allnest_delay (d : Nat) (hd : d + 1 < 2 ^ 64) (eta : ℝ) (he : |eta| < 1) (w : Nat → Frame ℝ 1) (k : Nat) :
    sumSq ((allnestNode (delayNode (0 : ℝ)) 0).ticks.out ((allnestNode (delayNode (0 : ℝ)) 0).reset ⟨delaySetup 0 d, eta, 0⟩) w) k ≤ sumSq w k :=
  (C40_allnest (delay_lossless d hd) eta he).passive ⟨⟨by simp [Line.Valid, delaySetup], by simp [delaySetup]⟩, rfl⟩ w k

/-- **C40.** The first order allpass filter is lossless for every coefficient of magnitude below one. -/
theorem C40_allpole (eta : ℝ) (he : |eta| < 1) :
    LosslessOn (allpoleNode 0) (fun s : PoleZero ℝ => s.coeff = eta) (fun s => (s.x1 - eta * s.y1) ^ 2 / (1 - eta ^ 2)) where
  closed := by intro s x h; exact h
  reset := by intro s h; exact h
  nonneg := by
    intro s _
    have h1 : eta ^ 2 < 1 := (sq_lt_one_iff_abs_lt_one _).2 he
    exact div_nonneg (sq_nonneg _) (by linarith)
  silent := by intro s _; show ((0 : ℝ) - eta * 0) ^ 2 / (1 - eta ^ 2) = 0; simp
  balance := by
    rintro s x rfl
    have h1 : s.coeff ^ 2 < 1 := (sq_lt_one_iff_abs_lt_one _).2 he
    have h2 : (1 - s.coeff ^ 2) ≠ 0 := by linarith
    show (s.coeff * (x 0 - s.y1) + s.x1) ^ 2 + (x 0 - s.coeff * (s.coeff * (x 0 - s.y1) + s.x1)) ^ 2 / (1 - s.coeff ^ 2)
      = x 0 ^ 2 + (s.x1 - s.coeff * s.y1) ^ 2 / (1 - s.coeff ^ 2)
    field_simp
    ring

/-- **C40.** Every positive delay setting gives such a coefficient. -/
theorem C40_allpole_delay (delay : ℝ) (h : 0 < delay) : |allpoleEta delay| < 1 := by
  unfold allpoleEta
  rw [abs_div, abs_of_pos (show (0:ℝ) < 1 + delay by linarith), div_lt_one (by linarith), abs_lt]
  constructor <;> linarith

/-- A case that is not silent: an impulse with coefficient 1/2 around a delay. -/
example : (allnestNode (delayNode (0 : ℚ)) 0).ticks.out ⟨delaySetup 0 1, 1/2, 0⟩ (fun k _ => if k = 0 then 1 else 0) 2 0 = 3/4 := by
  decide +kernel

end Fundsp.Filter
