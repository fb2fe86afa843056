import Verif.Effect.Slow
import Verif.Effect.Reverb2
import Verif.Effect.Props
import Verif.Env.Props
import Verif.Filter.Energy
import Verif.Math.Lipschitz
import Verif.Reverb.Props
import Mathlib.Tactic.FinCases

/-! Lemmas for C87. -/

noncomputable section
namespace Fundsp.Effect
open Fundsp.Delay Fundsp.Filter Fundsp.Pan Fundsp.Env Finset

/-! ## Families -/

theorem oneOf_st {ι : Type} {i o : Nat} (X : ι → Node ℝ i o) (j : ι) (s : (X j).σ) (w : Nat → Frame ℝ i) (k : Nat) :
    (oneOf X).ticks.st ⟨j, s⟩ w k = ⟨j, (X j).ticks.st s w k⟩ := by
  induction k with
  | zero => rfl
  | succ k ih =>
    show ((oneOf X).tick ((oneOf X).ticks.st ⟨j, s⟩ w k) (w k)).1 = _
    rw [ih]; rfl

theorem oneOf_out {ι : Type} {i o : Nat} (X : ι → Node ℝ i o) (j : ι) (s : (X j).σ) (w : Nat → Frame ℝ i) (k : Nat) :
    (oneOf X).ticks.out ⟨j, s⟩ w k = (X j).ticks.out s w k := by
  show ((oneOf X).tick ((oneOf X).ticks.st ⟨j, s⟩ w k) (w k)).2 = _
  rw [oneOf_st]; rfl

theorem oneOf_fresh {ι : Type} {i o : Nat} (X : ι → Node ℝ i o) (j : ι) (s : (X j).σ) (h : TickFresh (X j) s) : TickFresh (oneOf X) ⟨j, s⟩ := by
  intro t ht w
  have key : ∃ u, t = ⟨j, u⟩ ∧ Reached (X j) s u := by
    induction ht with
    | init => exact ⟨s, rfl, .init⟩
    | tick x _ ih => obtain ⟨u, rfl, hu⟩ := ih; exact ⟨_, rfl, hu.tick x⟩
    | reset _ ih => obtain ⟨u, rfl, hu⟩ := ih; exact ⟨_, rfl, hu.reset⟩
  obtain ⟨u, rfl, hu⟩ := key
  funext k
  exact (oneOf_out X j _ w k).trans ((congrFun (h u hu w) k).trans (oneOf_out X j s w k).symm)

/-! ## Allpass -/

/-- A Schroeder allpass of delay `D`: `y[k] = eta x[k] + x[k - D] - eta y[k - D]`. -/
def Schroeder (eta : ℝ) (D : Nat) (x y : Nat → ℝ) : Prop := ∀ k, y k = eta * x k + delayed 0 D x k - eta * delayed 0 D y k

theorem allpass_eq (d : Nat) (hd : d + 1 < 2 ^ 64) (eta : ℝ) (w : Nat → Frame ℝ 1) :
    Schroeder eta (d + 1) (fun k => w k 0) (fun k => (allnestNode (delayNode (0 : ℝ)) 0).stream (⟨delaySetup 0 d, eta, 0⟩ : AllNestSt (delayNode (0 : ℝ))) w k 0) := by
  obtain ⟨S, hS⟩ : ∃ S : Nat → AllNestSt (delayNode (0 : ℝ)), S = fun k =>
    (allnestNode (delayNode (0 : ℝ)) 0).ticks.st (⟨delaySetup 0 d, eta, 0⟩ : AllNestSt (delayNode (0 : ℝ))) w k := ⟨_, rfl⟩
  have hs : ∀ k, S (k + 1) = (allnestTick (delayNode (0 : ℝ)) 0 (S k) (w k)).1 := fun k => by rw [hS]; rfl
  have ho : ∀ k, (allnestNode (delayNode (0 : ℝ)) 0).stream (⟨delaySetup 0 d, eta, 0⟩ : AllNestSt (delayNode (0 : ℝ))) w k 0
      = (allnestTick (delayNode (0 : ℝ)) 0 (S k) (w k)).2 0 := fun k => by rw [hS]; rfl
  have h0 : S 0 = ⟨delaySetup 0 d, eta, 0⟩ := by rw [hS]; rfl
  have he : ∀ k, (S k).eta = eta := by
    intro k
    induction k with
    | zero => rw [h0]
    | succ k ih => rw [hs]; exact ih
  obtain ⟨v, hv⟩ : ∃ v : Nat → ℝ, v = fun k => w k 0 - eta * (S k).z := ⟨_, rfl⟩
  have hx : ∀ k, (S k).x = (delayNode (0 : ℝ)).ticks.st (delaySetup 0 d) (fun k _ => v k) k := by
    intro k
    induction k with
    | zero => rw [h0]; rfl
    | succ k ih =>
      rw [hs]
      show ((delayNode (0 : ℝ)).tick (S k).x (fun _ => w k 0 - (S k).eta * (S k).z)).1 = ((delayNode (0 : ℝ)).tick ((delayNode (0 : ℝ)).ticks.st (delaySetup 0 d) (fun k _ => v k) k) (fun _ => v k)).1
      rw [← ih, he, hv]
  have hz : ∀ k, (S k).z = delayed 0 (d + 1) v k := by
    intro k
    cases k with
    | zero => rw [h0]; simp [delayed]
    | succ k =>
      rw [hs]
      show ((delayNode (0 : ℝ)).tick (S k).x (fun _ => w k 0 - (S k).eta * (S k).z)).2 0 = _
      have := C35_delay (0 : ℝ) d hd (fun k _ => v k) k
      have e : ((delayNode (0 : ℝ)).tick (S k).x (fun _ => w k 0 - (S k).eta * (S k).z)).2 0 = (delayNode (0 : ℝ)).stream (delaySetup 0 d) (fun k _ => v k) k 0 := by
        rw [hx, he, hv]; rfl
      refine e.trans (this.trans ?_)
      unfold delayed
      simp only [Nat.add_le_add_iff_right, Nat.add_sub_add_right]
  have hy : ∀ k, (allnestNode (delayNode (0 : ℝ)) 0).stream (⟨delaySetup 0 d, eta, 0⟩ : AllNestSt (delayNode (0 : ℝ))) w k 0 = eta * v k + (S k).z := by
    intro k
    rw [ho, hv]
    show (S k).eta * (w k 0 - (S k).eta * (S k).z) + (S k).z = _
    rw [he]
  have hw : ∀ k, w k 0 = v k + eta * (S k).z := by intro k; rw [hv]; ring
  intro k
  simp only
  have e1 : delayed 0 (d + 1) (fun k => w k 0) k - eta * delayed 0 (d + 1) (fun k => (allnestNode (delayNode (0 : ℝ)) 0).stream (⟨delaySetup 0 d, eta, 0⟩ : AllNestSt (delayNode (0 : ℝ))) w k 0) k
      = (1 - eta ^ 2) * delayed 0 (d + 1) v k := by
    unfold delayed
    split
    · have a := hy (k - (d + 1))
      have b := hw (k - (d + 1))
      show w (k - (d + 1)) 0 - eta * _ = _
      refine (congrArg (fun y => w (k - (d + 1)) 0 - eta * y) a).trans ?_
      rw [b]; ring
    · ring
  rw [hy, hw k, add_sub_assoc, e1, ← hz k]
  ring

theorem allpass_energy (d : Nat) (hd : d + 1 < 2 ^ 64) (eta : ℝ) (he : |eta| < 1) (w : Nat → Frame ℝ 1) (N : Nat) :
    ∑ k ∈ range N, (allnestNode (delayNode (0 : ℝ)) 0).stream (⟨delaySetup 0 d, eta, 0⟩ : AllNestSt (delayNode (0 : ℝ))) w k 0 ^ 2 ≤ ∑ k ∈ range N, w k 0 ^ 2 := by
  have h := C40_allnest_delay d hd eta he w N
  have e : (allnestNode (delayNode (0 : ℝ)) 0).reset (⟨delaySetup 0 d, eta, 0⟩ : AllNestSt (delayNode (0 : ℝ))) = (⟨delaySetup 0 d, eta, 0⟩ : AllNestSt (delayNode (0 : ℝ))) := by
    have h : (delaySetup (0 : ℝ) d).reset 0 = delaySetup 0 d := by simp [delaySetup, Line.reset]
    exact congrArg (fun l : Line ℝ => (⟨l, eta, 0⟩ : AllNestSt (delayNode (0 : ℝ)))) h
  rw [e] at h
  exact h

/-! ## The loop filter -/

theorem passive_energy {F : Node ℝ 1 1} {P : F.σ → Prop} {V : F.σ → ℝ} {f : F.σ} (h : Reverb.PassiveFrom F P V f) (w : Nat → Frame ℝ 1) (N : Nat) :
    ∑ k ∈ range N, F.stream f w k 0 ^ 2 ≤ ∑ k ∈ range N, w k 0 ^ 2 := by
  have key : ∀ N, P (F.ticks.st f w N) ∧ ∑ k ∈ range N, F.stream f w k 0 ^ 2 + V (F.ticks.st f w N) ≤ ∑ k ∈ range N, w k 0 ^ 2 := by
    intro N
    induction N with
    | zero => refine ⟨h.init, ?_⟩; simp only [range_zero, sum_empty]; exact le_of_eq (by rw [zero_add]; exact h.rest)
    | succ N ih =>
      refine ⟨h.closed _ _ ih.1, ?_⟩
      have b := h.balance _ (w N) ih.1
      rw [sum_range_succ, sum_range_succ]
      have e1 : F.stream f w N = (F.tick (F.ticks.st f w N) (w N)).2 := rfl
      have e2 : F.ticks.st f w (N + 1) = (F.tick (F.ticks.st f w N) (w N)).1 := rfl
      rw [e1, e2]
      linarith [ih.2]
  linarith [(key N).2, h.nonneg _ (key N).1]

/-! ## Interpolation between points -/

/-- The interpolation of a function at increasing points changes no faster than the function. -/
theorem interp_lip {e : ℝ → ℝ} {L : ℝ} (hL : ∀ s t, |e t - e s| ≤ L * |t - s|) {P : Nat → ℝ} (hP : ∀ n, P n < P (n + 1)) {s t : ℝ} (hst : s ≤ t) {m n : Nat}
    (hm0 : P m ≤ s) (hm1 : s < P (m + 1)) (hn0 : P n ≤ t) (hn1 : t < P (n + 1)) :
    |((1 - (t - P n) / (P (n + 1) - P n)) * e (P n) + (t - P n) / (P (n + 1) - P n) * e (P (n + 1)))
      - ((1 - (s - P m) / (P (m + 1) - P m)) * e (P m) + (s - P m) / (P (m + 1) - P m) * e (P (m + 1)))| ≤ L * (t - s) := by
  have mono : ∀ a b, a ≤ b → P a ≤ P b := fun a b h => (monotone_nat_of_le_succ fun n => (hP n).le) h
  have hmn : m ≤ n := by
    by_contra hc
    have := mono (n + 1) m (by omega)
    linarith
  have slope : ∀ n, |(e (P (n + 1)) - e (P n)) / (P (n + 1) - P n)| ≤ L := by
    intro n
    have h := hL (P n) (P (n + 1))
    have hp : 0 < P (n + 1) - P n := by linarith [hP n]
    rw [abs_div, abs_of_pos hp, div_le_iff₀ hp]
    rwa [abs_of_pos hp] at h
  have form : ∀ n t, (1 - (t - P n) / (P (n + 1) - P n)) * e (P n) + (t - P n) / (P (n + 1) - P n) * e (P (n + 1))
      = e (P n) + (e (P (n + 1)) - e (P n)) / (P (n + 1) - P n) * (t - P n) := by
    intro n t
    have hp : P (n + 1) - P n ≠ 0 := by linarith [hP n]
    field_simp
    ring
  have form2 : ∀ n t, (1 - (t - P n) / (P (n + 1) - P n)) * e (P n) + (t - P n) / (P (n + 1) - P n) * e (P (n + 1))
      = e (P (n + 1)) - (e (P (n + 1)) - e (P n)) / (P (n + 1) - P n) * (P (n + 1) - t) := by
    intro n t
    have hp : P (n + 1) - P n ≠ 0 := by linarith [hP n]
    field_simp
    ring
  rcases hmn.lt_or_eq with h | rfl
  · rw [form, form2 m]
    have a1 : |(e (P (n + 1)) - e (P n)) / (P (n + 1) - P n) * (t - P n)| ≤ L * (t - P n) := by
      rw [abs_mul, abs_of_nonneg (by linarith : 0 ≤ t - P n)]
      exact mul_le_mul_of_nonneg_right (slope n) (by linarith)
    have a2 : |(e (P (m + 1)) - e (P m)) / (P (m + 1) - P m) * (P (m + 1) - s)| ≤ L * (P (m + 1) - s) := by
      rw [abs_mul, abs_of_nonneg (by linarith : 0 ≤ P (m + 1) - s)]
      exact mul_le_mul_of_nonneg_right (slope m) (by linarith)
    have a3 := hL (P (m + 1)) (P n)
    rw [abs_of_nonneg (by linarith [mono (m + 1) n h] : 0 ≤ P n - P (m + 1))] at a3
    rw [abs_le] at *
    constructor <;> linarith [a1.1, a1.2, a2.1, a2.2, a3.1, a3.2]
  · rw [form, form]
    have e1 : ∀ A B : ℝ, A + B * (t - P m) - (A + B * (s - P m)) = B * (t - s) := fun A B => by ring
    rw [e1, abs_mul, abs_of_nonneg (by linarith : 0 ≤ t - s)]
    exact mul_le_mul_of_nonneg_right (slope m) (by linarith)

end Fundsp.Effect
