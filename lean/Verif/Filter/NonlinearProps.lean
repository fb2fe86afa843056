import Verif.Filter.Nonlinear
import Verif.Shape.Props
import Verif.Delay.Props

/-! C77 (nonlinear biquads) and C78 (biquad bank). -/

namespace Fundsp.Filter
open Fundsp.Shape Fundsp.Delay

/-! ## Specification -/

/-- The parameters a filter of mode `M` has while it receives the frame `x` at sample rate `sr`: inputs in the order cutoff, Q, gain;
those without an input keep the values 440 Hz, 1 and 1. -/
def paramsFor (M : BMode) (sr : ℝ) (x : Frame ℝ M.inputs) : BParams where
  sr := sr
  center := if h : 1 < M.inputs then x ⟨1, h⟩ else 440
  q := if h : 2 < M.inputs then x ⟨2, h⟩ else 1
  gain := if h : 3 < M.inputs then x ⟨3, h⟩ else 1

/-- A state that is consistent at sample rate `sr`, as every state of a filter is after any use. -/
structure Consistent (M : BMode) (sr : ℝ) (p : BParams) (c : BiquadCoefs ℝ) : Prop where
  coefs : c = M.coefs p
  sr : p.sr = sr
  center : M.inputs ≤ 1 → p.center = 440
  q : M.inputs ≤ 2 → p.q = 1
  gain : M.inputs ≤ 3 → p.gain = 1

theorem follow_eq {M : BMode} (hM : M.inputs ≤ 4) {sr : ℝ} {p : BParams} {c : BiquadCoefs ℝ} (h : Consistent M sr p c)
    (x : Frame ℝ M.inputs) : followParams M (p, c) x = (paramsFor M sr x, M.coefs (paramsFor M sr x)) := by
  obtain ⟨rfl, rfl, h1, h2, h3⟩ := h
  obtain ⟨n, f⟩ := M
  obtain ⟨a, b, q, g⟩ := p
  simp only at hM h1 h2 h3 x
  have key : ∀ p' : BParams, p' = paramsFor ⟨n, f⟩ a x → (p', f p') = (paramsFor ⟨n, f⟩ a x, f (paramsFor ⟨n, f⟩ a x)) := by
    rintro p' rfl; rfl
  rcases (by omega : n = 0 ∨ n = 1 ∨ n = 2 ∨ n = 3 ∨ n = 4) with rfl | rfl | rfl | rfl | rfl
  · refine key _ ?_
    simp only [paramsFor]; rw [h1 (by omega), h2 (by omega), h3 (by omega)]; rfl
  · refine key _ ?_
    simp only [paramsFor]; rw [h1 (by omega), h2 (by omega), h3 (by omega)]; rfl
  · simp only [followParams, reduceCtorEq, if_true, Nat.reduceEqDiff, if_false]
    split
    · refine key _ ?_
      simp only [paramsFor, inAt]; rw [h2 (by omega), h3 (by omega)]; rfl
    · next hc =>
      refine key _ ?_
      simp only [not_not] at hc
      simp only [paramsFor]; rw [h2 (by omega), h3 (by omega), ← hc]; rfl
  · simp only [followParams, if_true, Nat.reduceEqDiff, if_false]
    split
    · refine key _ ?_
      simp only [paramsFor, inAt]; rw [h3 (by omega)]; rfl
    · next hc =>
      refine key _ ?_
      simp only [not_not] at hc
      have e1 : inAt x 1 = b := by nlinarith [mul_self_nonneg (inAt x 1 - b), mul_self_nonneg (inAt x 2 - q)]
      have e2 : inAt x 2 = q := by nlinarith [mul_self_nonneg (inAt x 1 - b), mul_self_nonneg (inAt x 2 - q)]
      simp only [paramsFor]; rw [h3 (by omega), ← e1, ← e2]; rfl
  · simp only [followParams, if_true, Nat.reduceEqDiff, if_false]
    split
    · exact key _ rfl
    · next hc =>
      refine key _ ?_
      simp only [not_not] at hc
      have e1 : inAt x 1 = b := by nlinarith [mul_self_nonneg (inAt x 1 - b), mul_self_nonneg (inAt x 2 - q), mul_self_nonneg (inAt x 3 - g)]
      have e2 : inAt x 2 = q := by nlinarith [mul_self_nonneg (inAt x 1 - b), mul_self_nonneg (inAt x 2 - q), mul_self_nonneg (inAt x 3 - g)]
      have e3 : inAt x 3 = g := by nlinarith [mul_self_nonneg (inAt x 1 - b), mul_self_nonneg (inAt x 2 - q), mul_self_nonneg (inAt x 3 - g)]
      simp only [paramsFor]; rw [← e1, ← e2, ← e3]; rfl

theorem consistent_for (M : BMode) (sr : ℝ) (x : Frame ℝ M.inputs) : Consistent M sr (paramsFor M sr x) (M.coefs (paramsFor M sr x)) where
  coefs := rfl
  sr := rfl
  center h := dif_neg (by omega)
  q h := dif_neg (by omega)
  gain h := dif_neg (by omega)

theorem consistent_init (M : BMode) (sr : ℝ) : Consistent M sr { initParams with sr := sr } (M.coefs { initParams with sr := sr }) :=
  ⟨rfl, rfl, fun _ => rfl, fun _ => rfl, fun _ => rfl⟩

/-! ## Feedback biquad -/

section fb
variable (M : BMode) (S : Shape ℝ)

/-- Difference equation of the biquad with nonlinear feedback: coefficients `c k` and audio `x k` at sample `k`; `fb` is the output
stream of the shape when driven by `y`. -/
def FbEquation (S : Shape ℝ) (shape : S.σ) (c : Nat → BiquadCoefs ℝ) (x y : Nat → ℝ) : Prop :=
  ∀ k, y k = (c k).b0 * x k
    + delayed 0 1 (fun j => (c j).b1 * x j - (c j).a1 * (shaperNode S).stream shape (fun j _ => y j) j 0) k
    + delayed 0 2 (fun j => (c j).b2 * x j - (c j).a2 * (shaperNode S).stream shape (fun j _ => y j) j 0) k

/-- The equation determines the output. -/
theorem FbEquation.unique {S : Shape ℝ} {shape : S.σ} {c : Nat → BiquadCoefs ℝ} {x y z : Nat → ℝ}
    (hy : FbEquation S shape c x y) (hz : FbEquation S shape c x z) : y = z := by
  funext k
  induction k using Nat.strongRecOn with
  | _ k ih =>
    have hs : ∀ j, j < k → (shaperNode S).stream shape (fun j _ => y j) j = (shaperNode S).stream shape (fun j _ => z j) j := by
      intro j hj
      exact (shaperNode S).ticks.out_congr shape _ _ j (fun i hi => by funext _; exact ih i (by omega))
    rw [hy k, hz k]
    unfold delayed
    congr 1
    · congr 1
      split
      · beta_reduce; rw [hs (k - 1) (by omega)]
      · rfl
    · split
      · beta_reduce; rw [hs (k - 2) (by omega)]
      · rfl

theorem delayed_zero {β : Type} (z : β) (d : Nat) (hd : 1 ≤ d) (x : Nat → β) : delayed z d x 0 = z := if_neg (by omega)
theorem delayed_succ {β : Type} (z : β) (d : Nat) (x : Nat → β) (k : Nat) : delayed z (d + 1) x (k + 1) = delayed z d x k := by
  unfold delayed
  by_cases h : d ≤ k
  · rw [if_pos h, if_pos (by omega), Nat.add_sub_add_right]
  · rw [if_neg h, if_neg (by omega)]
theorem delayed_none {β : Type} (z : β) (x : Nat → β) (k : Nat) : delayed z 0 x k = x k := if_pos (Nat.zero_le _)

/-- A sequence of states in which each is a step of the filter from the one before, with the coefficients of that sample. -/
theorem fb_seq (t : Nat → FbSt S.σ) (p : Nat → BParams) (c : Nat → BiquadCoefs ℝ) (x y : Nat → ℝ) (h1 : (t 0).s1 = 0) (h2 : (t 0).s2 = 0)
    (hstep : ∀ k, t (k + 1) = (fbStep S { t k with params := p k, coefs := c k } (x k)).1 ∧
      y k = (fbStep S { t k with params := p k, coefs := c k } (x k)).2) : FbEquation S (t 0).shape c x y := by
  have hy : ∀ k, y k = (c k).b0 * x k + (t k).s1 := fun k => (hstep k).2
  have hshape : ∀ k, (t k).shape = (shaperNode S).ticks.st (t 0).shape (fun j _ => y j) k := by
    intro k
    induction k with
    | zero => rfl
    | succ k ih =>
      rw [(hstep k).1]
      show (S.shape (t k).shape ((c k).b0 * x k + (t k).s1)).1 = (S.shape ((shaperNode S).ticks.st (t 0).shape (fun j _ => y j) k) (y k)).1
      rw [← ih, hy k]
  have hfb : ∀ k, (S.shape (t k).shape ((c k).b0 * x k + (t k).s1)).2 = (shaperNode S).stream (t 0).shape (fun j _ => y j) k 0 := by
    intro k
    show _ = (S.shape ((shaperNode S).ticks.st (t 0).shape (fun j _ => y j) k) (y k)).2
    rw [← hshape k, hy k]
  have hs2 : ∀ k, (t k).s2 = delayed 0 1 (fun j => (c j).b2 * x j - (c j).a2 * (shaperNode S).stream (t 0).shape (fun j _ => y j) j 0) k := by
    intro k
    cases k with
    | zero => rw [delayed_zero _ _ (by omega), h2]
    | succ k =>
      rw [delayed_succ, delayed_none, (hstep k).1, ← hfb k, mul_comm (c k).a2]
      rfl
  have hs1 : ∀ k, (t k).s1 = delayed 0 1 (fun j => (c j).b1 * x j - (c j).a1 * (shaperNode S).stream (t 0).shape (fun j _ => y j) j 0) k
      + delayed 0 2 (fun j => (c j).b2 * x j - (c j).a2 * (shaperNode S).stream (t 0).shape (fun j _ => y j) j 0) k := by
    intro k
    cases k with
    | zero => rw [delayed_zero _ _ (by omega), delayed_zero _ _ (by omega), h1, add_zero]
    | succ k =>
      rw [delayed_succ, delayed_succ, delayed_none, ← hs2, ← hfb k, (hstep k).1]
      show (t k).s2 + (c k).b1 * x k - (S.shape (t k).shape ((c k).b0 * x k + (t k).s1)).2 * (c k).a1 = _
      ring
  intro k
  rw [hy k, hs1 k, add_assoc]

/-- **C77** The feedback biquad with parameter inputs, new or reset, at any sample rate: its output satisfies (and so is) the solution of the
difference equation in which the coefficients at sample `k` are those of the parameter inputs at sample `k`. -/
theorem C77_feedback (hM : M.inputs ≤ 4) (sr : ℝ) (shape : S.σ) (w : Nat → Frame ℝ M.inputs) :
    FbEquation S shape (fun k => M.coefs (paramsFor M sr (w k))) (fun k => inAt (w k) 0)
      (fun k => (fbNode M S).stream ((fbNew M shape).setRate M sr) w k 0) := by
  have hc : ∀ k, Consistent M sr ((fbNode M S).ticks.st ((fbNew M shape).setRate M sr) w k : FbSt S.σ).params
      ((fbNode M S).ticks.st ((fbNew M shape).setRate M sr) w k : FbSt S.σ).coefs := by
    intro k
    induction k with
    | zero => exact consistent_init M sr
    | succ k ih =>
      have hf := follow_eq hM ih (w k)
      show Consistent M sr (followParams M _ (w k)).1 (followParams M _ (w k)).2
      rw [hf]; exact consistent_for M sr (w k)
  refine fb_seq S (fun k => (fbNode M S).ticks.st ((fbNew M shape).setRate M sr) w k) (fun k => paramsFor M sr (w k)) _ _ _ rfl rfl fun k => ⟨?_, ?_⟩
  · show (fbStep S { ((fbNode M S).ticks.st ((fbNew M shape).setRate M sr) w k : FbSt S.σ) with
        params := (followParams M _ (w k)).1, coefs := (followParams M _ (w k)).2 } (inAt (w k) 0)).1 = _
    rw [follow_eq hM (hc k) (w k)]
  · show (fbStep S { ((fbNode M S).ticks.st ((fbNew M shape).setRate M sr) w k : FbSt S.σ) with
        params := (followParams M _ (w k)).1, coefs := (followParams M _ (w k)).2 } (inAt (w k) 0)).2 = _
    rw [follow_eq hM (hc k) (w k)]

/-- The library modes have three or four inputs. -/
example : resonatorMode.inputs ≤ 4 ∧ lowpassMode.inputs ≤ 4 ∧ highpassMode.inputs ≤ 4 ∧ bellMode.inputs ≤ 4 := by decide

/-- The parameters after a setting: named parameters are replaced. -/
def setSpec (p : BParams) : BSetting → BParams
  | .center c => ⟨p.sr, c, p.q, p.gain⟩
  | .centerQ c q => ⟨p.sr, c, q, p.gain⟩
  | .centerQGain c q g => ⟨p.sr, c, q, g⟩
  | .other => p

/-- Parameters in force at sample `k` when the settings `sets k` arrive before sample `k`. -/
def paramsAfter (p : BParams) (sets : Nat → List BSetting) : Nat → BParams
  | 0 => (sets 0).foldl setSpec p
  | k + 1 => (sets (k + 1)).foldl setSpec (paramsAfter p sets k)

/-- A run of the filter with fixed parameters with settings before each sample: the state before the settings of sample `k`. -/
def fixedFbRun (s : FbSt S.σ) (sets : Nat → List BSetting) (x : Nat → ℝ) : Nat → FbSt S.σ
  | 0 => s
  | k + 1 => ((fixedFbNode S).tick ((sets k).foldl (FbSt.set M) (fixedFbRun s sets x k)) (fun _ => x k)).1

theorem fb_set_fold (l : List BSetting) : ∀ (s : FbSt S.σ), s.coefs = M.coefs s.params →
    l.foldl (FbSt.set M) s = { s with params := l.foldl setSpec s.params, coefs := M.coefs (l.foldl setSpec s.params) } := by
  induction l with
  | nil => intro s h; rw [List.foldl_nil, List.foldl_nil, ← h]
  | cons b l ih =>
    intro s h
    rw [List.foldl_cons, List.foldl_cons]
    cases b with
    | other => exact ih s h
    | center c => rw [ih _ rfl]; rfl
    | centerQ c q => rw [ih _ rfl]; rfl
    | centerQGain c q g => rw [ih _ rfl]; rfl

/-- **C77** The feedback biquad with fixed parameters: whatever settings arrive between the samples, the output satisfies the equation
with the coefficients of the parameters in force at each sample. -/
theorem C77_fixed_feedback (shape : S.σ) (sr : ℝ) (sets : Nat → List BSetting) (x : Nat → ℝ) :
    FbEquation S shape (fun k => M.coefs (paramsAfter ⟨sr, 440, 1, 1⟩ sets k)) x
      (fun k => ((fixedFbNode S).tick ((sets k).foldl (FbSt.set M) (fixedFbRun M S ((fbNew M shape).setRate M sr) sets x k)) (fun _ => x k)).2 0) := by
  have hp : ∀ k, (sets k).foldl (FbSt.set M) (fixedFbRun M S ((fbNew M shape).setRate M sr) sets x k)
      = { fixedFbRun M S ((fbNew M shape).setRate M sr) sets x k with
          params := paramsAfter ⟨sr, 440, 1, 1⟩ sets k, coefs := M.coefs (paramsAfter ⟨sr, 440, 1, 1⟩ sets k) } := by
    intro k
    induction k with
    | zero => exact fb_set_fold M S _ _ rfl
    | succ k ih =>
      have hq : (fixedFbRun M S ((fbNew M shape).setRate M sr) sets x (k + 1)).params = paramsAfter ⟨sr, 440, 1, 1⟩ sets k ∧
          (fixedFbRun M S ((fbNew M shape).setRate M sr) sets x (k + 1)).coefs = M.coefs (paramsAfter ⟨sr, 440, 1, 1⟩ sets k) := by
        have e : fixedFbRun M S ((fbNew M shape).setRate M sr) sets x (k + 1)
          = (fbStep S ((sets k).foldl (FbSt.set M) (fixedFbRun M S ((fbNew M shape).setRate M sr) sets x k)) (x k)).1 := rfl
        rw [e, ih]; exact ⟨rfl, rfl⟩
      rw [fb_set_fold M S _ _ (by rw [hq.1, hq.2]), hq.1]
      rfl
  refine fb_seq S (fixedFbRun M S ((fbNew M shape).setRate M sr) sets x) (paramsAfter ⟨sr, 440, 1, 1⟩ sets) _ _ _ rfl rfl fun k => ⟨?_, ?_⟩
  · rw [← hp k]; rfl
  · rw [← hp k]; rfl

/-- Without settings this is the stream of the node. -/
theorem fixedFb_stream (s : FbSt S.σ) (h1 : s.s1 = 0) (h2 : s.s2 = 0) (w : Nat → Frame ℝ 1) :
    FbEquation S s.shape (fun _ => s.coefs) (fun k => w k 0) (fun k => (fixedFbNode S).stream s w k 0) := by
  have hc : ∀ k, ((fixedFbNode S).ticks.st s w k : FbSt S.σ).coefs = s.coefs := by
    intro k
    induction k with
    | zero => rfl
    | succ k ih => exact ih
  refine fb_seq S (fun k => (fixedFbNode S).ticks.st s w k) (fun k => ((fixedFbNode S).ticks.st s w k : FbSt S.σ).params) _ _ _ h1 h2 fun k => ⟨?_, ?_⟩
  · rw [← hc k]; rfl
  · rw [← hc k]; rfl

end fb

/-- A linear biquad from rest satisfies the equation of the feedback biquad with the identity shape. -/
theorem biquad_equation (c : BiquadCoefs ℝ) (w : Nat → Frame ℝ 1) :
    FbEquation (shapeFn id) () (fun _ => c) (fun k => w k 0) (fun k => (biquadNode c).stream (⟨0, 0, 0, 0⟩ : BiquadSt ℝ) w k 0) := by
  have hst : ∀ k, ((biquadNode c).ticks.st (⟨0, 0, 0, 0⟩ : BiquadSt ℝ) w k : BiquadSt ℝ)
      = ⟨delayed 0 1 (fun j => w j 0) k, delayed 0 2 (fun j => w j 0) k,
         delayed 0 1 (fun j => (biquadNode c).stream (⟨0, 0, 0, 0⟩ : BiquadSt ℝ) w j 0) k,
         delayed 0 2 (fun j => (biquadNode c).stream (⟨0, 0, 0, 0⟩ : BiquadSt ℝ) w j 0) k⟩ := by
    intro k
    induction k with
    | zero => simp only [delayed_zero _ 1 (by omega), delayed_zero _ 2 (by omega)]; rfl
    | succ k ih =>
      have e : ((biquadNode c).ticks.st (⟨0, 0, 0, 0⟩ : BiquadSt ℝ) w (k + 1) : BiquadSt ℝ)
        = ⟨w k 0, ((biquadNode c).ticks.st (⟨0, 0, 0, 0⟩ : BiquadSt ℝ) w k : BiquadSt ℝ).x1,
           (biquadNode c).stream (⟨0, 0, 0, 0⟩ : BiquadSt ℝ) w k 0, ((biquadNode c).ticks.st (⟨0, 0, 0, 0⟩ : BiquadSt ℝ) w k : BiquadSt ℝ).y1⟩ := rfl
      rw [e, ih, delayed_succ, delayed_succ, delayed_succ, delayed_succ, delayed_none, delayed_none]
  intro k
  have e : (biquadNode c).stream (⟨0, 0, 0, 0⟩ : BiquadSt ℝ) w k 0
      = (biquadTick c ((biquadNode c).ticks.st (⟨0, 0, 0, 0⟩ : BiquadSt ℝ) w k) (w k 0)).2 := rfl
  have hsh : ∀ (y : Nat → ℝ) j, (shaperNode (shapeFn id)).stream () (fun j _ => y j) j 0 = y j := fun _ _ => rfl
  have hd : ∀ (d : Nat) (p q : ℝ) (u v : Nat → ℝ), delayed 0 d (fun j => p * u j - q * v j) k = p * delayed 0 d u k - q * delayed 0 d v k := by
    intro d p q u v
    unfold delayed
    split
    · rfl
    · ring
  simp only [hsh, hd]
  rw [e, hst]
  simp only [biquadTick]
  ring

/-- **C77** With the identity shape and constant parameter inputs the feedback biquad is the linear biquad of its mode. -/
theorem C77_feedback_linear (M : BMode) (hM : M.inputs ≤ 4) (h1 : 1 ≤ M.inputs) (sr : ℝ) (p : Frame ℝ M.inputs) (x : Nat → ℝ) (k : Nat) :
    (fbNode M (shapeFn id)).stream ((fbNew M ()).setRate M sr) (fun k => Function.update p ⟨0, h1⟩ (x k)) k 0
      = (biquadNode (M.coefs (paramsFor M sr p))).stream (⟨0, 0, 0, 0⟩ : BiquadSt ℝ) (fun k _ => x k) k 0 := by
  have a := C77_feedback M (shapeFn id) hM sr () (fun k => Function.update p ⟨0, h1⟩ (x k))
  have b := biquad_equation (M.coefs (paramsFor M sr p)) (fun k _ => x k)
  have hp : ∀ k, paramsFor M sr (Function.update p ⟨0, h1⟩ (x k)) = paramsFor M sr p := by
    intro k; simp [paramsFor, Function.update, Fin.ext_iff]
  have hx : ∀ k, inAt (Function.update p ⟨0, h1⟩ (x k)) 0 = x k := by
    intro k; simp [inAt, Nat.lt_of_lt_of_le Nat.zero_lt_one h1]
  simp only [hp, hx] at a
  exact congrFun (a.unique b) k

example : 1 ≤ lowpassMode.inputs := by decide

/-- **C77** The same for fixed parameters. -/
theorem C77_fixed_feedback_linear (s : FbSt Unit) (h1 : s.s1 = 0) (h2 : s.s2 = 0) (w : Nat → Frame ℝ 1) (k : Nat) :
    (fixedFbNode (shapeFn id)).stream s w k 0 = (biquadNode s.coefs).stream (⟨0, 0, 0, 0⟩ : BiquadSt ℝ) w k 0 :=
  congrFun ((fixedFb_stream (shapeFn id) s h1 h2 w).unique (biquad_equation s.coefs w)) k

/-! ## Biquad with shaped state -/

section dirty
variable (M : BMode) (S : Shape ℝ)

/-- Difference equation of the biquad with nonlinear state shaping: `y k = b0 x k + u k` where `u` is the output of the first shape
driven by the first state, delayed by a sample, and `v` that of the second shape. -/
def DirtyEquation (S : Shape ℝ) (shape : S.σ) (c : Nat → BiquadCoefs ℝ) (x y : Nat → ℝ) : Prop :=
  ∃ u v : Nat → ℝ, (∀ k, y k = (c k).b0 * x k + delayed 0 1 u k) ∧
    (∀ k, u k = (shaperNode S).stream shape (fun j _ => delayed 0 1 v j + (c j).b1 * x j - (c j).a1 * y j) k 0) ∧
    (∀ k, v k = (shaperNode S).stream shape (fun j _ => (c j).b2 * x j - (c j).a2 * y j) k 0)

/-- The equation determines the output. -/
theorem DirtyEquation.unique {S : Shape ℝ} {shape : S.σ} {c : Nat → BiquadCoefs ℝ} {x y z : Nat → ℝ}
    (hy : DirtyEquation S shape c x y) (hz : DirtyEquation S shape c x z) : y = z := by
  obtain ⟨u, v, h1, h2, h3⟩ := hy
  obtain ⟨u', v', h1', h2', h3'⟩ := hz
  have key : ∀ k, y k = z k ∧ u k = u' k ∧ v k = v' k := by
    intro k
    induction k using Nat.strongRecOn with
    | _ k ih =>
      have hyk : y k = z k := by
        rw [h1, h1']
        congr 1
        unfold delayed
        split
        · exact (ih (k - 1) (by omega)).2.1
        · rfl
      have hle : ∀ j, j ≤ k → y j = z j := fun j hj => by
        rcases Nat.lt_or_eq_of_le hj with h | rfl
        · exact (ih j h).1
        · exact hyk
      refine ⟨hyk, ?_, ?_⟩
      · rw [h2, h2']
        refine congrFun ((shaperNode S).ticks.out_congr shape _ _ k (fun j hj => ?_)) 0
        funext _
        have : delayed 0 1 v j = delayed 0 1 v' j := by
          unfold delayed
          split
          · exact (ih (j - 1) (by omega)).2.2
          · rfl
        rw [hle j (by omega), this]
      · rw [h3, h3']
        refine congrFun ((shaperNode S).ticks.out_congr shape _ _ k (fun j hj => ?_)) 0
        funext _
        rw [hle j (by omega)]
  exact funext fun k => (key k).1

/-- A sequence of states in which each is a step of the filter from the one before, with the coefficients of that sample. -/
theorem dirty_seq (t : Nat → DirtySt S.σ) (p : Nat → BParams) (c : Nat → BiquadCoefs ℝ) (x y : Nat → ℝ) (h1 : (t 0).s1 = 0) (h2 : (t 0).s2 = 0)
    (hsh : (t 0).shape2 = (t 0).shape1)
    (hstep : ∀ k, t (k + 1) = (dirtyStep S { t k with params := p k, coefs := c k } (x k)).1 ∧
      y k = (dirtyStep S { t k with params := p k, coefs := c k } (x k)).2) : DirtyEquation S (t 0).shape1 c x y := by
  have hy : ∀ k, y k = (c k).b0 * x k + (t k).s1 := fun k => (hstep k).2
  have hs1 : ∀ k, (t (k + 1)).s1 = (S.shape (t k).shape1 ((t k).s2 + (c k).b1 * x k - (c k).a1 * y k)).2 ∧
      (t (k + 1)).shape1 = (S.shape (t k).shape1 ((t k).s2 + (c k).b1 * x k - (c k).a1 * y k)).1 := by
    intro k
    rw [(hstep k).1, hy k]
    simp only [dirtyStep, mul_comm (c k).a1, and_self]
  have hs2 : ∀ k, (t (k + 1)).s2 = (S.shape (t k).shape2 ((c k).b2 * x k - (c k).a2 * y k)).2 ∧
      (t (k + 1)).shape2 = (S.shape (t k).shape2 ((c k).b2 * x k - (c k).a2 * y k)).1 := by
    intro k
    rw [(hstep k).1, hy k]
    simp only [dirtyStep, mul_comm (c k).a2, and_self]
  refine ⟨fun k => (t (k + 1)).s1, fun k => (t (k + 1)).s2, ?_, ?_, ?_⟩
  · intro k
    rw [hy k]
    congr 1
    cases k with
    | zero => rw [delayed_zero _ _ (by omega), h1]
    | succ k => rw [delayed_succ, delayed_none]
  · have hd : ∀ j, delayed 0 1 (fun k => (t (k + 1)).s2) j = (t j).s2 := by
      intro j
      cases j with
      | zero => rw [delayed_zero _ _ (by omega), h2]
      | succ k => rw [delayed_succ, delayed_none]
    have hst : ∀ k, (t k).shape1 = (shaperNode S).ticks.st (t 0).shape1
        (fun j _ => delayed 0 1 (fun k => (t (k + 1)).s2) j + (c j).b1 * x j - (c j).a1 * y j) k := by
      intro k
      induction k with
      | zero => rfl
      | succ k ih => rw [(hs1 k).2, ih, ← hd k]; rfl
    intro k
    beta_reduce
    rw [(hs1 k).1, hst k, ← hd k]; rfl
  · have hst : ∀ k, (t k).shape2 = (shaperNode S).ticks.st (t 0).shape1 (fun j _ => (c j).b2 * x j - (c j).a2 * y j) k := by
      intro k
      induction k with
      | zero => exact hsh
      | succ k ih => rw [(hs2 k).2, ih]; rfl
    intro k
    beta_reduce
    rw [(hs2 k).1, hst k]; rfl

/-- **C77** The state shaping biquad with parameter inputs. -/
theorem C77_dirty (hM : M.inputs ≤ 4) (sr : ℝ) (shape : S.σ) (w : Nat → Frame ℝ M.inputs) :
    DirtyEquation S shape (fun k => M.coefs (paramsFor M sr (w k))) (fun k => inAt (w k) 0)
      (fun k => (dirtyNode M S).stream ((dirtyNew M shape).setRate M sr) w k 0) := by
  have hc : ∀ k, Consistent M sr ((dirtyNode M S).ticks.st ((dirtyNew M shape).setRate M sr) w k : DirtySt S.σ).params
      ((dirtyNode M S).ticks.st ((dirtyNew M shape).setRate M sr) w k : DirtySt S.σ).coefs := by
    intro k
    induction k with
    | zero => exact consistent_init M sr
    | succ k ih =>
      have hf := follow_eq hM ih (w k)
      show Consistent M sr (followParams M _ (w k)).1 (followParams M _ (w k)).2
      rw [hf]; exact consistent_for M sr (w k)
  refine dirty_seq S (fun k => (dirtyNode M S).ticks.st ((dirtyNew M shape).setRate M sr) w k) (fun k => paramsFor M sr (w k)) _ _ _ rfl rfl rfl fun k => ⟨?_, ?_⟩
  · show (dirtyStep S { ((dirtyNode M S).ticks.st ((dirtyNew M shape).setRate M sr) w k : DirtySt S.σ) with
        params := (followParams M _ (w k)).1, coefs := (followParams M _ (w k)).2 } (inAt (w k) 0)).1 = _
    rw [follow_eq hM (hc k) (w k)]
  · show (dirtyStep S { ((dirtyNode M S).ticks.st ((dirtyNew M shape).setRate M sr) w k : DirtySt S.σ) with
        params := (followParams M _ (w k)).1, coefs := (followParams M _ (w k)).2 } (inAt (w k) 0)).2 = _
    rw [follow_eq hM (hc k) (w k)]

/-- A run of the filter with fixed parameters with settings before each sample: the state before the settings of sample `k`. -/
def fixedDirtyRun (s : DirtySt S.σ) (sets : Nat → List BSetting) (x : Nat → ℝ) : Nat → DirtySt S.σ
  | 0 => s
  | k + 1 => ((fixedDirtyNode S).tick ((sets k).foldl (DirtySt.set M) (fixedDirtyRun s sets x k)) (fun _ => x k)).1

theorem dirty_set_fold (l : List BSetting) : ∀ (s : DirtySt S.σ), s.coefs = M.coefs s.params →
    l.foldl (DirtySt.set M) s = { s with params := l.foldl setSpec s.params, coefs := M.coefs (l.foldl setSpec s.params) } := by
  induction l with
  | nil => intro s h; rw [List.foldl_nil, List.foldl_nil, ← h]
  | cons b l ih =>
    intro s h
    rw [List.foldl_cons, List.foldl_cons]
    cases b with
    | other => exact ih s h
    | center c => rw [ih _ rfl]; rfl
    | centerQ c q => rw [ih _ rfl]; rfl
    | centerQGain c q g => rw [ih _ rfl]; rfl

/-- **C77** The state shaping biquad with fixed parameters and settings at any time. -/
theorem C77_fixed_dirty (shape : S.σ) (sr : ℝ) (sets : Nat → List BSetting) (x : Nat → ℝ) :
    DirtyEquation S shape (fun k => M.coefs (paramsAfter ⟨sr, 440, 1, 1⟩ sets k)) x
      (fun k => ((fixedDirtyNode S).tick ((sets k).foldl (DirtySt.set M) (fixedDirtyRun M S ((dirtyNew M shape).setRate M sr) sets x k)) (fun _ => x k)).2 0) := by
  have hp : ∀ k, (sets k).foldl (DirtySt.set M) (fixedDirtyRun M S ((dirtyNew M shape).setRate M sr) sets x k)
      = { fixedDirtyRun M S ((dirtyNew M shape).setRate M sr) sets x k with
          params := paramsAfter ⟨sr, 440, 1, 1⟩ sets k, coefs := M.coefs (paramsAfter ⟨sr, 440, 1, 1⟩ sets k) } := by
    intro k
    induction k with
    | zero => exact dirty_set_fold M S _ _ rfl
    | succ k ih =>
      have hq : (fixedDirtyRun M S ((dirtyNew M shape).setRate M sr) sets x (k + 1)).params = paramsAfter ⟨sr, 440, 1, 1⟩ sets k ∧
          (fixedDirtyRun M S ((dirtyNew M shape).setRate M sr) sets x (k + 1)).coefs = M.coefs (paramsAfter ⟨sr, 440, 1, 1⟩ sets k) := by
        have e : fixedDirtyRun M S ((dirtyNew M shape).setRate M sr) sets x (k + 1)
          = (dirtyStep S ((sets k).foldl (DirtySt.set M) (fixedDirtyRun M S ((dirtyNew M shape).setRate M sr) sets x k)) (x k)).1 := rfl
        rw [e, ih]; exact ⟨rfl, rfl⟩
      rw [dirty_set_fold M S _ _ (by rw [hq.1, hq.2]), hq.1]
      rfl
  refine dirty_seq S (fixedDirtyRun M S ((dirtyNew M shape).setRate M sr) sets x) (paramsAfter ⟨sr, 440, 1, 1⟩ sets) _ _ _ rfl rfl rfl fun k => ⟨?_, ?_⟩
  · rw [← hp k]; rfl
  · rw [← hp k]; rfl

/-- Without settings this is the stream of the node. -/
theorem fixedDirty_stream (s : DirtySt S.σ) (h1 : s.s1 = 0) (h2 : s.s2 = 0) (hsh : s.shape2 = s.shape1) (w : Nat → Frame ℝ 1) :
    DirtyEquation S s.shape1 (fun _ => s.coefs) (fun k => w k 0) (fun k => (fixedDirtyNode S).stream s w k 0) := by
  have hc : ∀ k, ((fixedDirtyNode S).ticks.st s w k : DirtySt S.σ).coefs = s.coefs := by
    intro k
    induction k with
    | zero => rfl
    | succ k ih => exact ih
  refine dirty_seq S (fun k => (fixedDirtyNode S).ticks.st s w k) (fun k => ((fixedDirtyNode S).ticks.st s w k : DirtySt S.σ).params) _ _ _ h1 h2 hsh
    fun k => ⟨?_, ?_⟩
  · rw [← hc k]; rfl
  · rw [← hc k]; rfl

end dirty

/-- With the identity shape the two equations are the same. -/
theorem fb_of_dirty {c : Nat → BiquadCoefs ℝ} {x y : Nat → ℝ} (h : DirtyEquation (shapeFn id) () c x y) : FbEquation (shapeFn id) () c x y := by
  obtain ⟨u, v, h1, h2, h3⟩ := h
  have hsh : ∀ (y : Nat → Frame ℝ 1) j, (shaperNode (shapeFn id)).stream () y j 0 = y j 0 := fun _ _ => rfl
  simp only [hsh] at h2 h3
  intro k
  simp only [hsh]
  rw [h1 k]
  have e : u = fun k => delayed 0 1 v k + (c k).b1 * x k - (c k).a1 * y k := funext h2
  have e' : v = fun k => (c k).b2 * x k - (c k).a2 * y k := funext h3
  rw [add_assoc]
  congr 1
  cases k with
  | zero => rw [delayed_zero _ _ (by omega), delayed_zero _ _ (by omega), delayed_zero _ _ (by omega), add_zero]
  | succ k =>
    rw [delayed_succ, delayed_succ, delayed_succ, delayed_none, delayed_none, h2 k, ← e']
    ring

/-- **C77** With the identity shape and constant parameter inputs the state shaping biquad is the linear biquad of its mode. -/
theorem C77_dirty_linear (M : BMode) (hM : M.inputs ≤ 4) (h1 : 1 ≤ M.inputs) (sr : ℝ) (p : Frame ℝ M.inputs) (x : Nat → ℝ) (k : Nat) :
    (dirtyNode M (shapeFn id)).stream ((dirtyNew M ()).setRate M sr) (fun k => Function.update p ⟨0, h1⟩ (x k)) k 0
      = (biquadNode (M.coefs (paramsFor M sr p))).stream (⟨0, 0, 0, 0⟩ : BiquadSt ℝ) (fun k _ => x k) k 0 := by
  have a := fb_of_dirty (C77_dirty M (shapeFn id) hM sr () (fun k => Function.update p ⟨0, h1⟩ (x k)))
  have b := biquad_equation (M.coefs (paramsFor M sr p)) (fun k _ => x k)
  have hp : ∀ k, paramsFor M sr (Function.update p ⟨0, h1⟩ (x k)) = paramsFor M sr p := by
    intro k; simp [paramsFor, Function.update, Fin.ext_iff]
  have hx : ∀ k, inAt (Function.update p ⟨0, h1⟩ (x k)) 0 = x k := by
    intro k; simp [inAt, Nat.lt_of_lt_of_le Nat.zero_lt_one h1]
  simp only [hp, hx] at a
  exact congrFun (a.unique b) k

/-- **C77** The same for fixed parameters. -/
theorem C77_fixed_dirty_linear (s : DirtySt Unit) (h1 : s.s1 = 0) (h2 : s.s2 = 0) (w : Nat → Frame ℝ 1) (k : Nat) :
    (fixedDirtyNode (shapeFn id)).stream s w k 0 = (biquadNode s.coefs).stream (⟨0, 0, 0, 0⟩ : BiquadSt ℝ) w k 0 :=
  congrFun ((fb_of_dirty (fixedDirty_stream (shapeFn id) s h1 h2 rfl w)).unique (biquad_equation s.coefs w)) k

/-! ## Boundedness -/

/-- A shape that saturates at `m`. -/
def Saturates (S : Shape ℝ) (m : ℝ) : Prop := ∀ s x, |(S.shape s x).2| ≤ m

theorem saturates_stream {S : Shape ℝ} {m : ℝ} (h : Saturates S m) (s : S.σ) (w : Nat → Frame ℝ 1) (k : Nat) :
    |(shaperNode S).stream s w k 0| ≤ m := h _ _

theorem abs_delayed {B : ℝ} (hB : 0 ≤ B) (d : Nat) (u : Nat → ℝ) (h : ∀ k, |u k| ≤ B) (k : Nat) : |delayed 0 d u k| ≤ B := by
  unfold delayed
  split
  · exact h _
  · rw [abs_zero]; exact hB

theorem abs_term {a b x f X m : ℝ} (hx : |x| ≤ X) (hf : |f| ≤ m) {A B : ℝ} (ha : |a| ≤ A) (hb : |b| ≤ B) : |b * x - a * f| ≤ B * X + A * m := by
  have h1 : |b * x| ≤ B * X := by rw [abs_mul]; exact mul_le_mul hb hx (abs_nonneg _) ((abs_nonneg _).trans hb)
  have h2 : |a * f| ≤ A * m := by rw [abs_mul]; exact mul_le_mul ha hf (abs_nonneg _) ((abs_nonneg _).trans ha)
  exact (abs_sub _ _).trans (add_le_add h1 h2)

/-- **C77** With a saturating shape in the feedback path, bounded input gives bounded output, for coefficients of any size (stable as a
linear filter or not), constant or varying. -/
theorem C77_feedback_bounded {S : Shape ℝ} {m X : ℝ} (hS : Saturates S m) {shape : S.σ} {c : Nat → BiquadCoefs ℝ} {x y : Nat → ℝ} {b : BiquadCoefs ℝ}
    (hc : ∀ k, |(c k).a1| ≤ b.a1 ∧ |(c k).a2| ≤ b.a2 ∧ |(c k).b0| ≤ b.b0 ∧ |(c k).b1| ≤ b.b1 ∧ |(c k).b2| ≤ b.b2) (hx : ∀ k, |x k| ≤ X)
    (h : FbEquation S shape c x y) (k : Nat) : |y k| ≤ (b.b0 + b.b1 + b.b2) * X + (b.a1 + b.a2) * m := by
  have t1 : ∀ k, |(c k).b1 * x k - (c k).a1 * (shaperNode S).stream shape (fun j _ => y j) k 0| ≤ b.b1 * X + b.a1 * m := fun k =>
    abs_term (hx k) (saturates_stream hS _ _ k) (hc k).1 (hc k).2.2.2.1
  have t2 : ∀ k, |(c k).b2 * x k - (c k).a2 * (shaperNode S).stream shape (fun j _ => y j) k 0| ≤ b.b2 * X + b.a2 * m := fun k =>
    abs_term (hx k) (saturates_stream hS _ _ k) (hc k).2.1 (hc k).2.2.2.2
  have d1 := abs_delayed ((abs_nonneg _).trans (t1 0)) 1 _ t1 k
  have d2 := abs_delayed ((abs_nonneg _).trans (t2 0)) 2 _ t2 k
  have d0 : |(c k).b0 * x k| ≤ b.b0 * X := by
    rw [abs_mul]; exact mul_le_mul (hc k).2.2.1 (hx k) (abs_nonneg _) ((abs_nonneg _).trans (hc k).2.2.1)
  rw [h k]
  have e1 := abs_add_le ((c k).b0 * x k + delayed 0 1 (fun j => (c j).b1 * x j - (c j).a1 * (shaperNode S).stream shape (fun j _ => y j) j 0) k)
    (delayed 0 2 (fun j => (c j).b2 * x j - (c j).a2 * (shaperNode S).stream shape (fun j _ => y j) j 0) k)
  have e2 := abs_add_le ((c k).b0 * x k) (delayed 0 1 (fun j => (c j).b1 * x j - (c j).a1 * (shaperNode S).stream shape (fun j _ => y j) j 0) k)
  linarith

/-- **C77** With shaped state the bound is independent of the feedback coefficients altogether. -/
theorem C77_dirty_bounded {S : Shape ℝ} {m X B : ℝ} (hS : Saturates S m) {shape : S.σ} {c : Nat → BiquadCoefs ℝ} {x y : Nat → ℝ}
    (hc : ∀ k, |(c k).b0| ≤ B) (hx : ∀ k, |x k| ≤ X) (h : DirtyEquation S shape c x y) (k : Nat) : |y k| ≤ B * X + m := by
  obtain ⟨u, v, h1, h2, _⟩ := h
  have hm : 0 ≤ m := (abs_nonneg _).trans (saturates_stream hS shape (fun _ _ => 0) 0)
  have d1 := abs_delayed hm 1 u (fun k => by rw [h2]; exact saturates_stream hS _ _ k) k
  have d0 : |(c k).b0 * x k| ≤ B * X := by
    rw [abs_mul]; exact mul_le_mul (hc k) (hx k) (abs_nonneg _) ((abs_nonneg _).trans (hc k))
  rw [h1 k]
  exact (abs_add_le _ _).trans (add_le_add d0 d1)

/-- `tanh` saturates, also inside an adaptive shape. -/
example : Saturates (tanhS 3) 1 ∧ Saturates (adaptive (tanhS 3)) 1 :=
  ⟨fun _ x => (Math.C34_shapers 3 x).2.2.1.le, fun _ x => (Math.C34_shapers 3 _).2.2.1.le⟩

/-! ## Settings, reset and sample rate -/

/-- **C77** Resetting a feedback biquad with parameter inputs at any time gives the output of a new one, if resetting the shape does so
(C72). -/
theorem C77_reset_feedback (M : BMode) (hM : M.inputs ≤ 4) (S : Shape ℝ) (sr : ℝ) (shape : S.σ) (hS : TickFresh (shaperNode S) shape) :
    ResetFresh (fbNode M S) ((fbNew M shape).setRate M sr) := by
  refine TickFresh.ofTick (tickFresh_of_rel (n := fbNode M S)
    (P := fun s : FbSt S.σ => Consistent M sr s.params s.coefs ∧ Reached (shaperNode S) shape s.shape)
    (R := fun s t : FbSt S.σ => Consistent M sr s.params s.coefs ∧ Consistent M sr t.params t.coefs ∧ s.s1 = t.s1 ∧ s.s2 = t.s2 ∧
      SameStream (shaperNode S) s.shape t.shape) ⟨consistent_init M sr, .init⟩ ?_ ?_ ?_ ?_)
  · rintro s x ⟨h, r⟩
    refine ⟨?_, r.tick (fun _ => _)⟩
    show Consistent M sr (followParams M (FbSt.params s, FbSt.coefs s) x).1 (followParams M (FbSt.params s, FbSt.coefs s) x).2
    rw [follow_eq hM h x]; exact consistent_for M sr x
  · rintro s ⟨h, r⟩
    exact ⟨h, r.reset⟩
  · rintro s ⟨h, r⟩
    exact ⟨h, consistent_init M sr, rfl, rfl, hS _ r⟩
  · rintro s t x ⟨h, h', h1, h2, hs⟩
    have e : ∀ (s : FbSt S.σ), Consistent M sr s.params s.coefs → (fbNode M S).tick s x
        = ((fbStep S { s with params := paramsFor M sr x, coefs := M.coefs (paramsFor M sr x) } (inAt x 0)).1,
           fun _ => (fbStep S { s with params := paramsFor M sr x, coefs := M.coefs (paramsFor M sr x) } (inAt x 0)).2) := by
      intro s h
      show (let pc := followParams M (s.params, s.coefs) x
        let r := fbStep S { s with params := pc.1, coefs := pc.2 } (inAt x 0)
        (r.1, fun _ => r.2)) = _
      rw [follow_eq hM h x]
    rw [e s h, e t h']
    have ht := hs.tick (fun _ => (M.coefs (paramsFor M sr x)).b0 * inAt x 0 + FbSt.s1 t)
    have ho : (S.shape (FbSt.shape s) ((M.coefs (paramsFor M sr x)).b0 * inAt x 0 + FbSt.s1 t)).2
        = (S.shape (FbSt.shape t) ((M.coefs (paramsFor M sr x)).b0 * inAt x 0 + FbSt.s1 t)).2 := congrFun ht.2 0
    refine ⟨⟨consistent_for M sr x, consistent_for M sr x, ?_, ?_, ?_⟩, ?_⟩
    · simp only [fbStep]; rw [h1, h2, ho]
    · simp only [fbStep]; rw [h1, ho]
    · simp only [fbStep]; rw [h1]; exact ht.1
    · funext _; simp only [fbStep]; rw [h1]

/-- **C77** The same for a state shaping biquad. -/
theorem C77_reset_dirty (M : BMode) (hM : M.inputs ≤ 4) (S : Shape ℝ) (sr : ℝ) (shape : S.σ) (hS : TickFresh (shaperNode S) shape) :
    ResetFresh (dirtyNode M S) ((dirtyNew M shape).setRate M sr) := by
  refine TickFresh.ofTick (tickFresh_of_rel (n := dirtyNode M S)
    (P := fun s : DirtySt S.σ => Consistent M sr s.params s.coefs ∧ Reached (shaperNode S) shape s.shape1 ∧ Reached (shaperNode S) shape s.shape2)
    (R := fun s t : DirtySt S.σ => Consistent M sr s.params s.coefs ∧ Consistent M sr t.params t.coefs ∧ s.s1 = t.s1 ∧ s.s2 = t.s2 ∧
      SameStream (shaperNode S) s.shape1 t.shape1 ∧ SameStream (shaperNode S) s.shape2 t.shape2) ⟨consistent_init M sr, .init, .init⟩ ?_ ?_ ?_ ?_)
  · rintro s x ⟨h, r, r'⟩
    refine ⟨?_, r.tick (fun _ => _), r'.tick (fun _ => _)⟩
    show Consistent M sr (followParams M (DirtySt.params s, DirtySt.coefs s) x).1 (followParams M (DirtySt.params s, DirtySt.coefs s) x).2
    rw [follow_eq hM h x]; exact consistent_for M sr x
  · rintro s ⟨h, r, r'⟩
    exact ⟨h, r.reset, r'.reset⟩
  · rintro s ⟨h, r, r'⟩
    exact ⟨h, consistent_init M sr, rfl, rfl, hS _ r, hS _ r'⟩
  · rintro s t x ⟨h, h', h1, h2, hs, hs'⟩
    have e : ∀ (s : DirtySt S.σ), Consistent M sr s.params s.coefs → (dirtyNode M S).tick s x
        = ((dirtyStep S { s with params := paramsFor M sr x, coefs := M.coefs (paramsFor M sr x) } (inAt x 0)).1,
           fun _ => (dirtyStep S { s with params := paramsFor M sr x, coefs := M.coefs (paramsFor M sr x) } (inAt x 0)).2) := by
      intro s h
      show (let pc := followParams M (s.params, s.coefs) x
        let r := dirtyStep S { s with params := pc.1, coefs := pc.2 } (inAt x 0)
        (r.1, fun _ => r.2)) = _
      rw [follow_eq hM h x]
    rw [e s h, e t h']
    have ht := hs.tick (fun _ => DirtySt.s2 t + (M.coefs (paramsFor M sr x)).b1 * inAt x 0
      - ((M.coefs (paramsFor M sr x)).b0 * inAt x 0 + DirtySt.s1 t) * (M.coefs (paramsFor M sr x)).a1)
    have ht' := hs'.tick (fun _ => (M.coefs (paramsFor M sr x)).b2 * inAt x 0
      - ((M.coefs (paramsFor M sr x)).b0 * inAt x 0 + DirtySt.s1 t) * (M.coefs (paramsFor M sr x)).a2)
    refine ⟨⟨consistent_for M sr x, consistent_for M sr x, ?_, ?_, ?_, ?_⟩, ?_⟩
    · simp only [dirtyStep]; rw [h1, h2]; exact congrFun ht.2 0
    · simp only [dirtyStep]; rw [h1]; exact congrFun ht'.2 0
    · simp only [dirtyStep]; rw [h1, h2]; exact ht.1
    · simp only [dirtyStep]; rw [h1]; exact ht'.1
    · funext _; simp only [dirtyStep]; rw [h1]

/-- **C77** Filters with fixed parameters keep their parameters over a reset and otherwise start anew. -/
theorem C77_reset_fixed (S : Shape ℝ) (c : BiquadCoefs ℝ) (p : BParams) (shape : S.σ) (hS : TickFresh (shaperNode S) shape) :
    ResetFresh (fixedFbNode S) (⟨c, p, shape, 0, 0⟩ : FbSt S.σ) ∧ ResetFresh (fixedDirtyNode S) (⟨c, p, shape, shape, 0, 0⟩ : DirtySt S.σ) := by
  constructor
  · refine TickFresh.ofTick (tickFresh_of_rel (n := fixedFbNode S)
      (P := fun s : FbSt S.σ => s.coefs = c ∧ Reached (shaperNode S) shape s.shape)
      (R := fun s t : FbSt S.σ => s.coefs = t.coefs ∧ s.s1 = t.s1 ∧ s.s2 = t.s2 ∧ SameStream (shaperNode S) s.shape t.shape)
      ⟨rfl, .init⟩ (fun s x h => ⟨h.1, h.2.tick (fun _ => _)⟩) (fun s h => ⟨h.1, h.2.reset⟩) (fun s h => ⟨h.1, rfl, rfl, hS _ h.2⟩) ?_)
    rintro ⟨c, p, sh, s1, s2⟩ ⟨c', p', sh', s1', s2'⟩ x ⟨h0, h1, h2, hs⟩
    simp only at h0 h1 h2 hs
    subst h0 h1 h2
    have ht := hs.tick (fun _ => c.b0 * x 0 + s1)
    have ho : (S.shape sh (c.b0 * x 0 + s1)).2 = (S.shape sh' (c.b0 * x 0 + s1)).2 := congrFun ht.2 0
    refine ⟨⟨rfl, ?_, ?_, ht.1⟩, rfl⟩
    · show s2 + c.b1 * x 0 - (S.shape sh (c.b0 * x 0 + s1)).2 * c.a1 = s2 + c.b1 * x 0 - (S.shape sh' (c.b0 * x 0 + s1)).2 * c.a1
      rw [ho]
    · show c.b2 * x 0 - (S.shape sh (c.b0 * x 0 + s1)).2 * c.a2 = c.b2 * x 0 - (S.shape sh' (c.b0 * x 0 + s1)).2 * c.a2
      rw [ho]
  · refine TickFresh.ofTick (tickFresh_of_rel (n := fixedDirtyNode S)
      (P := fun s : DirtySt S.σ => s.coefs = c ∧ Reached (shaperNode S) shape s.shape1 ∧ Reached (shaperNode S) shape s.shape2)
      (R := fun s t : DirtySt S.σ => s.coefs = t.coefs ∧ s.s1 = t.s1 ∧ s.s2 = t.s2 ∧ SameStream (shaperNode S) s.shape1 t.shape1 ∧
        SameStream (shaperNode S) s.shape2 t.shape2)
      ⟨rfl, .init, .init⟩ (fun s x h => ⟨h.1, h.2.1.tick (fun _ => _), h.2.2.tick (fun _ => _)⟩) (fun s h => ⟨h.1, h.2.1.reset, h.2.2.reset⟩)
      (fun s h => ⟨h.1, rfl, rfl, hS _ h.2.1, hS _ h.2.2⟩) ?_)
    rintro ⟨c, p, sh, sg, s1, s2⟩ ⟨c', p', sh', sg', s1', s2'⟩ x ⟨h0, h1, h2, hs, hs'⟩
    simp only at h0 h1 h2 hs hs'
    subst h0 h1 h2
    have ht := hs.tick (fun _ => s2 + c.b1 * x 0 - (c.b0 * x 0 + s1) * c.a1)
    have ht' := hs'.tick (fun _ => c.b2 * x 0 - (c.b0 * x 0 + s1) * c.a2)
    exact ⟨⟨rfl, congrFun ht.2 0, congrFun ht'.2 0, ht.1, ht'.1⟩, rfl⟩

/-- A shape whose reset is exact. -/
example : TickFresh (shaperNode (tanhS 2)) () := tickFresh_of_eq (fun _ => True) trivial (fun _ _ _ => trivial) (fun _ _ => rfl)

/-- **C77** is violated in its last part: `set_sample_rate` of the nonlinear biquads does not reach the shape. A feedback biquad with an
adaptive shape, set to 48 kHz, keeps the smoothing of 44.1 kHz, which differs from the smoothing the shape would have at 48 kHz. -/
theorem C77_violation_sample_rate (M : BMode) (S : Shape ℝ) (inner : S.σ) (ts : ℝ) (hts : 0 < ts) :
    (((fbNew M (adaptiveNew S ts inner)).setRate M 48000).shape).smoothing ≠ ((adaptive S).setRate (adaptiveNew S ts inner) 48000 : AdaptiveSt S.σ).smoothing := by
  show (0.5 : ℝ) ^ (1 / (ts * 44100)) ≠ (0.5 : ℝ) ^ (1 / (ts * 48000))
  refine ne_of_lt (Real.rpow_lt_rpow_of_exponent_gt (by norm_num) (by norm_num) ?_)
  exact one_div_lt_one_div_of_lt (by positivity) (by nlinarith)

/-! ## Bank -/

/-- The coefficients of lane `l`. -/
def BankSt.lane {K : Type} {n : Nat} (s : BankSt K n) (l : Fin n) : BiquadCoefs K := ⟨s.a1 l, s.a2 l, s.b0 l, s.b1 l, s.b2 l⟩

/-- The signal state of lane `l`. -/
def BankSt.sig {K : Type} {n : Nat} (s : BankSt K n) (l : Fin n) : BiquadSt K := ⟨s.x1 l, s.x2 l, s.y1 l, s.y2 l⟩

section bank
variable {K : Type} [Field K] {n : Nat}

/-- **C78** A bank is a stack of independent biquads: each channel is the output of a biquad with its coefficients, started from its
state, on its input channel alone. -/
theorem C78_independent (s : BankSt K n) (w : Nat → Frame K n) (l : Fin n) (k : Nat) :
    (bankNode n).stream s w k l = (biquadNode (s.lane l)).stream (s.sig l) (fun j _ => w j l) k 0 := by
  have hst : ∀ k, BankSt.lane ((bankNode n).ticks.st s w k) l = s.lane l ∧
      BankSt.sig ((bankNode n).ticks.st s w k) l = (biquadNode (s.lane l)).ticks.st (s.sig l) (fun j _ => w j l) k := by
    intro k
    induction k with
    | zero => exact ⟨rfl, rfl⟩
    | succ k ih =>
      refine ⟨ih.1, ?_⟩
      show BankSt.sig (bankTick ((bankNode n).ticks.st s w k) (w k)).1 l
        = (biquadTick (s.lane l) ((biquadNode (s.lane l)).ticks.st (s.sig l) (fun j _ => w j l) k) (w k l)).1
      rw [← ih.2, ← ih.1]
      rfl
  show (bankTick ((bankNode n).ticks.st s w k) (w k)).2 l
    = (biquadTick (s.lane l) ((biquadNode (s.lane l)).ticks.st (s.sig l) (fun j _ => w j l) k) (w k l)).2
  rw [← (hst k).2, ← (hst k).1]
  rfl

/-- **C78** A setting for a lane of the bank is accepted, gives that lane the coefficients, and changes nothing else: neither the other lanes
nor any signal state. A setting beyond the lanes is the panic. -/
theorem C78_set (s : BankSt K n) (i : Nat) (c : BiquadCoefs K) :
    (∀ h : i < n, ∃ t, s.set i c = some t ∧ t.lane ⟨i, h⟩ = c ∧ (∀ l, l ≠ ⟨i, h⟩ → t.lane l = s.lane l) ∧ ∀ l, t.sig l = s.sig l) ∧
    (n ≤ i → s.set i c = none) := by
  constructor
  · intro h
    refine ⟨_, dif_pos h, ?_, ?_, fun l => rfl⟩
    · simp [BankSt.lane]
    · intro l hl
      simp [BankSt.lane, Function.update_of_ne hl]
  · intro h
    exact dif_neg (by omega)

/-- **C78** Block processing and reset: from any coefficients. -/
theorem C78_reset (s : BankSt K n) (hs : ∀ l, s.sig l = ⟨0, 0, 0, 0⟩) : ResetFresh (bankNode n) s := by
  refine resetFresh_ofTick_eq (fun t : BankSt K n => t.lane = s.lane) rfl (fun t x h => h) (fun t h => ?_)
  obtain ⟨a1, a2, b0, b1, b2, x1, x2, y1, y2⟩ := s
  obtain ⟨a1', a2', b0', b1', b2', x1', x2', y1', y2'⟩ := t
  have e : ∀ l, a1' l = a1 l ∧ a2' l = a2 l ∧ b0' l = b0 l ∧ b1' l = b1 l ∧ b2' l = b2 l := fun l => by
    have := congrFun h l; simpa [BankSt.lane] using this
  have e' : ∀ l, x1 l = 0 ∧ x2 l = 0 ∧ y1 l = 0 ∧ y2 l = 0 := fun l => by
    have := hs l; simpa [BankSt.sig] using this
  simp only [BankSt.mk.injEq]
  exact ⟨funext fun l => (e l).1, funext fun l => (e l).2.1, funext fun l => (e l).2.2.1, funext fun l => (e l).2.2.2.1, funext fun l => (e l).2.2.2.2,
    funext fun l => (e' l).1.symm, funext fun l => (e' l).2.1.symm, funext fun l => (e' l).2.2.1.symm, funext fun l => (e' l).2.2.2.symm⟩

end bank

/-- A bank of eight channels with different coefficients set. -/
example : ∃ t u, (bankNew 8 : BankSt ℝ 8).set 2 ⟨0, 0, 1, 0, 0⟩ = some t ∧ t.set 7 ⟨1, 2, 3, 4, 5⟩ = some u ∧ u.lane 2 = ⟨0, 0, 1, 0, 0⟩ := by
  obtain ⟨t, h1, h2, _⟩ := (C78_set (bankNew 8 : BankSt ℝ 8) 2 ⟨0, 0, 1, 0, 0⟩).1 (by omega)
  obtain ⟨u, g1, _, g3, _⟩ := (C78_set t 7 ⟨1, 2, 3, 4, 5⟩).1 (by omega)
  exact ⟨t, u, h1, g1, (g3 2 (by decide)).trans h2⟩

end Fundsp.Filter
