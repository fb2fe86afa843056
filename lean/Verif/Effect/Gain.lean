import Verif.Effect.Model
import Verif.Delay.FeedbackProps
import Verif.Filter.Fir
import Verif.Core.ResetProps
import Mathlib.Algebra.Order.BigOperators.Ring.Finset
import Mathlib.Algebra.Order.Chebyshev
import Mathlib.Topology.Algebra.Monoid
import Mathlib.Topology.Order.Basic
import Mathlib.Topology.Instances.Real.Lemmas
import Mathlib.Algebra.Order.Field.GeomSum
import Mathlib.Logic.Equiv.Fin.Basic
import Mathlib.Tactic.LinearCombination
import Mathlib.Tactic.Linarith
import Mathlib.Tactic.Positivity
import Mathlib.Tactic.FieldSimp
import Mathlib.Tactic.Ring

/-! Energy of signals: lemmas for C83. -/

noncomputable section
namespace Fundsp.Effect
open Fundsp.Delay Fundsp.Filter Fundsp.Pan Finset

/-- Energy of a frame. -/
def en {n : Nat} (f : Frame ℝ n) : ℝ := ∑ c, f c ^ 2

theorem en_nonneg {n : Nat} (f : Frame ℝ n) : 0 ≤ en f := Finset.sum_nonneg fun _ _ => sq_nonneg _

theorem past_sum (u : Nat → ℝ) (e a n : Nat) : ∑ k ∈ Ico a n, pastInput 0 u k e ^ 2 ≤ ∑ k ∈ Ico (a - e) n, u k ^ 2 := by
  have h1 : ∑ k ∈ Ico a n, pastInput 0 u k e ^ 2 = ∑ k ∈ (Ico a n).filter (fun k => e ≤ k), u (k - e) ^ 2 := by
    rw [Finset.sum_filter]
    refine Finset.sum_congr rfl fun k _ => ?_
    unfold pastInput
    split <;> simp
  have h2 : ∑ k ∈ (Ico a n).filter (fun k => e ≤ k), u (k - e) ^ 2 = ∑ j ∈ ((Ico a n).filter (fun k => e ≤ k)).image (fun k => k - e), u j ^ 2 := by
    rw [Finset.sum_image]
    intro x hx y hy hxy
    simp only [Finset.coe_filter, Finset.mem_Ico, Set.mem_ofPred_eq] at hx hy hxy
    omega
  rw [h1, h2]
  refine Finset.sum_le_sum_of_subset_of_nonneg ?_ (fun _ _ _ => sq_nonneg _)
  intro j hj
  simp only [Finset.mem_image, Finset.mem_filter, Finset.mem_Ico] at hj ⊢
  omega

/-- A weighted sum of delayed copies of a signal. -/
theorem conv_sum {N : Nat} (w : Fin N → ℝ) {a : ℝ} (hw : ∑ i, |w i| ≤ a) (e : Fin N → Nat) (D : Nat) (he : ∀ i, e i ≤ D) (u : Nat → ℝ) (m n : Nat) :
    ∑ k ∈ Ico (m + D) n, (∑ i, w i * pastInput 0 u k (e i)) ^ 2 ≤ a ^ 2 * ∑ k ∈ Ico m n, u k ^ 2 ∧
    ∑ k ∈ Ico 0 n, (∑ i, w i * pastInput 0 u k (e i)) ^ 2 ≤ a ^ 2 * ∑ k ∈ Ico 0 n, u k ^ 2 := by
  have hw0 : 0 ≤ ∑ i, |w i| := Finset.sum_nonneg fun _ _ => abs_nonneg _
  have ha : 0 ≤ a := hw0.trans hw
  have point : ∀ k, (∑ i, w i * pastInput 0 u k (e i)) ^ 2 ≤ a * ∑ i, |w i| * pastInput 0 u k (e i) ^ 2 := by
    intro k
    have h := Finset.sum_mul_sq_le_sq_mul_sq Finset.univ (fun i => Real.sqrt |w i|) (fun i => Real.sqrt |w i| * |pastInput 0 u k (e i)|)
    have e1 : ∀ i, Real.sqrt |w i| * (Real.sqrt |w i| * |pastInput 0 u k (e i)|) = |w i * pastInput 0 u k (e i)| := by
      intro i; rw [← mul_assoc, Real.mul_self_sqrt (abs_nonneg _), abs_mul]
    have e2 : ∀ i, Real.sqrt |w i| ^ 2 = |w i| := fun i => Real.sq_sqrt (abs_nonneg _)
    have e3 : ∀ i, (Real.sqrt |w i| * |pastInput 0 u k (e i)|) ^ 2 = |w i| * pastInput 0 u k (e i) ^ 2 := by
      intro i; rw [mul_pow, Real.sq_sqrt (abs_nonneg _), sq_abs]
    simp only [e1, e2, e3] at h
    have h3 : (∑ i, w i * pastInput 0 u k (e i)) ^ 2 ≤ (∑ i, |w i * pastInput 0 u k (e i)|) ^ 2 := by
      rw [← sq_abs]
      exact pow_le_pow_left₀ (abs_nonneg _) (Finset.abs_sum_le_sum_abs _ _) 2
    have h4 : 0 ≤ ∑ i, |w i| * pastInput 0 u k (e i) ^ 2 := Finset.sum_nonneg fun _ _ => mul_nonneg (abs_nonneg _) (sq_nonneg _)
    calc _ ≤ _ := h3
      _ ≤ _ := h
      _ ≤ _ := mul_le_mul_of_nonneg_right hw h4
  have total : ∀ (S : Finset Nat) (B : ℝ), 0 ≤ B → (∀ i, ∑ k ∈ S, pastInput 0 u k (e i) ^ 2 ≤ B) →
      ∑ k ∈ S, (∑ i, w i * pastInput 0 u k (e i)) ^ 2 ≤ a ^ 2 * B := by
    intro S B hB hS
    calc _ ≤ ∑ k ∈ S, a * ∑ i, |w i| * pastInput 0 u k (e i) ^ 2 := Finset.sum_le_sum fun k _ => point k
      _ = a * ∑ i, |w i| * ∑ k ∈ S, pastInput 0 u k (e i) ^ 2 := by
        rw [← Finset.mul_sum, Finset.sum_comm]
        simp only [Finset.mul_sum]
      _ ≤ a * ∑ i, |w i| * B := by
        refine mul_le_mul_of_nonneg_left (Finset.sum_le_sum fun i _ => mul_le_mul_of_nonneg_left (hS i) (abs_nonneg _)) ha
      _ = a * ((∑ i, |w i|) * B) := by rw [Finset.sum_mul]
      _ ≤ a * (a * B) := mul_le_mul_of_nonneg_left (mul_le_mul_of_nonneg_right hw hB) ha
      _ = a ^ 2 * B := by ring
  refine ⟨total _ _ (Finset.sum_nonneg fun _ _ => sq_nonneg _) fun i => ?_, total _ _ (Finset.sum_nonneg fun _ _ => sq_nonneg _) fun i => ?_⟩
  · refine (past_sum u (e i) (m + D) n).trans (Finset.sum_le_sum_of_subset_of_nonneg ?_ fun _ _ _ => sq_nonneg _)
    exact Finset.Ico_subset_Ico_left (by have := he i; omega)
  · refine (past_sum u (e i) 0 n).trans ?_
    rw [Nat.zero_sub]

/-! ## One line -/

theorem past_delayed (u : Nat → ℝ) (d n e : Nat) : pastInput 0 (delayed 0 d u) n e = pastInput 0 u n (d + e) := by
  unfold pastInput delayed
  by_cases h : e ≤ n
  · by_cases h2 : d ≤ n - e
    · rw [if_pos h, if_pos h2, if_pos (by omega)]; congr 1; omega
    · rw [if_pos h, if_neg h2, if_neg (by omega)]
  · rw [if_neg h, if_neg (by omega)]

theorem line_out (d : Nat) (hd : d + 1 < 2 ^ 64) (w : Frame ℝ 3) (u : Nat → Frame ℝ 1) (k : Nat) :
    (lineNode w).ticks.out (lineNew d w) u k 0 = ∑ i : Fin 3, w i * pastInput 0 (fun j => u j 0) k (d + (3 - 1 - i.1)) := by
  have h := pipe_out (delayNode (0 : ℝ)) (firNode 0 (· + ·) (· * ·) w) (delaySetup 0 d) (fun _ => 0) u k
  have h2 := C43_convolution (0 : ℝ) (· + ·) (· * ·) w (fun _ => 0) ((delayNode (0 : ℝ)).stream (delaySetup 0 d) u) k
  rw [foldl_finSum] at h2
  refine (congrFun h 0).trans (h2.trans (Finset.sum_congr rfl fun i _ => ?_))
  congr 1
  rw [← past_delayed]
  congr 1
  funext j
  exact C35_delay (0 : ℝ) d hd u j

theorem line_energy (d : Nat) (hd : d + 1 < 2 ^ 64) (w : Frame ℝ 3) {a : ℝ} (hw : ∑ i, |w i| ≤ a) (u : Nat → Frame ℝ 1) (D : Nat) (hD : d + 2 ≤ D) (m n : Nat) :
    ∑ k ∈ Ico (m + D) n, (lineNode w).ticks.out (lineNew d w) u k 0 ^ 2 ≤ a ^ 2 * ∑ k ∈ Ico m n, u k 0 ^ 2 ∧
    ∑ k ∈ Ico 0 n, (lineNode w).ticks.out (lineNew d w) u k 0 ^ 2 ≤ a ^ 2 * ∑ k ∈ Ico 0 n, u k 0 ^ 2 := by
  simp only [line_out d hd]
  exact conv_sum w hw (fun i => d + (3 - 1 - i.1)) D (fun i => by have := i.2; omega) (fun j => u j 0) m n

/-! ## The network -/

theorem en_hadFrame {p n : Nat} (hn : n = 2 ^ p) (f : Frame ℝ n) : en (hadFrame p f) = en f := by
  subst hn
  unfold en hadFrame
  have h := C39_energy p (fun k => if h : k < 2 ^ p then f ⟨k, h⟩ else 0)
  rw [Finset.sum_range, Finset.sum_range] at h
  rw [h]
  refine Finset.sum_congr rfl fun c _ => ?_
  rw [dif_pos c.2]

/-- Input of the lines: the input of the network and the mixed output of the previous sample. -/
def fed (p : Nat) {n : Nat} (w y : Nat → Frame ℝ n) (k : Nat) : Frame ℝ n := fun c => w k c + delayed (fun _ => 0) 1 (fun i => hadFrame p (y i)) k c

theorem fdn_out (p n : Nat) (w : Frame ℝ 3) (d : Fin n → Nat) (x : Nat → Frame ℝ (1 * n)) (k : Nat) (c : Fin (1 * n)) :
    (fdn p n (lineNode w)).stream (fdnNew p n w d) x k c
      = (lineNode w).ticks.out (lineNew (d (nodeOf c)) w)
          (fun j => (fed p x ((fdn p n (lineNode w)).stream (fdnNew p n w d) x) j).slice (nodeOf c)) k 0 := by
  have hr : (fdn p n (lineNode w)).reset (fdnNew p n w d) = fdnNew p n w d := by
    show ((fun i => ((delaySetup (0 : ℝ) (d i)).reset 0, fun _ => (0 : ℝ))), fun _ => (0 : ℝ)) = _
    unfold fdnNew lineNew
    congr 1
    funext i
    congr 1
    simp [delaySetup, Line.reset]
  have h := C38_feedback (0 : ℝ) (· + ·) (hadFrame p) (multiStack n (lineNode w)) (fdnNew p n w d) x k
  have hr2 : (multiStack n (lineNode w)).reset (fdnNew p n w d).1 = (fdnNew p n w d).1 := congrArg Prod.fst hr
  have e : (feedbackNode (0 : ℝ) (· + ·) (hadFrame p) (multiStack n (lineNode w))).reset (fdnNew p n w d) = fdnNew p n w d := hr
  rw [e, hr2] at h
  refine (congrFun h c).trans ?_
  refine (congrFun (multiStack_out n (lineNode w) _ _ k) c).trans ?_
  have hc : chanOf c = 0 := Fin.eq_zero _
  rw [hc]
  rfl

theorem slice_one {n : Nat} (f : Frame ℝ (1 * n)) (c : Fin (1 * n)) : f.slice (nodeOf c) 0 = f c := by
  show f _ = f c
  congr 1
  apply Fin.ext
  simp [multiIdx, nodeOf]

theorem sum_en {n : Nat} (S : Finset Nat) (f : Nat → Frame ℝ n) : ∑ k ∈ S, en (f k) = ∑ c, ∑ k ∈ S, f k c ^ 2 := by
  unfold en; exact Finset.sum_comm

theorem fdn_step (p n : Nat) (w : Frame ℝ 3) {a : ℝ} (hw : ∑ i, |w i| ≤ a) (d : Fin n → Nat) (D : Nat) (hd : ∀ i, d i + 2 ≤ D) (hD : D < 2 ^ 64)
    (x : Nat → Frame ℝ (1 * n)) (m N : Nat) :
    ∑ k ∈ Ico (m + D) N, en ((fdn p n (lineNode w)).stream (fdnNew p n w d) x k)
        ≤ a ^ 2 * ∑ k ∈ Ico m N, en (fed p x ((fdn p n (lineNode w)).stream (fdnNew p n w d) x) k) ∧
    ∑ k ∈ Ico 0 N, en ((fdn p n (lineNode w)).stream (fdnNew p n w d) x k)
        ≤ a ^ 2 * ∑ k ∈ Ico 0 N, en (fed p x ((fdn p n (lineNode w)).stream (fdnNew p n w d) x) k) := by
  rw [sum_en, sum_en, sum_en, sum_en, Finset.mul_sum, Finset.mul_sum]
  simp only [fdn_out p n w d x]
  have L := fun (c : Fin (1 * n)) => line_energy (d (nodeOf c)) (by have := hd (nodeOf c); omega) w hw
    (fun j => (fed p x ((fdn p n (lineNode w)).stream (fdnNew p n w d) x) j).slice (nodeOf c)) D (hd _) m N
  simp only [slice_one] at L
  exact ⟨Finset.sum_le_sum fun c _ => (L c).1, Finset.sum_le_sum fun c _ => (L c).2⟩

theorem en_fed_silent {p n : Nat} (hn : n = 2 ^ p) (x y : Nat → Frame ℝ n) (k : Nat) (hx : x (k + 1) = fun _ => 0) : en (fed p x y (k + 1)) = en (y k) := by
  rw [← en_hadFrame hn (y k)]
  unfold en fed
  refine Finset.sum_congr rfl fun c _ => ?_
  rw [hx]
  simp [delayed]

theorem en_fed {p n : Nat} (hn : n = 2 ^ p) {a : ℝ} (h0 : 0 < a) (h1 : a < 1) (x y : Nat → Frame ℝ n) (k : Nat) :
    a ^ 2 * en (fed p x y k) ≤ a * (if k = 0 then 0 else en (y (k - 1))) + a ^ 2 / (1 - a) * en (x k) := by
  have h2 : 0 < 1 - a := by linarith
  have key : ∀ u v : ℝ, a ^ 2 * (u + v) ^ 2 ≤ a * v ^ 2 + a ^ 2 / (1 - a) * u ^ 2 := by
    intro u v
    rw [div_mul_eq_mul_div, ← sub_nonneg]
    have : a * v ^ 2 + a ^ 2 * u ^ 2 / (1 - a) - a ^ 2 * (u + v) ^ 2 = a * (a * u - (1 - a) * v) ^ 2 / (1 - a) := by
      field_simp; ring
    rw [this]
    positivity
  cases k with
  | zero =>
    have e : en (fed p x y 0) = en (x 0) := by
      unfold en fed
      refine Finset.sum_congr rfl fun c _ => ?_
      simp [delayed]
    rw [e, if_pos rfl, mul_zero, zero_add]
    refine mul_le_mul_of_nonneg_right ?_ (en_nonneg _)
    rw [le_div_iff₀ h2]
    nlinarith [sq_nonneg a]
  | succ k =>
    rw [if_neg (Nat.succ_ne_zero k), Nat.add_sub_cancel, ← en_hadFrame hn (y k)]
    unfold en
    rw [Finset.mul_sum, Finset.mul_sum, Finset.mul_sum, ← Finset.sum_add_distrib]
    refine Finset.sum_le_sum fun c _ => ?_
    have : fed p x y (k + 1) c = x (k + 1) c + hadFrame p (y k) c := by simp [fed, delayed]
    rw [this]
    exact key _ _

theorem shift_sum (f : Nat → ℝ) (hf : ∀ k, 0 ≤ f k) (N : Nat) : ∑ k ∈ Ico 0 N, (if k = 0 then 0 else f (k - 1)) ≤ ∑ k ∈ Ico 0 N, f k := by
  simp only [← Finset.range_eq_Ico]
  induction N with
  | zero => simp
  | succ N _ =>
    rw [Finset.sum_range_succ']
    simp only [Nat.succ_ne_zero, if_false, Nat.add_sub_cancel, if_true, add_zero]
    rw [Finset.sum_range_succ]
    linarith [hf N]

/-- Energy gain of the network. -/
theorem fdn_gain {p n : Nat} (hn : n = 2 ^ p) (w : Frame ℝ 3) {a : ℝ} (h0 : 0 < a) (h1 : a < 1) (hw : ∑ i, |w i| ≤ a) (d : Fin n → Nat) (D : Nat)
    (hd : ∀ i, d i + 2 ≤ D) (hD : D < 2 ^ 64) (x : Nat → Frame ℝ (1 * n)) (N : Nat) :
    ∑ k ∈ Ico 0 N, en ((fdn p n (lineNode w)).stream (fdnNew p n w d) x k) ≤ (a / (1 - a)) ^ 2 * ∑ k ∈ Ico 0 N, en (x k) := by
  have h2 : 0 < 1 - a := by linarith
  obtain ⟨y, hy⟩ : ∃ y, y = (fdn p n (lineNode w)).stream (fdnNew p n w d) x := ⟨_, rfl⟩
  have hs := (fdn_step p n w hw d D hd hD x 0 N).2
  rw [← hy] at hs ⊢
  have hn' : 1 * n = 2 ^ p := by omega
  have h3 : a ^ 2 * ∑ k ∈ Ico 0 N, en (fed p x y k) ≤ a * ∑ k ∈ Ico 0 N, en (y k) + a ^ 2 / (1 - a) * ∑ k ∈ Ico 0 N, en (x k) := by
    rw [Finset.mul_sum]
    calc _ ≤ ∑ k ∈ Ico 0 N, (a * (if k = 0 then 0 else en (y (k - 1))) + a ^ 2 / (1 - a) * en (x k)) := Finset.sum_le_sum fun k _ => en_fed hn' h0 h1 x y k
      _ = a * ∑ k ∈ Ico 0 N, (if k = 0 then 0 else en (y (k - 1))) + a ^ 2 / (1 - a) * ∑ k ∈ Ico 0 N, en (x k) := by
        rw [Finset.sum_add_distrib, ← Finset.mul_sum, ← Finset.mul_sum]
      _ ≤ _ := by
        have := mul_le_mul_of_nonneg_left (shift_sum (fun k => en (y k)) (fun k => en_nonneg _) N) h0.le
        linarith
  have h4 : (1 - a) * ∑ k ∈ Ico 0 N, en (y k) ≤ a ^ 2 / (1 - a) * ∑ k ∈ Ico 0 N, en (x k) := by linarith
  rw [div_pow, div_mul_eq_mul_div, le_div_iff₀ (by positivity)]
  rw [div_mul_eq_mul_div, le_div_iff₀ h2] at h4
  nlinarith

/-- After the input has ended, every `D + 1` samples take a factor of `a ^ 2` from the remaining energy. -/
theorem fdn_decay {p n : Nat} (hn : n = 2 ^ p) (w : Frame ℝ 3) {a : ℝ} (hw : ∑ i, |w i| ≤ a) (d : Fin n → Nat) (D : Nat)
    (hd : ∀ i, d i + 2 ≤ D) (hD : D < 2 ^ 64) (x : Nat → Frame ℝ (1 * n)) (K : Nat) (hK : ∀ k, K ≤ k → x k = fun _ => 0) (m N : Nat) :
    ∑ k ∈ Ico (K + m * (D + 1)) N, en ((fdn p n (lineNode w)).stream (fdnNew p n w d) x k)
      ≤ (a ^ 2) ^ m * ∑ k ∈ Ico K N, en ((fdn p n (lineNode w)).stream (fdnNew p n w d) x k) := by
  have hn' : 1 * n = 2 ^ p := by omega
  induction m with
  | zero => simp
  | succ m ih =>
    obtain ⟨y, hy⟩ : ∃ y, y = (fdn p n (lineNode w)).stream (fdnNew p n w d) x := ⟨_, rfl⟩
    have hs := (fdn_step p n w hw d D hd hD x (K + m * (D + 1) + 1) N).1
    rw [← hy] at hs ih ⊢
    have e : ∑ k ∈ Ico (K + m * (D + 1) + 1) N, en (fed p x y k) ≤ ∑ k ∈ Ico (K + m * (D + 1)) N, en (y k) := by
      have e1 : ∑ k ∈ Ico (K + m * (D + 1) + 1) N, en (fed p x y k) = ∑ k ∈ Ico (K + m * (D + 1)) (N - 1), en (y k) := by
        by_cases hN : N = 0
        · subst hN; simp
        · obtain ⟨M, rfl⟩ := Nat.exists_eq_succ_of_ne_zero hN
          rw [Nat.succ_sub_one, Nat.succ_eq_add_one, ← Finset.sum_Ico_add']
          refine Finset.sum_congr rfl fun k hk => ?_
          rw [Finset.mem_Ico] at hk
          refine en_fed_silent hn' x y k (hK _ ?_)
          have := Nat.zero_le (m * (D + 1))
          omega
      rw [e1]
      exact Finset.sum_le_sum_of_subset_of_nonneg (Finset.Ico_subset_Ico_right (by omega)) fun _ _ _ => en_nonneg _
    have e2 : K + (m + 1) * (D + 1) = K + m * (D + 1) + 1 + D := by ring
    rw [e2, pow_succ, mul_comm ((a ^ 2) ^ m), mul_assoc]
    exact hs.trans (mul_le_mul_of_nonneg_left (e.trans ih) (sq_nonneg a))

/-! ## Peaks -/

theorem past_scale (u : Nat → ℝ) (z : ℝ) (k e : Nat) : z ^ k * pastInput 0 u k e = z ^ e * pastInput 0 (fun j => z ^ j * u j) k e := by
  unfold pastInput
  by_cases h : e ≤ k
  · rw [if_pos h, if_pos h, ← mul_assoc, ← pow_add, Nat.add_sub_cancel' h]
  · rw [if_neg h, if_neg h, mul_zero, mul_zero]

theorem en_smul {n : Nat} (z : ℝ) (f : Frame ℝ n) : en (fun c => z * f c) = z ^ 2 * en f := by
  unfold en
  rw [Finset.mul_sum]
  exact Finset.sum_congr rfl fun c _ => by ring

/-- A loop of weighted sums of delayed signals and a mix that does not increase energy. -/
theorem loop_gain {n : Nat} (x v y : Nat → Frame ℝ n) (w : Fin n → Fin 3 → ℝ) (e : Fin n → Fin 3 → Nat) {a : ℝ} (h0 : 0 < a) (h1 : a < 1)
    (hw : ∀ c, ∑ i, |w c i| ≤ a) (hy : ∀ k c, y k c = ∑ i, w c i * pastInput 0 (fun j => x j c + v j c) k (e c i))
    (hv0 : v 0 = fun _ => 0) (hv : ∀ k, en (v (k + 1)) ≤ en (y k)) (N : Nat) :
    ∑ k ∈ Ico 0 N, en (y k) ≤ (a / (1 - a)) ^ 2 * ∑ k ∈ Ico 0 N, en (x k) := by
  have h2 : 0 < 1 - a := by linarith
  have key : ∀ u v : ℝ, a ^ 2 * (u + v) ^ 2 ≤ a * v ^ 2 + a ^ 2 / (1 - a) * u ^ 2 := by
    intro u v
    rw [div_mul_eq_mul_div, ← sub_nonneg]
    have : a * v ^ 2 + a ^ 2 * u ^ 2 / (1 - a) - a ^ 2 * (u + v) ^ 2 = a * (a * u - (1 - a) * v) ^ 2 / (1 - a) := by
      field_simp; ring
    rw [this]
    positivity
  have hs : ∑ k ∈ Ico 0 N, en (y k) ≤ a ^ 2 * ∑ k ∈ Ico 0 N, en (fun c => x k c + v k c) := by
    rw [sum_en, sum_en, Finset.mul_sum]
    refine Finset.sum_le_sum fun c _ => ?_
    simp only [hy]
    exact (conv_sum (w c) (hw c) (e c) (∑ i, e c i) (fun i => Finset.single_le_sum (fun _ _ => Nat.zero_le _) (Finset.mem_univ i)) (fun j => x j c + v j c) 0 N).2
  have hv' : ∑ k ∈ Ico 0 N, en (v k) ≤ ∑ k ∈ Ico 0 N, en (y k) := by
    refine le_trans (Finset.sum_le_sum fun k _ => ?_) (shift_sum (fun k => en (y k)) (fun k => en_nonneg _) N)
    cases k with
    | zero => rw [if_pos rfl, hv0]; simp [en]
    | succ k => rw [if_neg (Nat.succ_ne_zero k), Nat.add_sub_cancel]; exact hv k
  have h3 : a ^ 2 * ∑ k ∈ Ico 0 N, en (fun c => x k c + v k c) ≤ a * ∑ k ∈ Ico 0 N, en (v k) + a ^ 2 / (1 - a) * ∑ k ∈ Ico 0 N, en (x k) := by
    rw [Finset.mul_sum, Finset.mul_sum, Finset.mul_sum, ← Finset.sum_add_distrib]
    refine Finset.sum_le_sum fun k _ => ?_
    unfold en
    rw [Finset.mul_sum, Finset.mul_sum, Finset.mul_sum, ← Finset.sum_add_distrib]
    exact Finset.sum_le_sum fun c _ => key _ _
  have h5 := mul_le_mul_of_nonneg_left hv' h0.le
  have h4 : (1 - a) * ∑ k ∈ Ico 0 N, en (y k) ≤ a ^ 2 / (1 - a) * ∑ k ∈ Ico 0 N, en (x k) := by linarith
  rw [div_pow, div_mul_eq_mul_div, le_div_iff₀ (by positivity)]
  rw [div_mul_eq_mul_div, le_div_iff₀ h2] at h4
  nlinarith

/-- A bounded input makes a bounded output. -/
theorem fdn_peak {p n : Nat} (hn : n = 2 ^ p) (w : Frame ℝ 3) {a : ℝ} (h0 : 0 < a) (h1 : a < 1) (hw : ∑ i, |w i| ≤ a) (d : Fin n → Nat) (D : Nat)
    (hd : ∀ i, d i + 2 ≤ D) (hD : D < 2 ^ 64) :
    ∃ C : ℝ, 0 ≤ C ∧ ∀ (x : Nat → Frame ℝ (1 * n)) (M : ℝ), (∀ k, en (x k) ≤ M) → ∀ k, en ((fdn p n (lineNode w)).stream (fdnNew p n w d) x k) ≤ C * M := by
  have hn' : 1 * n = 2 ^ p := by omega
  -- a weight close to one
  obtain ⟨z, hz1, hz⟩ : ∃ z : ℝ, 1 < z ∧ a * z ^ (D + 1) < 1 := by
    have hc : Filter.Tendsto (fun z : ℝ => a * z ^ (D + 1)) (nhdsWithin 1 (Set.Ioi 1)) (nhds (a * 1 ^ (D + 1))) :=
      ((continuous_const.mul (continuous_pow _)).tendsto 1).mono_left nhdsWithin_le_nhds
    have h := (hc.eventually_lt_const (u := 1) (by simpa using h1)).and (self_mem_nhdsWithin (a := (1 : ℝ)) (s := Set.Ioi 1))
    obtain ⟨z, h2, h3⟩ := h.exists
    exact ⟨z, h3, h2⟩
  have hz0 : 0 < z := by linarith
  have ha' : 0 < a * z ^ (D + 1) := by positivity
  have hz2 : 0 < z ^ 2 - 1 := by nlinarith
  refine ⟨(a * z ^ (D + 1) / (1 - a * z ^ (D + 1))) ^ 2 / (z ^ 2 - 1), by positivity, fun x M hM k => ?_⟩
  obtain ⟨y, hy⟩ : ∃ y, y = (fdn p n (lineNode w)).stream (fdnNew p n w d) x := ⟨_, rfl⟩
  have hout : ∀ k c, y k c = ∑ i : Fin 3, w i * pastInput 0 (fun j => fed p x y j c) k (d (nodeOf c) + (3 - 1 - i.1)) := by
    intro k c
    have h := fdn_out p n w d x k c
    rw [line_out _ (by have := hd (nodeOf c); omega)] at h
    rw [← hy] at h
    simpa only [slice_one] using h
  rw [← hy]
  have L := loop_gain (fun k c => z ^ k * x k c) (fun k c => z ^ k * delayed (fun _ => 0) 1 (fun i => hadFrame p (y i)) k c) (fun k c => z ^ (k + 1) * y k c)
    (fun c i => w i * z ^ (d (nodeOf c) + (3 - 1 - i.1) + 1)) (fun c i => d (nodeOf c) + (3 - 1 - i.1)) ha' hz ?_ ?_ ?_ ?_ (k + 1)
  · simp only [en_smul, ← pow_mul] at L
    have h5 : z ^ ((k + 1) * 2) * en (y k) ≤ ∑ j ∈ Ico 0 (k + 1), z ^ ((j + 1) * 2) * en (y j) :=
      Finset.single_le_sum (f := fun j => z ^ ((j + 1) * 2) * en (y j)) (fun j _ => mul_nonneg (by positivity) (en_nonneg _)) (by simp)
    have h6 : (∑ j ∈ Ico 0 (k + 1), z ^ (j * 2) * en (x j)) * (z ^ 2 - 1) ≤ M * z ^ ((k + 1) * 2) := by
      have h7 : ∑ j ∈ Ico 0 (k + 1), z ^ (j * 2) * en (x j) ≤ (∑ j ∈ range (k + 1), (z ^ 2) ^ j) * M := by
        rw [← Finset.range_eq_Ico, Finset.sum_mul]
        refine Finset.sum_le_sum fun j _ => ?_
        rw [← pow_mul, mul_comm 2]
        exact mul_le_mul_of_nonneg_left (hM j) (by positivity)
      have hM0 : 0 ≤ M := (en_nonneg _).trans (hM 0)
      calc _ ≤ (∑ j ∈ range (k + 1), (z ^ 2) ^ j) * M * (z ^ 2 - 1) := mul_le_mul_of_nonneg_right h7 hz2.le
        _ = ((z ^ 2) ^ (k + 1) - 1) * M := by
          rw [← geom_sum_mul (z ^ 2) (k + 1)]; ring
        _ ≤ (z ^ 2) ^ (k + 1) * M := mul_le_mul_of_nonneg_right (by linarith) hM0
        _ = _ := by rw [← pow_mul, mul_comm 2, mul_comm]
    have hG : 0 ≤ (a * z ^ (D + 1) / (1 - a * z ^ (D + 1))) ^ 2 := sq_nonneg _
    have h8 : z ^ ((k + 1) * 2) * (en (y k) * (z ^ 2 - 1)) ≤ z ^ ((k + 1) * 2) * ((a * z ^ (D + 1) / (1 - a * z ^ (D + 1))) ^ 2 * M) := by
      have := mul_le_mul_of_nonneg_left h6 hG
      have := mul_le_mul_of_nonneg_right (h5.trans L) hz2.le
      nlinarith
    have h9 := le_of_mul_le_mul_left h8 (by positivity)
    rw [div_mul_eq_mul_div, le_div_iff₀ hz2]
    exact h9
  · intro c
    have hb : ∀ i : Fin 3, |w i * z ^ (d (nodeOf c) + (3 - 1 - i.1) + 1)| ≤ |w i| * z ^ (D + 1) := by
      intro i
      rw [abs_mul, abs_of_pos (pow_pos hz0 _)]
      refine mul_le_mul_of_nonneg_left (pow_le_pow_right₀ hz1.le ?_) (abs_nonneg _)
      have := hd (nodeOf c)
      omega
    refine (Finset.sum_le_sum fun i _ => hb i).trans ?_
    rw [← Finset.sum_mul]
    exact mul_le_mul_of_nonneg_right hw (by positivity)
  · intro k c
    have e1 : (fun j => z ^ j * x j c + z ^ j * delayed (fun _ => 0) 1 (fun i => hadFrame p (y i)) j c) = fun j => z ^ j * fed p x y j c := by
      funext j; rw [← mul_add]; rfl
    rw [e1, hout, Finset.mul_sum]
    refine Finset.sum_congr rfl fun i _ => ?_
    have := past_scale (fun j => fed p x y j c) z k (d (nodeOf c) + (3 - 1 - i.1))
    rw [pow_succ z (d (nodeOf c) + (3 - 1 - i.1)), pow_succ z k]
    linear_combination (z * w i) * this
  · funext c
    simp [delayed]
  · intro k
    have e1 : (fun c => z ^ (k + 1) * delayed (fun _ => 0) 1 (fun i => hadFrame p (y i)) (k + 1) c) = fun c => z ^ (k + 1) * hadFrame p (y k) c := by
      funext c; simp [delayed]
    show en (fun c => z ^ (k + 1) * delayed (fun _ => 0) 1 (fun i => hadFrame p (y i)) (k + 1) c) ≤ _
    rw [e1, en_smul, en_smul, en_hadFrame hn']

/-! ## The other stages -/

theorem en_multiSplit (m n : Nat) (x : Nat → Frame ℝ m) (k : Nat) : en ((multiSplit m n).stream () x k) = n * en (x k) := by
  have h : ∀ c : Fin m, ∀ i : Fin n, (multiSplit m n).stream () x k (finProdFinEquiv (c, i)) = (multiSplit m n).stream () x k (finProdFinEquiv (c, i)) := fun _ _ => rfl
  unfold en
  have e : ∀ j : Fin n × Fin m, (multiSplit m n).stream () x k (Fin.cast (Nat.mul_comm n m) (finProdFinEquiv j)) = x k j.2 := by
    intro j
    show x k ⟨_ % m, _⟩ = x k j.2
    congr 1
    apply Fin.ext
    simp [finProdFinEquiv, Nat.mod_eq_of_lt j.2.2]
  rw [← Equiv.sum_comp (finProdFinEquiv.trans (finCongr (Nat.mul_comm n m))), Fintype.sum_prod_type]
  simp only [Equiv.trans_apply, finCongr_apply, e]
  simp

theorem foldl_add_sum {n : Nat} (f : Fin n → ℝ) (x : ℝ) : Fin.foldl n (fun acc i => acc + f i) x = x + ∑ i, f i := by
  induction n with
  | zero => simp
  | succ n ih => rw [Fin.foldl_succ_last, ih (fun i => f i.castSucc), Fin.sum_univ_castSucc]; ring

theorem en_multiJoin (m n : Nat) (x : Nat → Frame ℝ (m * (n + 1))) (k : Nat) :
    en ((multiJoin m n (fieldAvg ℝ (n + 1))).stream () x k) ≤ 1 / ((n : ℝ) + 1) * en (x k) := by
  have e : ∀ j : Fin m, (multiJoin m n (fieldAvg ℝ (n + 1))).stream () x k j = (∑ i : Fin (n + 1), x k (multiIdx j i.1 i.2)) / ((n : ℝ) + 1) := by
    intro j
    have := foldl_add_sum (fun i : Fin n => x k (multiIdx j (i.1 + 1) (by omega))) (x k (multiIdx j 0 (by omega)))
    rw [Fin.sum_univ_succ]
    show Fin.foldl n _ _ / ((n + 1 : Nat) : ℝ) = _
    push_cast
    congr 1
  have hn : (0 : ℝ) < (n : ℝ) + 1 := by positivity
  have hs : en (x k) = ∑ j : Fin m, ∑ i : Fin (n + 1), x k (multiIdx j i.1 i.2) ^ 2 := by
    unfold en
    rw [← Equiv.sum_comp (finProdFinEquiv.trans (finCongr (Nat.mul_comm (n + 1) m))), Fintype.sum_prod_type, Finset.sum_comm]
    refine Finset.sum_congr rfl fun j _ => Finset.sum_congr rfl fun i _ => ?_
    congr 2
    apply Fin.ext
    simp [finProdFinEquiv, multiIdx, Nat.mul_comm]
  rw [hs, Finset.mul_sum]
  unfold en
  refine Finset.sum_le_sum fun j _ => ?_
  rw [e, div_pow, div_le_iff₀ (by positivity)]
  have := sq_sum_le_card_mul_sum_sq (s := Finset.univ) (f := fun i : Fin (n + 1) => x k (multiIdx j i.1 i.2))
  simp only [Finset.card_univ, Fintype.card_fin] at this
  push_cast at this
  refine this.trans (le_of_eq ?_)
  field_simp

theorem panner_st (s : PanSt) (x : Nat → Frame ℝ 1) (k : Nat) : panner1.ticks.st s x k = s := by
  induction k with
  | zero => rfl
  | succ k ih => exact ih

theorem panSum_out (n : Nat) (s : (panSum n).σ) (x : Nat → Frame ℝ (1 * (n + 1))) (k : Nat) :
    (panSum n).stream s x k 0 = ∑ i : Fin (n + 1), (s i).left * (x k).slice i 0 ∧ (panSum n).stream s x k 1 = ∑ i : Fin (n + 1), (s i).right * (x k).slice i 0 := by
  have h := reduce_out (· + ·) n panner1 s x k
  have hp : ∀ i : Fin (n + 1), ∀ c, panner1.ticks.out (s i) (fun k => (x k).slice i) k c = ![(s i).left * (x k).slice i 0, (s i).right * (x k).slice i 0] c := by
    intro i c
    have h := panner_st (s i) (fun k => (x k).slice i) k
    show (panner1.tick (panner1.ticks.st (s i) (fun k => (x k).slice i) k) ((x k).slice i)).2 c = _
    exact congrFun (congrArg (fun t => (panner1.tick t ((x k).slice i)).2) h) c
  have hf : ∀ c, (panSum n).stream s x k c = ∑ i : Fin (n + 1), panner1.ticks.out (s i) (fun k => (x k).slice i) k c := by
    intro c
    refine (congrFun h c).trans ?_
    rw [Fin.sum_univ_succ, ← foldl_add_sum]
    clear h hp
    induction n with
    | zero => rfl
    | succ n ih =>
      have g : ∀ (m : Nat) (f : Fin m → Fin 2 → ℝ) (y : Fin 2 → ℝ), Fin.foldl m (fun acc j c => acc c + f j c) y c = Fin.foldl m (fun acc j => acc + f j c) (y c) := by
        intro m f y
        induction m with
        | zero => simp
        | succ m ih => rw [Fin.foldl_succ_last, Fin.foldl_succ_last, ih (fun j => f j.castSucc)]
      exact g _ (fun j c => panner1.ticks.out (s j.succ) (fun k => (x k).slice j.succ) k c) _
  refine ⟨(hf 0).trans (Finset.sum_congr rfl fun i _ => hp i 0), (hf 1).trans (Finset.sum_congr rfl fun i _ => hp i 1)⟩

theorem ofPan_sq (v : ℝ) : (PanSt.ofPan v).left ^ 2 + (PanSt.ofPan v).right ^ 2 = 1 := Real.cos_sq_add_sin_sq _

theorem panBinop_out (n : Nat) (q : ℝ) (x : Nat → Frame ℝ (1 * (n + 1))) (k : Nat) :
    (binop (i := 1 * (n + 1)) (j := 0) (· * ·) (panSum n) (constant 2)).stream (panSumNew n, fun _ => q) x k 0
      = (∑ i : Fin (n + 1), (panSumNew n i : PanSt).left * (x k).slice i 0) * q ∧
    (binop (i := 1 * (n + 1)) (j := 0) (· * ·) (panSum n) (constant 2)).stream (panSumNew n, fun _ => q) x k 1
      = (∑ i : Fin (n + 1), (panSumNew n i : PanSt).right * (x k).slice i 0) * q := by
  have hb := binop_out (i := 1 * (n + 1)) (j := 0) (· * ·) (panSum n) (constant 2) (panSumNew n) (fun _ => q) x k
  have hc : ∀ (w : Nat → Frame ℝ 0) (k : Nat), (constant 2).ticks.st (fun _ => q : Frame ℝ 2) w k = (fun _ => q : Frame ℝ 2) := by
    intro w k
    induction k with
    | zero => rfl
    | succ k ih => exact ih
  have hc2 : ∀ (w : Nat → Frame ℝ 0) (k : Nat) c, (constant 2).ticks.out (fun _ => q : Frame ℝ 2) w k c = q := fun w k c => congrFun (hc w k) c
  obtain ⟨h0, h1⟩ := panSum_out n (panSumNew n) x k
  exact ⟨(congrFun hb 0).trans (congrArg₂ (· * ·) h0 (hc2 _ _ _)), (congrFun hb 1).trans (congrArg₂ (· * ·) h1 (hc2 _ _ _))⟩

theorem en_panSum (n : Nat) (q : ℝ) (x : Nat → Frame ℝ (1 * (n + 1))) (k : Nat) :
    en ((binop (i := 1 * (n + 1)) (j := 0) (· * ·) (panSum n) (constant 2)).stream (panSumNew n, fun _ => q) x k) ≤ q ^ 2 * ((n : ℝ) + 1) * en (x k) := by
  obtain ⟨e0, e1⟩ := panBinop_out n q x k
  have hx : en (x k) = ∑ i : Fin (n + 1), (x k).slice i 0 ^ 2 := by
    unfold en
    rw [← Equiv.sum_comp (finCongr (Nat.one_mul (n + 1)).symm)]
    refine Finset.sum_congr rfl fun i _ => ?_
    congr 2
    apply Fin.ext
    simp [multiIdx]
  have c0 := Finset.sum_mul_sq_le_sq_mul_sq Finset.univ (fun i : Fin (n + 1) => (panSumNew n i : PanSt).left) (fun i => (x k).slice i 0)
  have c1 := Finset.sum_mul_sq_le_sq_mul_sq Finset.univ (fun i : Fin (n + 1) => (panSumNew n i : PanSt).right) (fun i => (x k).slice i 0)
  have hs : ∑ i : Fin (n + 1), (panSumNew n i : PanSt).left ^ 2 + ∑ i : Fin (n + 1), (panSumNew n i : PanSt).right ^ 2 = (n : ℝ) + 1 := by
    rw [← Finset.sum_add_distrib]
    have : ∀ i : Fin (n + 1), (panSumNew n i : PanSt).left ^ 2 + (panSumNew n i : PanSt).right ^ 2 = 1 := fun i => ofPan_sq _
    simp [this]
  rw [← hx] at c0 c1
  have e : en ((binop (i := 1 * (n + 1)) (j := 0) (· * ·) (panSum n) (constant 2)).stream (panSumNew n, fun _ => q) x k)
      = q ^ 2 * ((∑ i : Fin (n + 1), (panSumNew n i : PanSt).left * (x k).slice i 0) ^ 2 + (∑ i : Fin (n + 1), (panSumNew n i : PanSt).right * (x k).slice i 0) ^ 2) := by
    unfold en
    rw [Fin.sum_univ_two, e0, e1]
    ring
  rw [e, mul_assoc]
  refine mul_le_mul_of_nonneg_left ?_ (sq_nonneg q)
  rw [← hs, add_mul]
  exact add_le_add c0 c1

end Fundsp.Effect
