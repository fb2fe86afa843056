import Verif.Effect.Gain
import Mathlib.Tactic.SplitIfs

/-! Energy of a linearly interpolated delay line whose length changes slowly: lemmas for C87. -/

noncomputable section
namespace Fundsp.Effect
open Fundsp.Delay Finset

/-- Weight of a sample at distance `t` in linear interpolation. -/
def hat (t : ℝ) : ℝ := max 0 (1 - |t|)

theorem hat_nonneg (t : ℝ) : 0 ≤ hat t := le_max_left _ _

/-- Running total of the weights that a sample gets as the reading position passes it, for steps of at least `1 - e`. -/
def pass (e u : ℝ) : ℝ :=
  if u < -e then 0 else if u < 1 - 2 * e then u + e else if u < 1 - e then 2 * u - 1 + 3 * e else if u < 2 - 3 * e then 1 + e else 1 + 2 * e

theorem pass_range {e : ℝ} (h0 : 0 ≤ e) (h1 : e ≤ 1 / 3) (u : ℝ) : 0 ≤ pass e u ∧ pass e u ≤ 1 + 2 * e := by
  unfold pass; split_ifs <;> constructor <;> linarith

theorem pass_mono {e : ℝ} (h0 : 0 ≤ e) (h1 : e ≤ 1 / 3) {u v : ℝ} (h : u ≤ v) : pass e u ≤ pass e v := by
  unfold pass; split_ifs <;> linarith

theorem pass_step {e : ℝ} (h0 : 0 ≤ e) (h1 : e ≤ 1 / 3) (t : ℝ) : hat t ≤ pass e (t + (1 - e)) - pass e t := by
  unfold hat
  refine max_le (by linarith [pass_mono h0 h1 (show t ≤ t + (1 - e) by linarith)]) ?_
  rcases le_total 0 t with h | h
  · rw [abs_of_nonneg h]; unfold pass; split_ifs <;> linarith
  · rw [abs_of_nonpos h]; unfold pass; split_ifs <;> linarith

/-- The weights of one sample add up to hardly more than one. -/
theorem hat_sum {e : ℝ} (h0 : 0 ≤ e) (h1 : e ≤ 1 / 3) (u : Nat → ℝ) (hu : ∀ k, u k + (1 - e) ≤ u (k + 1)) (N : Nat) :
    ∑ k ∈ range N, hat (u k) ≤ 1 + 2 * e := by
  have h : ∀ N, ∑ k ∈ range N, hat (u k) ≤ pass e (u N) - pass e (u 0) := by
    intro N
    induction N with
    | zero => simp
    | succ N ih =>
      rw [sum_range_succ]
      linarith [pass_step h0 h1 (u N), pass_mono h0 h1 (hu N)]
  linarith [h N, (pass_range h0 h1 (u N)).2, (pass_range h0 h1 (u 0)).1]

/-- The sample `p` back, by linear interpolation; silence before the start. -/
def lerpAt (x : Nat → ℝ) (p : ℝ) (k : Nat) : ℝ :=
  (1 - (p - ⌊p⌋₊)) * delayed 0 ⌊p⌋₊ x k + (p - ⌊p⌋₊) * delayed 0 (⌊p⌋₊ + 1) x k

theorem lerpAt_sq (x : Nat → ℝ) {p : ℝ} (hp : 0 ≤ p) (k N : Nat) (hk : k < N) :
    lerpAt x p k ^ 2 ≤ ∑ m ∈ range N, hat ((k : ℝ) - p - m) * x m ^ 2 := by
  have hf0 : (⌊p⌋₊ : ℝ) ≤ p := Nat.floor_le hp
  have hf1 : p < ⌊p⌋₊ + 1 := Nat.lt_floor_add_one p
  obtain ⟨i, hi⟩ : ∃ i, i = ⌊p⌋₊ := ⟨_, rfl⟩
  unfold lerpAt
  rw [← hi] at hf0 hf1 ⊢
  obtain ⟨A, hA⟩ : ∃ A, A = delayed 0 i x k := ⟨_, rfl⟩
  obtain ⟨B, hB⟩ : ∃ B, B = delayed 0 (i + 1) x k := ⟨_, rfl⟩
  have j : ((1 - (p - i)) * A + (p - i) * B) ^ 2 ≤ (1 - (p - i)) * A ^ 2 + (p - i) * B ^ 2 := by
    nlinarith [mul_nonneg (mul_nonneg (by linarith : 0 ≤ 1 - (p - i)) (by linarith : 0 ≤ p - i)) (sq_nonneg (A - B))]
  rw [← hA, ← hB]
  refine j.trans ?_
  have nn : ∀ m : Nat, 0 ≤ hat ((k : ℝ) - p - m) * x m ^ 2 := fun m => mul_nonneg (hat_nonneg _) (sq_nonneg _)
  by_cases h1 : i + 1 ≤ k
  · have e1 : A = x (k - i) := by rw [hA, delayed, if_pos (by omega)]
    have e2 : B = x (k - (i + 1)) := by rw [hB, delayed, if_pos h1]
    have hs : ({k - i, k - (i + 1)} : Finset Nat) ⊆ range N := by
      intro a ha
      simp only [mem_insert, mem_singleton] at ha
      rw [mem_range]; omega
    refine le_trans (le_of_eq ?_) (sum_le_sum_of_subset_of_nonneg hs fun m _ _ => nn m)
    rw [sum_pair (by omega), e1, e2]
    have c1 : ((k - i : Nat) : ℝ) = k - i := by push_cast [show i ≤ k by omega]; ring
    have c2 : ((k - (i + 1) : Nat) : ℝ) = k - i - 1 := by push_cast [h1]; ring
    rw [c1, c2]
    unfold hat
    rw [show (k : ℝ) - p - (k - i) = -(p - i) by ring, show (k : ℝ) - p - (k - i - 1) = 1 - (p - i) by ring, abs_neg, abs_of_nonneg (by linarith),
      abs_of_nonneg (by linarith), max_eq_right (by linarith), max_eq_right (by linarith)]
    ring
  · have e2 : B = 0 := by rw [hB, delayed, if_neg h1]
    by_cases h2 : i ≤ k
    · have e1 : A = x (k - i) := by rw [hA, delayed, if_pos h2]
      refine le_trans (le_of_eq ?_) (single_le_sum (f := fun m : Nat => hat ((k : ℝ) - p - m) * x m ^ 2) (fun m _ => nn m) (mem_range.2 (show k - i < N by omega)))
      have c1 : ((k - i : Nat) : ℝ) = k - i := by push_cast [h2]; ring
      rw [c1, e1, e2]
      unfold hat
      rw [show (k : ℝ) - p - (k - i) = -(p - i) by ring, abs_neg, abs_of_nonneg (by linarith), max_eq_right (by linarith)]
      ring
    · have e1 : A = 0 := by rw [hA, delayed, if_neg h2]
      rw [e1, e2]
      refine le_trans (le_of_eq (by ring)) (sum_nonneg fun m _ => nn m)

/-- The energy read from a delay line whose length changes by at most `e` samples per sample. -/
theorem slow_energy {e : ℝ} (h1 : e ≤ 1 / 3) (x : Nat → ℝ) (p : Nat → ℝ) (hp : ∀ k, 0 ≤ p k) (hs : ∀ k, |p (k + 1) - p k| ≤ e) (N : Nat) :
    ∑ k ∈ range N, lerpAt x (p k) k ^ 2 ≤ (1 + 2 * e) * ∑ k ∈ range N, x k ^ 2 := by
  have h0 : 0 ≤ e := (abs_nonneg _).trans (hs 0)
  calc _ ≤ ∑ k ∈ range N, ∑ m ∈ range N, hat ((k : ℝ) - p k - m) * x m ^ 2 :=
        sum_le_sum fun k hk => lerpAt_sq x (hp k) k N (mem_range.1 hk)
    _ = ∑ m ∈ range N, (∑ k ∈ range N, hat ((k : ℝ) - p k - m)) * x m ^ 2 := by
        rw [sum_comm]; simp only [sum_mul]
    _ ≤ ∑ m ∈ range N, (1 + 2 * e) * x m ^ 2 := by
        refine sum_le_sum fun m _ => mul_le_mul_of_nonneg_right (hat_sum h0 h1 (fun k => (k : ℝ) - p k - m) (fun k => ?_) N) (sq_nonneg _)
        have := (abs_le.1 (hs k)).2
        push_cast
        linarith
    _ = _ := by rw [mul_sum]

/-! ## Networks of any lines -/

theorem fdn_out_of (p n : Nat) (X : Node ℝ 1 1) (s : Fin n → X.σ) (x : Nat → Frame ℝ (1 * n)) (k : Nat) (c : Fin (1 * n)) :
    (fdn p n X).stream (s, fun _ => 0) x k c
      = X.ticks.out (s (nodeOf c)) (fun j => (fed p x ((fdn p n X).stream (s, fun _ => 0) x) j).slice (nodeOf c)) k 0 := by
  have h := C38_feedback (0 : ℝ) (· + ·) (hadFrame p) { multiStack n X with reset := id } (s, fun _ => 0) x k
  refine (congrFun h c).trans ?_
  refine (congrFun (multiStack_out n X _ _ k) c).trans ?_
  have hc : chanOf c = 0 := Fin.eq_zero _
  rw [hc]
  rfl

theorem fdn_gain_of {p n : Nat} (hn : n = 2 ^ p) (X : Node ℝ 1 1) (s : Fin n → X.σ) {a : ℝ} (h0 : 0 < a) (h1 : a < 1)
    (hX : ∀ i u N, ∑ k ∈ range N, X.ticks.out (s i) u k 0 ^ 2 ≤ a ^ 2 * ∑ k ∈ range N, u k 0 ^ 2) (x : Nat → Frame ℝ (1 * n)) (N : Nat) :
    ∑ k ∈ Ico 0 N, en ((fdn p n X).stream (s, fun _ => 0) x k) ≤ (a / (1 - a)) ^ 2 * ∑ k ∈ Ico 0 N, en (x k) := by
  have h2 : 0 < 1 - a := by linarith
  have hn' : 1 * n = 2 ^ p := by omega
  have hs : ∑ k ∈ Ico 0 N, en ((fdn p n X).stream (s, fun _ => 0) x k)
      ≤ a ^ 2 * ∑ k ∈ Ico 0 N, en (fed p x ((fdn p n X).stream (s, fun _ => 0) x) k) := by
    rw [sum_en, sum_en, Finset.mul_sum]
    refine sum_le_sum fun c _ => ?_
    simp only [fdn_out_of p n X s x]
    have := hX (nodeOf c) (fun j => (fed p x ((fdn p n X).stream (s, fun _ => 0) x) j).slice (nodeOf c)) N
    simp only [slice_one] at this
    rw [range_eq_Ico] at this
    exact this
  obtain ⟨y, hy⟩ : ∃ y, y = (fdn p n X).stream (s, fun _ => 0) x := ⟨_, rfl⟩
  rw [← hy] at hs ⊢
  have h3 : a ^ 2 * ∑ k ∈ Ico 0 N, en (fed p x y k) ≤ a * ∑ k ∈ Ico 0 N, en (y k) + a ^ 2 / (1 - a) * ∑ k ∈ Ico 0 N, en (x k) := by
    rw [Finset.mul_sum]
    calc _ ≤ ∑ k ∈ Ico 0 N, (a * (if k = 0 then 0 else en (y (k - 1))) + a ^ 2 / (1 - a) * en (x k)) := Finset.sum_le_sum fun k _ => en_fed hn' h0 h1 x y k
      _ = a * ∑ k ∈ Ico 0 N, (if k = 0 then 0 else en (y (k - 1))) + a ^ 2 / (1 - a) * ∑ k ∈ Ico 0 N, en (x k) := by
        rw [Finset.sum_add_distrib, ← Finset.mul_sum, ← Finset.mul_sum]
      _ ≤ _ := by
        have := mul_le_mul_of_nonneg_left (shift_sum (fun k => en (y k)) (fun k => en_nonneg _) N) h0.le
        linarith
  have h4 : (1 - a) * ∑ k ∈ Ico 0 N, en (y k) ≤ a ^ 2 / (1 - a) * ∑ k ∈ Ico 0 N, en (x k) := by linarith
  rw [div_pow, div_mul_eq_mul_div, le_div_iff₀ (by positivity)]
  rw [div_mul_eq_mul_div, le_div_iff₀ h2] at h4
  nlinarith

end Fundsp.Effect
