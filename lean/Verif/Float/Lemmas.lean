import Verif.Float.Model
import Mathlib.Algebra.Order.Archimedean.Basic

/-! Lemmas on clocks in floating point. -/

noncomputable section
namespace Fundsp.Fl

theorem acc_rep {p : ℕ} (hp : 1 ≤ p) (d : ℝ) (n : ℕ) : Rep p (acc p d n) := by
  cases n with
  | zero => exact rep_zero
  | succ n => exact rep_rnd hp _

theorem acc_nonneg {p : ℕ} (hp : 1 ≤ p) {d : ℝ} (hd : 0 ≤ d) (n : ℕ) : 0 ≤ acc p d n := by
  induction n with
  | zero => exact le_rfl
  | succ n ih => exact rnd_nonneg hp (by linarith)

theorem zpow_half (k : ℤ) : (2 : ℝ) ^ (k + 1) = 2 * 2 ^ k := by rw [zpow_add₀ (by norm_num)]; ring

/-- One step of a clock below the limit: it moves on by at least `d` less the rounding, and not beyond the limit. -/
theorem step_below {p : ℕ} (hp : 1 ≤ p) {d t : ℝ} {k : ℤ} (hd : 0 ≤ d) (h2 : d < 2 ^ (k + 1 - p)) (hr : Rep p t) (h0 : 0 ≤ t) (ht : t < 2 ^ (k + 1)) :
    t + d - 2 ^ (k - p) ≤ rnd p (t + d) ∧ rnd p (t + d) ≤ 2 ^ (k + 1) := by
  have e := zpow_half (k - p)
  rw [show k - (p : ℤ) + 1 = k + 1 - p by ring] at e
  -- t is at least one unit below the limit
  have hle : t + d ≤ 2 ^ (k + 1) := by
    rcases lt_or_ge t (2 ^ k) with hk | hk
    · have : (2 : ℝ) ^ (k + 1 - p) ≤ 2 ^ k := zpow_le_zpow_right₀ (by norm_num) (by omega)
      have := zpow_half k
      linarith
    · have htp : 0 < t := lt_of_lt_of_le (by positivity) hk
      have hn := rnd_of (p := p) (k := k) (x := t) (by rwa [abs_of_pos htp]) (by rwa [abs_of_pos htp])
      rw [rnd_rep hp hr] at hn
      set n := roundEven (t / 2 ^ (k - p + 1)) with hnd
      have hu : (0 : ℝ) < 2 ^ (k - p + 1) := by positivity
      have es := two_zpow_split p k
      have hlt : (n : ℝ) < ((2 ^ p : ℤ) : ℝ) := by
        push_cast
        rw [hn, ← es] at ht
        exact lt_of_mul_lt_mul_right ht hu.le
      have hle : n + 1 ≤ 2 ^ p := by have := Int.cast_lt.1 hlt; omega
      have hle' : (n : ℝ) + 1 ≤ 2 ^ p := by exact_mod_cast hle
      have := mul_le_mul_of_nonneg_right hle' hu.le
      rw [es, add_mul, ← hn, one_mul] at this
      rw [show k - (p : ℤ) + 1 = k + 1 - p by ring] at this
      linarith
  refine ⟨?_, rnd_le hp (rep_zpow _) hle⟩
  rcases hle.lt_or_eq with h | h
  · have := rnd_err_of (p := p) (x := t + d) (k := k) (by rwa [abs_of_nonneg (by linarith)])
    rw [abs_le] at this
    linarith
  · rw [h, rnd_rep hp (rep_zpow _)]
    have : (0 : ℝ) < 2 ^ (k - p) := by positivity
    linarith

theorem acc_le {p : ℕ} (hp : 1 ≤ p) {d : ℝ} {k : ℤ} (hd : 0 ≤ d) (h2 : d < 2 ^ (k + 1 - p)) (n : ℕ) : acc p d n ≤ 2 ^ (k + 1) := by
  induction n with
  | zero => exact (by positivity : (0 : ℝ) ≤ 2 ^ (k + 1))
  | succ n ih =>
    rcases ih.lt_or_eq with h | h
    · exact (step_below hp hd h2 (acc_rep hp d n) (acc_nonneg hp hd n) h).2
    · show rnd p (acc p d n + d) ≤ _
      rw [h, rnd_stall hp (rep_zpow _) le_rfl (zpow_lt_zpow_right₀ (by norm_num) (by omega)) hd h2]

theorem acc_ge {p : ℕ} (hp : 1 ≤ p) {d : ℝ} {k : ℤ} (hd : 0 ≤ d) (h2 : d < 2 ^ (k + 1 - p)) (n : ℕ) :
    min (2 ^ (k + 1)) (n * (d - 2 ^ (k - p))) ≤ acc p d n := by
  induction n with
  | zero =>
    refine min_le_of_right_le ?_
    show ((0 : ℕ) : ℝ) * _ ≤ 0
    simp
  | succ n ih =>
    rcases (acc_le hp hd h2 n).lt_or_eq with h | h
    · have hs := (step_below hp hd h2 (acc_rep hp d n) (acc_nonneg hp hd n) h).1
      refine min_le_of_right_le ?_
      rcases min_le_iff.1 ih with h' | h'
      · linarith
      · show _ ≤ rnd p (acc p d n + d)
        push_cast
        linarith
    · refine min_le_of_left_le ?_
      show _ ≤ rnd p (acc p d n + d)
      rw [h, rnd_stall hp (rep_zpow _) le_rfl (zpow_lt_zpow_right₀ (by norm_num) (by omega)) hd h2]

/-- A clock ends up at the power of two where its step is less than half the distance to the next number. -/
theorem acc_stuck {p : ℕ} (hp : 1 ≤ p) {d : ℝ} {k : ℤ} (h1 : 2 ^ (k - p) < d) (h2 : d < 2 ^ (k + 1 - p)) : ∃ N, ∀ n, N ≤ n → acc p d n = 2 ^ (k + 1) := by
  have hd : 0 ≤ d := le_trans (by positivity) h1.le
  obtain ⟨N, hN⟩ := exists_nat_ge ((2 : ℝ) ^ (k + 1) / (d - 2 ^ (k - p)))
  refine ⟨N, fun n hn => le_antisymm (acc_le hp hd h2 n) ?_⟩
  refine le_trans (le_min le_rfl ?_) (acc_ge hp hd h2 n)
  have hc : 0 < d - 2 ^ (k - p) := by linarith
  rw [div_le_iff₀ hc] at hN
  exact hN.trans (mul_le_mul_of_nonneg_right (by exact_mod_cast hn) hc.le)

/-- Error of a clock. -/
theorem acc_err {p : ℕ} (hp : 1 ≤ p) {d : ℝ} {k : ℤ} (hd : 0 ≤ d) (n : ℕ) (hn : n * (d + 2 ^ (k - p)) < 2 ^ (k + 1)) : |acc p d n - n * d| ≤ n * 2 ^ (k - p) := by
  have hu : (0 : ℝ) < 2 ^ (k - p) := by positivity
  induction n with
  | zero => simp [acc]
  | succ n ih =>
    push_cast at hn ⊢
    have hlt : (n : ℝ) * (d + 2 ^ (k - p)) < 2 ^ (k + 1) := by nlinarith
    have h := ih hlt
    rw [abs_le] at h
    have h0 := acc_nonneg hp hd n
    have he := rnd_err_of (p := p) (x := acc p d n + d) (k := k) (by rw [abs_of_nonneg (by linarith)]; nlinarith)
    rw [abs_le] at he
    show |rnd p (acc p d n + d) - _| ≤ _
    rw [abs_le]
    constructor <;> nlinarith

/-- Bounds on a rounded number from bounds by powers of two times integers. -/
theorem rnd_between {p : ℕ} (hp : 1 ≤ p) {a b x : ℝ} (ha : Rep p a) (hb : Rep p b) (h1 : a ≤ x) (h2 : x ≤ b) : a ≤ rnd p x ∧ rnd p x ≤ b :=
  ⟨le_rnd hp ha h1, rnd_le hp hb h2⟩

end Fundsp.Fl

namespace Fundsp.Fl

/-- One step towards a limit, whatever the step. -/
theorem step_reach {p : ℕ} (hp : 1 ≤ p) {d t : ℝ} (k : ℤ) (hd : 0 ≤ d) (h0 : 0 ≤ t) : min (2 ^ (k + 1)) (t + d - 2 ^ (k - p)) ≤ rnd p (t + d) := by
  rcases lt_or_ge (t + d) (2 ^ (k + 1)) with h | h
  · refine min_le_of_right_le ?_
    have := rnd_err_of (p := p) (x := t + d) (k := k) (by rwa [abs_of_nonneg (by linarith)])
    rw [abs_le] at this
    linarith
  · exact min_le_of_left_le (le_rnd hp (rep_zpow _) h)

/-- Steps above half the distance reach the limit, from any sequence that takes them while below it. -/
theorem reach {p : ℕ} (hp : 1 ≤ p) {d : ℝ} (k : ℤ) (h1 : 2 ^ (k - p) < d) {x : ℕ → ℝ} {L : ℝ} (hL : L ≤ 2 ^ (k + 1)) (h0 : ∀ n, 0 ≤ x n)
    (hs : ∀ n, x n < L → x (n + 1) = rnd p (x n + d)) : ∃ n, L ≤ x n := by
  by_contra hc
  push Not at hc
  have hd : 0 ≤ d := le_trans (by positivity) h1.le
  have hc' : 0 < d - 2 ^ (k - p) := by linarith
  have key : ∀ n : ℕ, n * (d - 2 ^ (k - p)) ≤ x n := by
    intro n
    induction n with
    | zero => simpa using h0 0
    | succ n ih =>
      have := step_reach hp k hd (h0 n)
      rw [← hs n (hc n)] at this
      rcases min_le_iff.1 this with h | h
      · exact absurd (hc (n + 1)) (not_lt.2 (hL.trans h))
      · push_cast; linarith
  obtain ⟨N, hN⟩ := exists_nat_ge (L / (d - 2 ^ (k - p)))
  rw [div_le_iff₀ hc'] at hN
  exact absurd (hc N) (not_lt.2 (hN.trans (key N)))

theorem env_t (p : ℕ) (sd : ℝ) (ni : ℕ → ℝ) (n : ℕ) : (EnvClock.after p sd ni n).t = acc p sd n := by
  induction n with
  | zero => rfl
  | succ n ih =>
    unfold EnvClock.after at ih ⊢
    rw [Function.iterate_succ_apply']
    show rnd p ((if _ then _ else _ : EnvClock).t + sd) = rnd p (acc p sd n + sd)
    split <;> exact congrArg (fun x => rnd p (x + sd)) ih

theorem sys_time (sd i : ℝ) (n : ℕ) : (SysClock.after sd i n).time = acc 24 sd n := by
  induction n with
  | zero => rfl
  | succ n ih =>
    unfold SysClock.after at ih ⊢
    rw [Function.iterate_succ_apply']
    exact congrArg (fun x => rnd 24 (x + sd)) ih

/-- The duration of a sample at 44.1 kHz in `f32`. -/
theorem sd32 : (2 : ℝ) ^ (-16 : ℤ) < rnd 24 (1 / 44100) ∧ rnd 24 (1 / 44100) < (2 : ℝ) ^ (-15 : ℤ) := by
  obtain ⟨h1, h2⟩ := rnd_between (p := 24) (by norm_num) (a := 5 * 2 ^ (-18 : ℤ)) (b := 3 * 2 ^ (-17 : ℤ)) (x := 1 / 44100)
    ⟨5, -18, by norm_num, by norm_num⟩ ⟨3, -17, by norm_num, by norm_num⟩ (by norm_num) (by norm_num)
  norm_num at h1 h2 ⊢
  constructor <;> linarith

end Fundsp.Fl
