import Verif.Dyn.Ceiling
/-! C111: the limiter keeps the output within `-1 ... 1`, for every input, when the attack and the release are not extremely short. The very first sample is
not covered: it leaves the lookahead window before the follower sees it. -/

namespace Fundsp.Dyn
open Fundsp.Filter

variable {n : Nat}

/-- `limiter(attack, release)` at sample rate `sr`: `Limiter::new`, `dynamics.rs:158-170`, with the follower made by `AFollow::new` and `set_sample_rate`
(`follow.rs:155-190`). The constant `0.4_f32` is taken to be the real number 0.4. -/
noncomputable def limiterNew (n : Nat) (sr attack release : ℝ) : LimSt n :=
  limNew n (limLength sr attack) (halfwayCoeff (attack * 0.4 * sr)) (halfwayCoeff (release * 0.4 * sr))

/-- Specification. The frame has no sample outside `-1 ... 1`. -/
def InRange (y : Frame ℝ n) : Prop := ∀ c, |y c| ≤ 1

theorem limLength_pos (sr t : ℝ) : 1 ≤ limLength sr t := le_max_left _ _

theorem le_amp (x : Frame ℝ n) (c : Fin n) : |x c| ≤ amp x := (le_foldl x 0).2 c

theorem range_of_gain {x : Frame ℝ n} {g : ℝ} (h1 : 1 ≤ g) (h : amp x ≤ g) : InRange (fun c => x c / g) := by
  intro c
  rw [abs_div, abs_of_pos (by linarith : 0 < g), div_le_one (by linarith)]
  exact (le_amp x c).trans h

theorem amp_le_of_range {x : Frame ℝ (n + 1)} (h : InRange x) : amp x ≤ 1 := by
  obtain ⟨c, e⟩ := (C46_amplitude x).1
  rw [e]; exact h c

theorem amp_const (A : ℝ) : amp (fun _ => A : Frame ℝ (n + 1)) = |A| := by
  obtain ⟨c, e⟩ := (C46_amplitude (fun _ => A : Frame ℝ (n + 1))).1
  exact e

theorem out_gain {L : Nat} (hL : 1 ≤ L) (a r : ℝ) {x : Nat → Frame ℝ n} {peak : Nat → ℝ} (hpk : ∀ k, IsPeak L x k (peak k)) (j : Nat) :
    limOut (limNew n L a r) x (L + j) = some (fun c => x j c / (fol a r (peak (L - 1)) (fun j => max 1 (peak (L + j) * (11 / 10))) j).v3) := by
  rw [lim_out hL (limNew_ok hL a r x) hpk, if_neg (by omega), Nat.add_sub_cancel_left]
  simp only [show (limNew n L a r).fol = folNew a r from rfl, gain_fol, div_eq_mul_inv, one_mul]

/-- The ceiling, for a follower with any coefficients that follow far enough in the lookahead time. -/
theorem ceiling {L : Nat} (hL : 1 ≤ L) {a r : ℝ} (ha : 0 ≤ a ∧ a ≤ 1) (hr : 0 ≤ r ∧ r ≤ 1) (hs : 10 / 11 ≤ (1 - stepLeft a L) * (1 - r ^ 3)) (x : Nat → Frame ℝ n) (j : Nat) (hj : 1 ≤ j) :
    ∃ g, limOut (limNew n L a r) x (L + j) = some (fun c => x j c / g) ∧ 1 ≤ g ∧ amp (x j) ≤ g := by
  obtain ⟨peak, hpk⟩ := exists_peak hL x
  refine ⟨_, out_gain hL a r hpk j, ?_⟩
  obtain ⟨w, hw⟩ : ∃ w : Nat → ℝ, w = fun j => max 1 (peak (L + j) * (11 / 10)) := ⟨_, rfl⟩
  rw [← hw]
  have w1 : ∀ i, 1 ≤ w i := fun i => by rw [hw]; exact le_max_left _ _
  obtain ⟨V, hV⟩ : ∃ V, V = max 1 (amp (x j) * (11 / 10)) := ⟨_, rfl⟩
  have hV1 : 1 ≤ V := by rw [hV]; exact le_max_left _ _
  have wV : ∀ i, i < j → j ≤ L + i → V ≤ w i := by
    intro i h1 h2
    rw [hw, hV]
    refine max_le_max le_rfl (mul_le_mul_of_nonneg_right ((hpk (L + i)).2 ⟨j, h2, by omega, rfl⟩) (by norm_num))
  have r3 : r ^ 3 ≤ 1 := pow_le_one₀ hr.1 hr.2
  have r0 : 0 ≤ r ^ 3 := pow_nonneg hr.1 3
  obtain ⟨o0, o1, o2⟩ := left_order ha L
  have q0 : 0 ≤ stepLeft a L := by linarith
  have q1 : stepLeft a L ≤ 1 := by
    by_contra hcon
    have : (1 - stepLeft a L) * (1 - r ^ 3) ≤ 0 := mul_nonpos_of_nonpos_of_nonneg (by linarith) (by linarith)
    linarith
  refine ⟨(fol_atLeast ha hr (peak (L - 1)) (w := w) (g := 1) (j := j) fun i _ => w1 i).2.2, ?_⟩
  have hG : AtLeast (V + (1 - V) * stepLeft a L) (fol a r (peak (L - 1)) w (j - 1)) := by
    rcases Nat.lt_or_ge L j with h | h
    · have b := fol_rise ha hr (peak (L - 1)) (w := w) (V := V) (j := j - L - 1) (m := L) w1 hV1 fun i i1 i2 => wV i (by omega) (by omega)
      rw [show j - L - 1 + L = j - 1 by omega] at b
      have c1 : V + (1 - V) * stepLeft a L ≤ V + (1 - V) * ((1 - a) ^ L * (1 + L * a)) := by nlinarith
      have c2 : V + (1 - V) * ((1 - a) ^ L * (1 + L * a)) ≤ V + (1 - V) * (1 - a) ^ L := by nlinarith
      exact ⟨(c1.trans c2).trans b.1, c1.trans b.2.1, b.2.2⟩
    · have b := fol_atLeast ha hr (peak (L - 1)) (w := w) (g := V) (j := j - 1) fun i hi => wV i (by omega) (by omega)
      have c : V + (1 - V) * stepLeft a L ≤ V := by nlinarith
      exact ⟨c.trans b.1, c.trans b.2.1, c.trans b.2.2⟩
  have hG1 : 1 ≤ V + (1 - V) * stepLeft a L := by nlinarith
  have f := fall_once ha hr hG1 hG (fol_has ..) (w1 j)
  have e : (afollowTick (fol a r (peak (L - 1)) w (j - 1)) (w j)).1 = fol a r (peak (L - 1)) w j := by
    obtain ⟨i, rfl⟩ : ∃ i, j = i + 1 := ⟨j - 1, by omega⟩
    rfl
  rw [e] at f
  refine le_trans ?_ f
  have k : V + (1 - V) * stepLeft a L - 1 = (V - 1) * (1 - stepLeft a L) := by ring
  rw [k, mul_assoc]
  have := mul_le_mul_of_nonneg_left hs (by linarith : 0 ≤ V - 1)
  have hA : amp (x j) * (11 / 10) ≤ V := by rw [hV]; exact le_max_right _ _
  linarith

theorem limLength_near {sr t : ℝ} (h : 1 ≤ sr * t) : sr * t - 1 / 2 ≤ limLength sr t := by
  have := Nat.lt_floor_add_one (sr * t + 1 / 2)
  have h' : ((⌊sr * t + 1 / 2⌋₊ : ℕ) : ℝ) ≤ limLength sr t := by exact_mod_cast le_max_right _ _
  linarith

/-- **C111, ceiling.** A fresh limiter whose attack time is between 20 and 1000000 samples, and whose release time is at least 40 samples, keeps every sample of
every channel within `-1 ... 1`, whatever the input, except possibly in the first frame that comes out after the lookahead.
The full claim would have no exception and no conditions on the times; `C111_violation_first` and `C111_violation_short` are counterexamples. -/
theorem C111_ceiling_partial {sr attack release : ℝ} (ha : 20 ≤ sr * attack) (ha2 : sr * attack ≤ 1000000) (hr : 40 ≤ sr * release) (x : Nat → Frame ℝ n) (k : Nat)
    (hk : k ≠ limLength sr attack) :
    ∃ y, limOut (limiterNew n sr attack release) x k = some y ∧ InRange y := by
  have hL := limLength_pos sr attack
  rcases Nat.lt_or_ge k (limLength sr attack) with h | h
  · obtain ⟨peak, hpk⟩ := exists_peak hL x
    exact ⟨_, by rw [limiterNew, lim_out hL (limNew_ok hL _ _ x) hpk, if_pos h], fun c => by simp⟩
  · obtain ⟨j, rfl⟩ : ∃ j, k = limLength sr attack + j := ⟨k - limLength sr attack, by omega⟩
    have m := halfwayCoeff_mem (attack * 0.4 * sr)
    have m' := halfwayCoeff_mem (release * 0.4 * sr)
    have s1 := left_lookahead ha ha2 (limLength_near (by linarith))
    rw [show 2 / 5 * (sr * attack) = attack * 0.4 * sr by norm_num; ring] at s1
    have s2 := halfway_high (s := release * 0.4 * sr) (by norm_num; linarith)
    have s3 : halfwayCoeff (release * 0.4 * sr) ^ 3 ≤ 0.0041 := (pow_le_pow_left₀ m'.1.le s2 3).trans (by norm_num)
    have s4 : 10 / 11 ≤ (1 - stepLeft (halfwayCoeff (attack * 0.4 * sr)) (limLength sr attack)) * (1 - halfwayCoeff (release * 0.4 * sr) ^ 3) := by
      refine le_trans ?_ (mul_le_mul (by linarith : (0.917 : ℝ) ≤ _) (by linarith : (0.9959 : ℝ) ≤ _) (by norm_num) (by norm_num at s1 ⊢; linarith))
      norm_num
    obtain ⟨g, e, g1, g2⟩ := ceiling hL ⟨m.1.le, m.2⟩ ⟨m'.1.le, m'.2⟩ s4 x j (by omega)
    exact ⟨_, e, range_of_gain g1 g2⟩

/-- The hypotheses are those of a limiter with 5 milliseconds of attack and 50 of release at 44100 Hz. -/
example : (20 : ℝ) ≤ 44100 * 0.005 ∧ 44100 * 0.005 ≤ (1000000 : ℝ) ∧ (40 : ℝ) ≤ 44100 * 0.05 := by norm_num

/-- **C111, first frame.** The first frame that comes out is divided by a gain that only depends on the frames after it: the limiter has already let go of it. -/
theorem C111_first {sr attack release : ℝ} (x : Nat → Frame ℝ n) {p : ℝ} (hp : IsPeak (limLength sr attack) x (limLength sr attack) p) :
    limOut (limiterNew n sr attack release) x (limLength sr attack) = some (fun c => x 0 c / max 1 (p * (11 / 10))) := by
  have hL := limLength_pos sr attack
  obtain ⟨peak, hpk⟩ := exists_peak hL x
  have e := out_gain hL (halfwayCoeff (attack * 0.4 * sr)) (halfwayCoeff (release * 0.4 * sr)) hpk 0
  rw [fol_zero] at e
  rw [limiterNew]
  rw [Nat.add_zero, (hpk _).unique hp] at e
  exact e

/-- A stream that is silent but for one frame. -/
theorem lone_peak {L K : Nat} (hL : 1 ≤ L) (A : ℝ) (k : Nat) :
    IsPeak L (fun k _ => if k = K then A else 0 : Nat → Frame ℝ (n + 1)) k (if K ≤ k ∧ k < K + L then |A| else 0) := by
  have ham : ∀ m, amp ((fun k _ => if k = K then A else 0 : Nat → Frame ℝ (n + 1)) m) = if m = K then |A| else 0 := by
    intro m; rw [amp_const]; split <;> simp
  by_cases h : K ≤ k ∧ k < K + L
  · rw [if_pos h]
    refine ⟨⟨K, h.1, h.2, by rw [ham, if_pos rfl]⟩, fun b ⟨m, _, _, e⟩ => ?_⟩
    rw [e, ham]; split
    exacts [le_rfl, abs_nonneg _]
  · rw [if_neg h]
    refine ⟨⟨k, le_rfl, by omega, ?_⟩, fun b ⟨m, m1, m2, e⟩ => ?_⟩
    · rw [ham, if_neg (by intro e; apply h; omega)]
    · rw [e, ham, if_neg (by rintro rfl; exact h ⟨m1, m2⟩)]

/-- **C111, violation.** Whatever the attack and release times, a click in the very first frame comes out of the limiter at full size. -/
theorem C111_violation_first (sr attack release A : ℝ) :
    limOut (limiterNew (n + 1) sr attack release) (fun k _ => if k = 0 then A else 0) (limLength sr attack) = some (fun _ => A) := by
  have hL := limLength_pos sr attack
  rw [C111_first _ (lone_peak hL A _)]
  simp

/-- So the full claim fails for a limiter with ordinary settings. -/
example : ∃ x : Nat → Frame ℝ 1, ∃ y, limOut (limiterNew 1 44100 0.005 0.05) x (limLength 44100 0.005) = some y ∧ ¬ InRange y :=
  ⟨_, _, C111_violation_first 44100 0.005 0.05 10, fun h => by have := h 0; norm_num at this⟩

/-- **C111, violation.** With an attack time of at most one sample, a click of size 10 in an otherwise silent input comes out larger than one, whatever the
release time. -/
theorem C111_violation_short {sr attack : ℝ} (h0 : 0 ≤ sr * attack) (h1 : sr * attack ≤ 1) (release : ℝ) :
    ∃ v, limOut (limiterNew (n + 1) sr attack release) (fun k _ => if k = 2 then 10 else 0) 3 = some (fun _ => v) ∧ 1 < v := by
  have hL : limLength sr attack = 1 := by
    have : ⌊sr * attack + 1 / 2⌋₊ ≤ 1 := by
      have : ⌊sr * attack + 1 / 2⌋₊ < 2 := (Nat.floor_lt (by linarith)).2 (by push_cast; linarith)
      omega
    rw [limLength]; omega
  have hc : halfwayCoeff (attack * 0.4 * sr) = halfwayCoeff 1 := by
    unfold halfwayCoeff
    rw [max_eq_left (by norm_num; nlinarith), max_self]
  rw [limiterNew, hL, hc]
  have m := halfwayCoeff_mem 1
  have m' := halfwayCoeff_mem (release * 0.4 * sr)
  have a8 := halfway_one
  obtain ⟨a, ea⟩ : ∃ a, a = halfwayCoeff 1 := ⟨_, rfl⟩
  obtain ⟨r, er⟩ : ∃ r, r = halfwayCoeff (release * 0.4 * sr) := ⟨_, rfl⟩
  rw [← ea] at m a8 ⊢
  rw [← er] at m' ⊢
  have hpk := fun k => lone_peak (n := n) (L := 1) (K := 2) le_rfl 10 k
  have e := out_gain le_rfl a r hpk 2
  obtain ⟨w, hw⟩ : ∃ w : Nat → ℝ, w = fun j => max 1 ((if 2 ≤ 1 + j ∧ 1 + j < 2 + 1 then |(10 : ℝ)| else 0) * (11 / 10)) := ⟨_, rfl⟩
  rw [← hw] at e
  have w0 : w 0 = 1 := by rw [hw]; norm_num
  have w1 : w 1 = 11 := by rw [hw]; norm_num
  have w2 : w 2 = 1 := by rw [hw]; norm_num
  refine ⟨_, e, ?_⟩
  have s0 : fol a r (if 2 ≤ 1 - 1 ∧ 1 - 1 < 2 + 1 then |(10 : ℝ)| else 0) w 0 = risen a r 1 11 0 := by
    rw [fol_zero, w0]; simp [risen, stepLeft]
  have ha : 0 ≤ a ∧ a ≤ 1 := ⟨m.1.le, m.2⟩
  have hr : 0 ≤ r ∧ r ≤ 1 := ⟨m'.1.le, m'.2⟩
  have s1 : fol a r (if 2 ≤ 1 - 1 ∧ 1 - 1 < 2 + 1 then |(10 : ℝ)| else 0) w 1 = risen a r 1 11 1 := by
    rw [fol_succ, s0, w1, risen_tick r ha (by norm_num)]
  have s2 : Below (fol a r (if 2 ≤ 1 - 1 ∧ 1 - 1 < 2 + 1 then |(10 : ℝ)| else 0) w 2) (risen a r 1 11 2) := by
    rw [fol_succ, s1, w2, ← risen_tick r ha (by norm_num) 1]
    exact Below.tick ha hr ⟨le_rfl, le_rfl, le_rfl⟩ (risen_has ..) (risen_has ..) (by norm_num)
  have low := (fol_atLeast ha hr (if 2 ≤ 1 - 1 ∧ 1 - 1 < 2 + 1 then |(10 : ℝ)| else 0) (w := w) (g := 1) (j := 2) fun i _ => by rw [hw]; exact le_max_left _ _).2.2
  have up : (risen a r 1 11 2).v3 ≤ 9.2 := by
    have := stepLeft_anti ha.1 a8 (by norm_num) 2
    have : stepLeft 0.8 2 = 0.1808 := by unfold stepLeft; norm_num
    simp only [risen]
    norm_num at *
    linarith
  have : (if (2 : ℕ) = 2 then (10 : ℝ) else 0) = 10 := if_pos rfl
  rw [this, lt_div_iff₀ (by linarith)]
  have := s2.2.2
  norm_num at up
  linarith

example : (0 : ℝ) ≤ 44100 * 0.00002 ∧ 44100 * 0.00002 ≤ (1 : ℝ) := by norm_num

/-- **C111, attack.** A sound that sets in at amplitude `A` after silence: from the moment it enters the lookahead, the gain goes from one to
`max 1 (1.1 A)` in the shape of the step response of three equal smoothers with the attack coefficient. -/
theorem C111_attack {L : Nat} (hL : 1 ≤ L) {a r : ℝ} (ha : 0 ≤ a ∧ a ≤ 1) {A : ℝ} {x : Nat → Frame ℝ n} {K : Nat} (hK : L < K) (hx : ∀ k, amp (x k) = if k < K then 0 else A) (hA : 0 ≤ A) (m : Nat) :
    limOut (limNew n L a r) x (K + m) = some (fun c => x (K + m - L) c /
      (max 1 (A * (11 / 10)) - (max 1 (A * (11 / 10)) - 1) * ((1 - a) ^ (m + 1) * (1 + ((m + 1 : ℕ) : ℝ) * a + ((m + 1 : ℕ) : ℝ) * (((m + 1 : ℕ) : ℝ) + 1) / 2 * a ^ 2)))) := by
  have hpk : ∀ k, IsPeak L x k (if k < K then 0 else A) := by
    intro k
    refine ⟨⟨k, le_rfl, by omega, (hx k).symm⟩, fun b ⟨i, i1, _, e⟩ => ?_⟩
    rw [e, hx]
    split <;> split <;> linarith
  obtain ⟨j, hj⟩ : ∃ j, K = L + j + 1 := ⟨K - L - 1, by omega⟩
  have e := out_gain hL a r hpk (j + 1 + m)
  rw [show L + (j + 1 + m) = K + m by omega] at e
  rw [e, show K + m - L = j + 1 + m by omega]
  congr 1; funext c; congr 1
  obtain ⟨w, hw⟩ : ∃ w : Nat → ℝ, w = fun j => max 1 ((if L + j < K then 0 else A) * (11 / 10)) := ⟨_, rfl⟩
  rw [← hw]
  have wl : ∀ i, i ≤ j → w i = 1 := fun i hi => by rw [hw]; simp only; rw [if_pos (by omega)]; norm_num
  have wh : ∀ i, j < i → w i = max 1 (A * (11 / 10)) := fun i hi => by rw [hw]; simp only; rw [if_neg (by omega)]
  generalize (if L - 1 < K then (0 : ℝ) else A) = p
  obtain ⟨V, hV⟩ : ∃ V, V = max 1 (A * (11 / 10)) := ⟨_, rfl⟩
  rw [← hV] at wh ⊢
  have hV1 : 1 ≤ V := by rw [hV]; exact le_max_left _ _
  have base : ∀ i, i ≤ j → fol a r p w i = risen a r 1 V 0 := by
    intro i
    induction i with
    | zero => intro hi; rw [fol_zero, wl 0 hi]; simp [risen, stepLeft]
    | succ i ih =>
      intro hi
      rw [fol_succ, ih (by omega), wl _ hi]
      have : risen a r 1 V 0 = risen a r 1 1 0 := by simp [risen, stepLeft]
      rw [this, risen_tick r ha le_rfl]; simp [risen]
  have step : ∀ m, fol a r p w (j + m) = risen a r 1 V m := by
    intro m
    induction m with
    | zero => exact base j le_rfl
    | succ m ih => rw [← Nat.add_assoc, fol_succ, ih, wh _ (by omega), risen_tick r ha hV1]
  rw [show j + 1 + m = j + (m + 1) by omega, step]
  simp only [risen, stepLeft]
  ring

example : ∃ x : Nat → Frame ℝ 1, ∀ k, amp (x k) = if k < 7 then 0 else 3 :=
  ⟨fun k _ => if k < 7 then 0 else 3, fun k => by rw [amp_const]; split <;> simp⟩

/-- **C111, release.** When a sound of amplitude `A` ends, the gain stays at `max 1 (1.1 A)` until the whole sound but the last frame has come out, and
then goes back to one in the shape of the step response with the release coefficient. -/
theorem C111_release {L : Nat} (hL : 1 ≤ L) {a r : ℝ} (hr : 0 ≤ r ∧ r ≤ 1) {A : ℝ} {x : Nat → Frame ℝ n} {K : Nat} (hK : 2 ≤ K) (hx : ∀ k, amp (x k) = if k < K then A else 0) (hA : 0 ≤ A) :
    (∀ k, L ≤ k → k + 1 < K + L → limOut (limNew n L a r) x k = some (fun c => x (k - L) c / max 1 (A * (11 / 10)))) ∧
    ∀ m, limOut (limNew n L a r) x (K + L - 1 + m) = some (fun c => x (K - 1 + m) c /
      (1 + (max 1 (A * (11 / 10)) - 1) * ((1 - r) ^ (m + 1) * (1 + ((m + 1 : ℕ) : ℝ) * r + ((m + 1 : ℕ) : ℝ) * (((m + 1 : ℕ) : ℝ) + 1) / 2 * r ^ 2)))) := by
  have hpk : ∀ k, IsPeak L x k (if k < K + L - 1 then A else 0) := by
    intro k
    by_cases h : k < K + L - 1
    · rw [if_pos h]
      refine ⟨⟨min k (K - 1), by omega, by omega, by rw [hx, if_pos (by omega)]⟩, fun b ⟨i, i1, _, e⟩ => ?_⟩
      rw [e, hx]
      split <;> linarith
    · rw [if_neg h]
      refine ⟨⟨k, le_rfl, by omega, by rw [hx, if_neg (by omega)]⟩, fun b ⟨i, i1, i2, e⟩ => ?_⟩
      rw [e, hx, if_neg (by omega)]
  obtain ⟨V, hV⟩ : ∃ V, V = max 1 (A * (11 / 10)) := ⟨_, rfl⟩
  have hV1 : 1 ≤ V := by rw [hV]; exact le_max_left _ _
  obtain ⟨w, hw⟩ : ∃ w : Nat → ℝ, w = fun j => max 1 ((if L + j < K + L - 1 then A else 0) * (11 / 10)) := ⟨_, rfl⟩
  have wl : ∀ i, i + 1 < K → w i = V := fun i hi => by rw [hw]; simp only; rw [if_pos (by omega), hV]
  have wh : ∀ i, K ≤ i + 1 → w i = 1 := fun i hi => by rw [hw]; simp only; rw [if_neg (by omega)]; norm_num
  have out := fun j => out_gain hL a r hpk j
  rw [← hw] at out
  rw [← hV]
  generalize (if L - 1 < K + L - 1 then A else (0 : ℝ)) = p at out
  have base : ∀ i, i + 1 < K → fol a r p w i = fallen a r V 1 0 := by
    intro i
    induction i with
    | zero => intro hi; rw [fol_zero, wl 0 hi]; simp [fallen, stepLeft]
    | succ i ih =>
      intro hi
      rw [fol_succ, ih (by omega), wl _ hi]
      have : fallen a r V 1 0 = fallen a r V V 0 := by simp [fallen, stepLeft]
      rw [this, fallen_tick a hr le_rfl]; simp [fallen]
  have step : ∀ m, fol a r p w (K - 2 + m) = fallen a r V 1 m := by
    intro m
    induction m with
    | zero => exact base _ (by omega)
    | succ m ih => rw [← Nat.add_assoc, fol_succ, ih, wh _ (by omega), fallen_tick a hr hV1]
  refine ⟨fun k h1 h2 => ?_, fun m => ?_⟩
  · have := out (k - L)
    rw [show L + (k - L) = k by omega, base _ (by omega)] at this
    rw [this]
    simp [fallen, stepLeft]
  · have := out (K - 1 + m)
    rw [show L + (K - 1 + m) = K + L - 1 + m by omega, show K - 1 + m = K - 2 + (m + 1) by omega, step] at this
    rw [this, show K - 2 + (m + 1) = K - 1 + m by omega]
    rfl

example : ∃ x : Nat → Frame ℝ 1, ∀ k, amp (x k) = if k < 7 then 3 else 0 :=
  ⟨fun k _ => if k < 7 then 3 else 0, fun k => by rw [amp_const]; split <;> simp⟩

end Fundsp.Dyn
