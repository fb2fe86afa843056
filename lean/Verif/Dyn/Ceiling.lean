import Verif.Dyn.Props
import Verif.Filter.Halfway
/-! Lemmas about the follower inside the limiter for C111: it is monotone, and how far it gets in the lookahead time. -/

namespace Fundsp.Dyn
open Fundsp.Filter

variable {n : Nat}

theorem filterPole_mono {a r x x' v v' : ℝ} (ha : 0 ≤ a ∧ a ≤ 1) (hr : 0 ≤ r ∧ r ≤ 1) (hx : x ≤ x') (hv : v ≤ v') : filterPole x v a r ≤ filterPole x' v' a r := by
  rcases le_total v x with h | h <;> rcases le_total v' x' with h' | h'
  · rw [filterPole_rise h, filterPole_rise h']; nlinarith
  · rw [filterPole_rise h, filterPole_fall h']; nlinarith
  · rw [filterPole_fall h, filterPole_rise h']; nlinarith
  · rw [filterPole_fall h, filterPole_fall h']; nlinarith

/-- One state of the follower is nowhere above another. -/
def Below (s t : AFollowSt ℝ) : Prop := s.v1 ≤ t.v1 ∧ s.v2 ≤ t.v2 ∧ s.v3 ≤ t.v3

/-- The coefficients are in use, as they are from the first sample on. -/
def Has (a r : ℝ) (s : AFollowSt ℝ) : Prop := s.acoeff = a ∧ s.rcoeff = r ∧ s.acoeffNow = a ∧ s.rcoeffNow = r

theorem Has.tick {a r : ℝ} {s : AFollowSt ℝ} (h : Has a r s) (x : ℝ) : Has a r (afollowTick s x).1 := ⟨h.1, h.2.1, h.1, h.2.1⟩

theorem Below.tick {a r : ℝ} (ha : 0 ≤ a ∧ a ≤ 1) (hr : 0 ≤ r ∧ r ≤ 1) {s t : AFollowSt ℝ} (h : Below s t) (hs : Has a r s) (ht : Has a r t) {x y : ℝ} (hx : x ≤ y) :
    Below (afollowTick s x).1 (afollowTick t y).1 := by
  have h1 : filterPole x s.v1 a r ≤ filterPole y t.v1 a r := filterPole_mono ha hr hx h.1
  have h2 := filterPole_mono ha hr h1 h.2.1
  have h3 := filterPole_mono ha hr h2 h.2.2
  refine ⟨?_, ?_, ?_⟩ <;> simp only [afollowTick, hs.2.2.1, hs.2.2.2, ht.2.2.1, ht.2.2.2] <;> assumption

/-- The state after `m` samples of attack from rest at `y`, where the input is `V`. -/
noncomputable def risen (a r y V : ℝ) (m : ℕ) : AFollowSt ℝ :=
  ⟨V + (y - V) * (1 - a) ^ m, V + (y - V) * ((1 - a) ^ m * (1 + m * a)), V + (y - V) * stepLeft a m, a, r, a, r⟩

theorem risen_has (a r y V : ℝ) (m : ℕ) : Has a r (risen a r y V m) := ⟨rfl, rfl, rfl, rfl⟩

theorem left_order {a : ℝ} (ha : 0 ≤ a ∧ a ≤ 1) (m : ℕ) : 0 ≤ (1 - a) ^ m ∧ (1 - a) ^ m ≤ (1 - a) ^ m * (1 + m * a) ∧ (1 - a) ^ m * (1 + m * a) ≤ stepLeft a m := by
  have h0 : 0 ≤ (1 - a) ^ m := pow_nonneg (by linarith) m
  have hm : (0 : ℝ) ≤ m := Nat.cast_nonneg m
  refine ⟨h0, le_mul_of_one_le_right h0 (by nlinarith), mul_le_mul_of_nonneg_left ?_ h0⟩
  have : 0 ≤ (m : ℝ) * (m + 1) / 2 * a ^ 2 := by positivity
  linarith

theorem risen_tick {a : ℝ} (r : ℝ) {y V : ℝ} (ha : 0 ≤ a ∧ a ≤ 1) (h : y ≤ V) (m : ℕ) : (afollowTick (risen a r y V m) V).1 = risen a r y V (m + 1) := by
  obtain ⟨o0, o1, o2⟩ := left_order ha m
  have p0 : 0 ≤ (1 - a) ^ (m + 1) := pow_nonneg (by linarith) _
  have hm : (0 : ℝ) ≤ m := Nat.cast_nonneg m
  have c1 : V + (y - V) * (1 - a) ^ m ≤ V := by nlinarith
  have e1 : filterPole V (V + (y - V) * (1 - a) ^ m) a r = V + (y - V) * (1 - a) ^ (m + 1) := by
    rw [filterPole_rise c1]; ring
  have q1 : (1 - a) ^ (m + 1) ≤ (1 - a) ^ m * (1 + m * a) := by
    rw [pow_succ]; exact mul_le_mul_of_nonneg_left (by nlinarith) o0
  have c2 : V + (y - V) * ((1 - a) ^ m * (1 + m * a)) ≤ V + (y - V) * (1 - a) ^ (m + 1) := by nlinarith
  have e2 : filterPole (V + (y - V) * (1 - a) ^ (m + 1)) (V + (y - V) * ((1 - a) ^ m * (1 + m * a))) a r =
      V + (y - V) * ((1 - a) ^ (m + 1) * (1 + ((m + 1 : ℕ) : ℝ) * a)) := by
    rw [filterPole_rise c2]; push_cast; ring
  have q2 : (1 - a) ^ (m + 1) * (1 + ((m + 1 : ℕ) : ℝ) * a) ≤ stepLeft a m := by
    unfold stepLeft; rw [pow_succ, mul_assoc]; push_cast
    refine mul_le_mul_of_nonneg_left ?_ o0
    nlinarith [mul_nonneg hm ha.1, sq_nonneg a, mul_nonneg hm (sq_nonneg a), mul_nonneg (mul_nonneg hm hm) (sq_nonneg a)]
  have c3 : V + (y - V) * stepLeft a m ≤ V + (y - V) * ((1 - a) ^ (m + 1) * (1 + ((m + 1 : ℕ) : ℝ) * a)) := by nlinarith
  have e3 : filterPole (V + (y - V) * ((1 - a) ^ (m + 1) * (1 + ((m + 1 : ℕ) : ℝ) * a))) (V + (y - V) * stepLeft a m) a r = V + (y - V) * stepLeft a (m + 1) := by
    rw [filterPole_rise c3, stepLeft_succ]; push_cast; ring
  simp only [afollowTick, risen, e1, e2, e3]

/-- The state after `m` samples of release. -/
noncomputable def fallen (a r y V : ℝ) (m : ℕ) : AFollowSt ℝ :=
  ⟨V + (y - V) * (1 - r) ^ m, V + (y - V) * ((1 - r) ^ m * (1 + m * r)), V + (y - V) * stepLeft r m, a, r, a, r⟩

theorem fallen_tick (a : ℝ) {r : ℝ} {y V : ℝ} (hr : 0 ≤ r ∧ r ≤ 1) (h : V ≤ y) (m : ℕ) : (afollowTick (fallen a r y V m) V).1 = fallen a r y V (m + 1) := by
  obtain ⟨o0, o1, o2⟩ := left_order hr m
  have p0 : 0 ≤ (1 - r) ^ (m + 1) := pow_nonneg (by linarith) _
  have hm : (0 : ℝ) ≤ m := Nat.cast_nonneg m
  have c1 : V ≤ V + (y - V) * (1 - r) ^ m := by nlinarith
  have e1 : filterPole V (V + (y - V) * (1 - r) ^ m) a r = V + (y - V) * (1 - r) ^ (m + 1) := by
    rw [filterPole_fall c1]; ring
  have q1 : (1 - r) ^ (m + 1) ≤ (1 - r) ^ m * (1 + m * r) := by
    rw [pow_succ]; exact mul_le_mul_of_nonneg_left (by nlinarith) o0
  have c2 : V + (y - V) * (1 - r) ^ (m + 1) ≤ V + (y - V) * ((1 - r) ^ m * (1 + m * r)) := by nlinarith
  have e2 : filterPole (V + (y - V) * (1 - r) ^ (m + 1)) (V + (y - V) * ((1 - r) ^ m * (1 + m * r))) a r =
      V + (y - V) * ((1 - r) ^ (m + 1) * (1 + ((m + 1 : ℕ) : ℝ) * r)) := by
    rw [filterPole_fall c2]; push_cast; ring
  have q2 : (1 - r) ^ (m + 1) * (1 + ((m + 1 : ℕ) : ℝ) * r) ≤ stepLeft r m := by
    unfold stepLeft; rw [pow_succ, mul_assoc]; push_cast
    refine mul_le_mul_of_nonneg_left ?_ o0
    nlinarith [mul_nonneg hm hr.1, sq_nonneg r, mul_nonneg hm (sq_nonneg r), mul_nonneg (mul_nonneg hm hm) (sq_nonneg r)]
  have c3 : V + (y - V) * ((1 - r) ^ (m + 1) * (1 + ((m + 1 : ℕ) : ℝ) * r)) ≤ V + (y - V) * stepLeft r m := by nlinarith
  have e3 : filterPole (V + (y - V) * ((1 - r) ^ (m + 1) * (1 + ((m + 1 : ℕ) : ℝ) * r))) (V + (y - V) * stepLeft r m) a r = V + (y - V) * stepLeft r (m + 1) := by
    rw [filterPole_fall c3, stepLeft_succ]; push_cast; ring
  simp only [afollowTick, fallen, e1, e2, e3]

/-! ## The follower of the limiter -/

/-- The follower after `j + 1` samples of sound, as it is fed. -/
noncomputable def fol (a r p : ℝ) (w : Nat → ℝ) (j : Nat) : AFollowSt ℝ := afollowNode.ticks.st (folSet (folNew a r) p) (fun j _ => w j) (j + 1)

theorem fol_zero (a r p : ℝ) (w : Nat → ℝ) : fol a r p w 0 = ⟨w 0, w 0, w 0, a, r, a, r⟩ := fresh_first a r p (w 0)

theorem fol_succ (a r p : ℝ) (w : Nat → ℝ) (j : Nat) : fol a r p w (j + 1) = (afollowTick (fol a r p w j) (w (j + 1))).1 := rfl

theorem fol_has (a r p : ℝ) (w : Nat → ℝ) (j : Nat) : Has a r (fol a r p w j) := by
  induction j with
  | zero => rw [fol_zero]; exact ⟨rfl, rfl, rfl, rfl⟩
  | succ j ih => rw [fol_succ]; exact ih.tick _

theorem gain_fol (a r p : ℝ) (peak : Nat → ℝ) (L j : Nat) :
    gainStream (folSet (folNew a r) p) peak L (L + j) = (fol a r p (fun j => max 1 (peak (L + j) * (11 / 10))) j).v3 := by
  rw [gainStream, Nat.add_sub_cancel_left]; rfl

/-- All parts of the state are at least `g`. -/
def AtLeast (g : ℝ) (s : AFollowSt ℝ) : Prop := g ≤ s.v1 ∧ g ≤ s.v2 ∧ g ≤ s.v3

theorem AtLeast.tick {a r g x : ℝ} (ha : 0 ≤ a ∧ a ≤ 1) (hr : 0 ≤ r ∧ r ≤ 1) {s : AFollowSt ℝ} (h : AtLeast g s) (hs : Has a r s) (hx : g ≤ x) : AtLeast g (afollowTick s x).1 := by
  have e : (afollowTick (⟨g, g, g, a, r, a, r⟩ : AFollowSt ℝ) g).1 = ⟨g, g, g, a, r, a, r⟩ := by
    have k : filterPole g g a r = g := by rw [filterPole_rise le_rfl]; ring
    simp only [afollowTick, k]
  have := Below.tick ha hr (s := ⟨g, g, g, a, r, a, r⟩) h ⟨rfl, rfl, rfl, rfl⟩ hs hx
  rwa [e] at this

theorem fol_atLeast {a r : ℝ} (ha : 0 ≤ a ∧ a ≤ 1) (hr : 0 ≤ r ∧ r ≤ 1) (p : ℝ) {w : Nat → ℝ} {g : ℝ} {j : Nat} (hw : ∀ i ≤ j, g ≤ w i) : AtLeast g (fol a r p w j) := by
  induction j with
  | zero => rw [fol_zero]; exact ⟨hw 0 le_rfl, hw 0 le_rfl, hw 0 le_rfl⟩
  | succ j ih => rw [fol_succ]; exact (ih fun i hi => hw i (by omega)).tick ha hr (fol_has ..) (hw _ le_rfl)

/-- From at least one, `m` samples of input at least `V` bring the follower at least as far as the exact attack does. -/
theorem fol_rise {a r : ℝ} (ha : 0 ≤ a ∧ a ≤ 1) (hr : 0 ≤ r ∧ r ≤ 1) (p : ℝ) {w : Nat → ℝ} {V : ℝ} {j m : Nat} (h1 : ∀ i, 1 ≤ w i) (hV : 1 ≤ V) (hw : ∀ i, j < i → i ≤ j + m → V ≤ w i) :
    Below (risen a r 1 V m) (fol a r p w (j + m)) := by
  induction m with
  | zero =>
    have := fol_atLeast ha hr p (w := w) (g := 1) (j := j) fun i _ => h1 i
    simpa [risen, Below, stepLeft, AtLeast] using this
  | succ m ih =>
    rw [← Nat.add_assoc, fol_succ, ← risen_tick r ha hV]
    exact (ih fun i a b => hw i a (by omega)).tick ha hr (risen_has ..) (fol_has ..) (hw _ (by omega) (by omega))

/-- One sample later the follower has fallen by at most the cube of the release coefficient. -/
theorem fall_once {a r g : ℝ} (ha : 0 ≤ a ∧ a ≤ 1) (hr : 0 ≤ r ∧ r ≤ 1) (hg : 1 ≤ g) {s : AFollowSt ℝ} (h : AtLeast g s) (hs : Has a r s) {x : ℝ} (hx : 1 ≤ x) :
    1 + (g - 1) * (1 - r ^ 3) ≤ (afollowTick s x).1.v3 := by
  have t := (Below.tick ha hr (s := ⟨g, g, g, a, r, a, r⟩) h ⟨rfl, rfl, rfl, rfl⟩ hs hx).2.2
  refine le_trans (le_of_eq ?_) t
  have e := fallen_tick a (y := g) hr hg 0
  have : fallen a r g 1 0 = ⟨g, g, g, a, r, a, r⟩ := by simp [fallen, stepLeft]
  rw [this] at e
  rw [e]
  simp only [fallen, stepLeft]
  push_cast
  ring

/-! ## The coefficients -/

theorem halfway_base {s : ℝ} (h1 : 1 ≤ s) : ∃ E : ℝ, 2.367 ≤ E ∧ E ≤ 2.36701 ∧
    halfwayCoeff s = 1 - min 0.9999999 (1 - (1.13228543863477 * E / (s + E) - 0.00000005273477)) := by
  refine ⟨Real.exp 0.861624594696583, exp_E.1, exp_E.2, ?_⟩
  unfold halfwayCoeff logistic
  rw [max_eq_right h1]
  have e : Real.exp (0 - (Real.log s - 0.861624594696583)) = Real.exp 0.861624594696583 / s := by
    rw [show (0 : ℝ) - (Real.log s - 0.861624594696583) = 0.861624594696583 - Real.log s by ring, Real.exp_sub, Real.exp_log (by linarith)]
  rw [e]
  have hE := Real.exp_pos 0.861624594696583
  generalize Real.exp 0.861624594696583 = E at hE
  have hs : 0 < s := by linarith
  congr 2
  field_simp
  ring

theorem halfway_low {s : ℝ} (h1 : 8 ≤ s) (h2 : s ≤ 400000) : 2.6588 / (s + 2.367) ≤ halfwayCoeff s := by
  obtain ⟨E, e1, e2, e⟩ := halfway_base (s := s) (by linarith)
  rw [e]
  have m := min_le_right (0.9999999 : ℝ) (1 - (1.13228543863477 * E / (s + E) - 0.00000005273477))
  have h : 1.13228543863477 * 2.367 / (s + 2.367) ≤ 1.13228543863477 * E / (s + E) := by
    rw [div_le_div_iff₀ (by linarith) (by linarith)]
    nlinarith
  have h' : 2.6588 / (s + 2.367) ≤ 1.13228543863477 * 2.367 / (s + 2.367) - 0.00000005273477 := by
    rw [le_sub_iff_add_le, le_div_iff₀ (by linarith), add_mul, div_mul_cancel₀ _ (by linarith)]
    norm_num
    linarith
  linarith

theorem halfway_high {s : ℝ} (h1 : 16 ≤ s) : halfwayCoeff s ≤ 0.16 := by
  obtain ⟨E, e1, e2, e⟩ := halfway_base (s := s) (by linarith)
  rw [e]
  have h : 1.13228543863477 * E / (s + E) ≤ 0.16 := by
    rw [div_le_iff₀ (by linarith)]
    norm_num at e2 ⊢
    linarith
  have : 0.84 ≤ min (0.9999999 : ℝ) (1 - (1.13228543863477 * E / (s + E) - 0.00000005273477)) := le_min (by norm_num) (by norm_num at h ⊢; linarith)
  linarith

theorem halfway_one : halfwayCoeff 1 ≤ 0.8 := by
  obtain ⟨E, e1, e2, e⟩ := halfway_base (s := 1) le_rfl
  rw [e]
  have h : 1.13228543863477 * E / (1 + E) ≤ 0.8 := by
    rw [div_le_iff₀ (by linarith)]
    norm_num at e2 ⊢
    linarith
  have : 0.2 ≤ min (0.9999999 : ℝ) (1 - (1.13228543863477 * E / (1 + E) - 0.00000005273477)) := le_min (by norm_num) (by norm_num at h ⊢; linarith)
  linarith

theorem left_le_exp {c : ℝ} (h0 : 0 ≤ c) (h1 : c < 1) (m : ℕ) :
    stepLeft c m ≤ Real.exp (-(m * (c + c ^ 2 / 2))) * (1 + m * (c + c ^ 2 / 2) + (m * (c + c ^ 2 / 2)) ^ 2 / 2) := by
  have hl : c + c ^ 2 / 2 ≤ -Real.log (1 - c) := by
    have := (Real.hasSum_pow_div_log_of_abs_lt_one (x := c) (by rw [abs_of_nonneg h0]; exact h1))
    have := sum_le_hasSum (Finset.range 2) (fun i _ => by positivity) this
    norm_num [Finset.sum_range_succ] at this
    linarith
  have hp : (0 : ℝ) < 1 - c := by linarith
  have hm : (0 : ℝ) ≤ m := Nat.cast_nonneg m
  have e : (1 - c) ^ m = Real.exp (m * Real.log (1 - c)) := by
    rw [mul_comm, Real.exp_mul, Real.exp_log hp, Real.rpow_natCast]
  unfold stepLeft
  rw [e]
  refine mul_le_mul (Real.exp_le_exp.2 (by nlinarith)) ?_ (by positivity) (Real.exp_pos _).le
  have : 0 ≤ (m : ℝ) ^ 2 * (c ^ 3 + c ^ 4 / 4) := by positivity
  nlinarith

theorem exp_poly_anti {z d : ℝ} (hz : 0 ≤ z) (hd : 0 ≤ d) : Real.exp (-(z + d)) * (1 + (z + d) + (z + d) ^ 2 / 2) ≤ Real.exp (-z) * (1 + z + z ^ 2 / 2) := by
  have q := Real.quadratic_le_exp_of_nonneg hd
  have e : Real.exp (-z) = Real.exp (-(z + d)) * Real.exp d := by rw [← Real.exp_add]; congr 1; ring
  rw [e, mul_assoc]
  refine mul_le_mul_of_nonneg_left ?_ (Real.exp_pos _).le
  have : 0 ≤ 1 + z + z ^ 2 / 2 := by positivity
  have := mul_le_mul_of_nonneg_right q this
  refine le_trans ?_ this
  have : 0 ≤ d * z ^ 2 + d ^ 2 * z := by positivity
  have : 0 ≤ d ^ 2 * z ^ 2 := by positivity
  nlinarith

theorem exp_56 : Real.exp (-5.6) * (1 + 5.6 + 5.6 ^ 2 / 2) ≤ 0.083 := by
  have g1 := Real.exp_one_gt_d9
  have q := Real.quadratic_le_exp_of_nonneg (x := 0.3) (by norm_num)
  have e : Real.exp 5.6 = Real.exp 1 ^ 5 * Real.exp 0.3 ^ 2 := by
    rw [← Real.exp_nat_mul, ← Real.exp_nat_mul, ← Real.exp_add]; norm_num
  have c1 : (148.4 : ℝ) ≤ Real.exp 1 ^ 5 := le_trans (by norm_num) (pow_le_pow_left₀ (by norm_num) g1.le 5)
  have c2 : (1.345 : ℝ) ^ 2 ≤ Real.exp 0.3 ^ 2 := pow_le_pow_left₀ (by norm_num) (le_trans (by norm_num) q) 2
  have c : (268.45 : ℝ) ≤ Real.exp 5.6 := by
    rw [e]; exact le_trans (by norm_num) (mul_le_mul c1 c2 (by norm_num) (by positivity))
  rw [Real.exp_neg, inv_mul_le_iff₀ (Real.exp_pos _)]
  norm_num at c ⊢
  linarith

/-- With attack of `u` samples, at most 8.3 percent of a rise is left after the lookahead. -/
theorem left_lookahead {u : ℝ} (h1 : 20 ≤ u) (h2 : u ≤ 1000000) {L : ℕ} (hL : u - 1 / 2 ≤ L) : stepLeft (halfwayCoeff (2 / 5 * u)) L ≤ 0.083 := by
  have lo := halfway_low (s := 2 / 5 * u) (by linarith) (by linarith)
  have m := halfwayCoeff_mem (2 / 5 * u)
  refine (stepLeft_anti (by positivity) lo m.2 L).trans ?_
  obtain ⟨v, hv⟩ : ∃ v, v = 2 / 5 * u + 2.367 := ⟨_, rfl⟩
  rw [← hv]
  have hv1 : 10.367 ≤ v := by rw [hv]; norm_num; linarith
  have hv0 : 0 < v := by linarith
  have hc1 : 2.6588 / v < 1 := by rw [div_lt_one hv0]; norm_num at hv1 ⊢; linarith
  refine (left_le_exp (by positivity) hc1 L).trans ?_
  have hz : 5.6 ≤ L * (2.6588 / v + (2.6588 / v) ^ 2 / 2) := by
    have hL' : 2.5 * v - 6.4175 ≤ L := by rw [hv]; norm_num at hL ⊢; linarith
    refine le_trans ?_ (mul_le_mul_of_nonneg_right hL' (by positivity))
    have e : (2.5 * v - 6.4175) * (2.6588 / v + (2.6588 / v) ^ 2 / 2) = ((2.5 * v - 6.4175) * (2.6588 * v + 2.6588 ^ 2 / 2)) / v ^ 2 := by
      field_simp
    rw [e, le_div_iff₀ (by positivity)]
    norm_num at hv1 ⊢
    nlinarith
  have := exp_poly_anti (z := 5.6) (d := L * (2.6588 / v + (2.6588 / v) ^ 2 / 2) - 5.6) (by norm_num) (by linarith)
  rw [add_sub_cancel] at this
  exact this.trans exp_56

end Fundsp.Dyn
