import Verif.Dyn.Limiter
import Verif.Math.Props

/-! C46 to C48: limiter, declicker, meters. -/

namespace Fundsp.Dyn
open Fundsp.Filter Fundsp.Math

variable {n : Nat}

/-! ## Limiter (C46) -/

/-- Specification. Every output frame of the limiter is the input frame `L` samples earlier divided by `gain`; silence before. -/
def LimitsBy (L : Nat) (x : Nat → Frame ℝ n) (out : Nat → Option (Frame ℝ n)) (gain : Nat → ℝ) : Prop :=
  ∀ k, out k = some (if k < L then fun _ => 0 else fun c => x (k - L) c / gain k)

theorem exists_peak {L : Nat} (hL : 1 ≤ L) (x : Nat → Frame ℝ n) : ∃ peak : Nat → ℝ, ∀ k, IsPeak L x k (peak k) := by
  have : ∀ k, ∃ p, IsPeak L x k p := fun k => by
    obtain ⟨t, _, h⟩ := limRun_ok hL (limNew_ok (n := n) hL 1 1 x) k
    obtain ⟨_, p, _, _, _, hp, _⟩ := limTick_red hL h
    exact ⟨p, hp⟩
  exact ⟨fun k => (this k).choose, fun k => (this k).choose_spec⟩

theorem IsPeak.nonneg {L k : Nat} {x : Nat → Frame ℝ n} {p : ℝ} (h : IsPeak L x k p) : 0 ≤ p := by
  obtain ⟨m, _, _, rfl⟩ := h.1
  exact amp_nonneg _

/-- **C46, maximum tracker.** From construction on the limiter never panics, and after every sample its maximum tracker holds exactly the
largest magnitude among the last `L` input frames (or among all frames so far, when there are fewer). -/
theorem C46_peak {L : Nat} (hL : 1 ≤ L) (a r : ℝ) (x : Nat → Frame ℝ n) (k : Nat) :
    ∃ t p, limRun (limNew n L a r) x (k + 1) = some t ∧ rbTotal t.red = some p ∧ IsPeak L x k p := by
  obtain ⟨t, h1, h2⟩ := limRun_ok hL (limNew_ok hL a r x) k
  obtain ⟨t', p, h3, h4, _, h5, _⟩ := limTick_ok hL h2
  exact ⟨t', p, by rw [limRun, h1, Option.bind_some, h5]; rfl, h4, h3⟩

/-- The amplitude of a frame is the largest magnitude of its channels. -/
theorem C46_amplitude (x : Frame ℝ (n + 1)) : IsGreatest {a | ∃ c, a = |x c|} (amp x) := by
  refine ⟨?_, fun a ⟨c, h⟩ => h ▸ (le_foldl x 0).2 c⟩
  by_contra hne
  have hlt : ∀ c, |x c| < amp x := fun c => lt_of_le_of_ne ((le_foldl x 0).2 c) (fun e => hne ⟨c, e.symm⟩)
  have : ∃ b, b < amp x ∧ 0 ≤ b ∧ ∀ c, |x c| ≤ b := by
    obtain ⟨c, _, hc⟩ := Finset.exists_max_image Finset.univ (fun c => |x c|) ⟨0, Finset.mem_univ _⟩
    exact ⟨|x c|, hlt c, abs_nonneg _, fun d => hc d (Finset.mem_univ _)⟩
  obtain ⟨b, b1, b2, b3⟩ := this
  exact absurd (foldl_le x b3 0 b2) (not_le.2 b1)

/-- The first step of the follower of a fresh limiter jumps to its target. -/
theorem fresh_first (a r v x : ℝ) : (afollowTick (folSet (folNew a r) v) x).1 = ⟨x, x, x, a, r, a, r⟩ := by
  simp [afollowTick, folSet, folNew, filterPole_same]

theorem fresh_gain (a r v : ℝ) (ha : 0 ≤ a ∧ a ≤ 1) (hr : 0 ≤ r ∧ r ≤ 1) {w : Nat → Frame ℝ 1} {lo hi : ℝ} (hw : Within lo hi (fun k => w k 0)) (k : Nat) :
    lo ≤ afollowNode.ticks.out (folSet (folNew a r) v) w k 0 ∧ afollowNode.ticks.out (folSet (folNew a r) v) w k 0 ≤ hi := by
  have hs : ∀ k, AFollowSt.Ok (afollowNode.ticks.st (folSet (folNew a r) v) w (k + 1)) ∧ AFollowSt.In lo hi (afollowNode.ticks.st (folSet (folNew a r) v) w (k + 1)) := by
    intro k
    induction k with
    | zero =>
      show AFollowSt.Ok (afollowTick (folSet (folNew a r) v) (w 0 0)).1 ∧ AFollowSt.In lo hi (afollowTick (folSet (folNew a r) v) (w 0 0)).1
      rw [fresh_first]
      exact ⟨⟨ha, hr, ha, hr⟩, hw 0, hw 0, hw 0⟩
    | succ k ih => exact ⟨ih.1.tick _, afollow_in ih.1 ih.2 (hw (k + 1))⟩
  exact (hs k).2.2.2

/-- **C46, gain.** The output of a fresh limiter with lookahead of `L` samples is the input `L` samples earlier divided by a common gain that is
never below one, so the limiter never amplifies. When all magnitudes are at most `A`, the gain never exceeds the larger of one and `1.1 * A`. -/
theorem C46_gain {L : Nat} (hL : 1 ≤ L) {a r : ℝ} (ha : 0 ≤ a ∧ a ≤ 1) (hr : 0 ≤ r ∧ r ≤ 1) (x : Nat → Frame ℝ n) :
    ∃ gain : Nat → ℝ, LimitsBy L x (limOut (limNew n L a r) x) gain ∧ (∀ k, 1 ≤ gain k) ∧
      ∀ A, (∀ k, amp (x k) ≤ A) → ∀ k, gain k ≤ max 1 (A * (11 / 10)) := by
  obtain ⟨peak, hpk⟩ := exists_peak hL x
  refine ⟨gainStream (folSet (folNew a r) (peak (L - 1))) peak L, fun k => ?_, fun k => ?_, fun A hA k => ?_⟩
  · rw [lim_out hL (limNew_ok hL a r x) hpk]
    simp only [div_eq_mul_inv, one_mul]; rfl
  · have hw : ∀ N, ∃ hi : ℝ, ∀ j, j < N → max 1 (peak (L + j) * (11 / 10)) ≤ hi := by
      intro N
      induction N with
      | zero => exact ⟨0, fun j hj => absurd hj (by omega)⟩
      | succ N ih =>
        obtain ⟨b, hb⟩ := ih
        refine ⟨max b (max 1 (peak (L + N) * (11 / 10))), fun j hj => ?_⟩
        rcases Nat.lt_succ_iff_lt_or_eq.1 hj with h | rfl
        exacts [(hb j h).trans (le_max_left _ _), le_max_right _ _]
    obtain ⟨hi, h⟩ := hw (k - L + 1)
    let w : Nat → Frame ℝ 1 := fun j _ => if j ≤ k - L then max 1 (peak (L + j) * (11 / 10)) else max 1 hi
    have e : gainStream (folSet (folNew a r) (peak (L - 1))) peak L k = afollowNode.ticks.out (folSet (folNew a r) (peak (L - 1))) w (k - L) 0 :=
      congrFun (afollowNode.ticks.out_congr _ _ _ _ fun j hj => by funext c; simp [w, hj]) 0
    rw [e]
    refine (fresh_gain a r _ ha hr (lo := 1) (hi := max 1 hi) (fun j => ?_) (k - L)).1
    by_cases hj : j ≤ k - L
    · simp only [w, hj, if_true]; exact ⟨le_max_left _ _, (h j (by omega)).trans (le_max_right _ _)⟩
    · simp only [w, hj, if_false]; exact ⟨le_max_left _ _, le_refl _⟩
  · refine (fresh_gain a r _ ha hr (lo := 1) (fun j => ⟨le_max_left _ _, ?_⟩) (k - L)).2
    obtain ⟨m, _, _, e⟩ := (hpk (L + j)).1
    have := hA m
    exact max_le_max (le_refl _) (mul_le_mul_of_nonneg_right (e ▸ this) (by norm_num))

/-- **C46.** Signals with headroom pass unchanged, delayed by the lookahead. -/
theorem C46_transparent {L : Nat} (hL : 1 ≤ L) {a r : ℝ} (ha : 0 ≤ a ∧ a ≤ 1) (hr : 0 ≤ r ∧ r ≤ 1) (x : Nat → Frame ℝ n)
    (hx : ∀ k, amp (x k) ≤ 10 / 11) (k : Nat) :
    limOut (limNew n L a r) x k = some (if k < L then fun _ => 0 else x (k - L)) := by
  obtain ⟨g, h1, h2, h3⟩ := C46_gain hL ha hr x
  have : g k = 1 := le_antisymm (by have := h3 _ hx k; norm_num at this; exact this) (h2 k)
  rw [h1, this]; simp

/-- **C46.** A signal with constant peak level `A` comes out at level `A / max 1 (1.1 A)`, below one, from the first audible sample on. -/
theorem C46_limits {L : Nat} (hL : 1 ≤ L) {a r : ℝ} (ha : 0 ≤ a ∧ a ≤ 1) (hr : 0 ≤ r ∧ r ≤ 1) (x : Nat → Frame ℝ n) {A : ℝ}
    (hx : ∀ k, L ≤ k → IsPeak L x k A) : LimitsBy L x (limOut (limNew n L a r) x) (fun _ => max 1 (A * (11 / 10))) ∧ A / max 1 (A * (11 / 10)) < 1 := by
  obtain ⟨peak, hpk⟩ := exists_peak hL x
  have hA := (hx L (le_refl _)).nonneg
  refine ⟨fun k => ?_, ?_⟩
  · rw [lim_out hL (limNew_ok hL a r x) hpk]
    have e : gainStream (folSet (folNew a r) (peak (L - 1))) peak L k = max 1 (A * (11 / 10)) := by
      have hw : Within (max 1 (A * (11 / 10))) (max 1 (A * (11 / 10))) (fun j => (fun j _ => max 1 (peak (L + j) * (11 / 10)) : Nat → Frame ℝ 1) j 0) := by
        intro j
        have : peak (L + j) = A := (hpk _).unique (hx _ (by omega))
        simp [this]
      have := fresh_gain a r (peak (L - 1)) ha hr (w := fun j _ => max 1 (peak (L + j) * (11 / 10))) hw (k - L)
      exact le_antisymm this.2 this.1
    simp only [show (limNew n L a r).fol = folNew a r from rfl, e, div_eq_mul_inv, one_mul]
  · have h0 : 0 < max 1 (A * (11 / 10)) := lt_of_lt_of_le one_pos (le_max_left _ _)
    rw [div_lt_one h0]
    by_cases h : A < 1
    · exact lt_of_lt_of_le h (le_max_left _ _)
    · exact lt_of_lt_of_le (by linarith) (le_max_right _ _)

/-- The clearing done by `reset`. -/
theorem limReset_ok {L : Nat} (hL : 1 ≤ L) {a r : ℝ} {x y : Nat → Frame ℝ n} {k : Nat} {s : LimSt n} (hs : limRun (limNew n L a r) y k = some s) :
    LimOK L x 0 (limReset s) ∧ (limReset s).fol = s.fol := by
  have key : ∀ k s, limRun (limNew n L a r) y k = some s → s.red.leaf = Chan.nextPowerOfTwo L ∧ s.red.buf.length = (rbNew (0 : ℝ) L).buf.length ∧ s.red.length = L := by
    have up : ∀ i (b c : List ℝ), rbUp max i b = some c → c.length = b.length := by
      intro i
      induction i using Nat.strongRecOn with
      | _ i ih =>
        intro b c h
        rw [rbUp] at h
        split at h
        · rename_i hi
          split at h
          · split at h
            · have := ih (i / 2) (by omega) _ _ h
              rwa [List.length_set] at this
            · exact absurd h (by simp)
          · exact absurd h (by simp)
        · exact (Option.some.inj h) ▸ rfl
    intro k
    induction k with
    | zero => intro s h; obtain rfl := Option.some.inj h; exact ⟨rfl, rfl, rfl⟩
    | succ k ih =>
      intro s h
      rw [limRun] at h
      obtain ⟨t, h1, h2⟩ := Option.bind_eq_some_iff.1 h
      obtain ⟨p, h3, rfl⟩ := Option.map_eq_some_iff.1 h2
      obtain ⟨i1, i2, i3⟩ := ih t h1
      rw [limTick] at h3
      obtain ⟨red, h4, h5⟩ := Option.bind_eq_some_iff.1 h3
      have hred : red.leaf = t.red.leaf ∧ red.buf.length = t.red.buf.length ∧ red.length = t.red.length := by
        rw [rbSet] at h4
        split at h4
        · obtain ⟨b, h6, rfl⟩ := Option.map_eq_some_iff.1 h4
          exact ⟨rfl, by have := up _ _ _ h6; rwa [List.length_set] at this, rfl⟩
        · exact absurd h4 (by simp)
      have : p.1.red = red := by
        split at h5
        · simp only at h5
          split at h5
          · obtain ⟨_, _, rfl⟩ := Option.map_eq_some_iff.1 h5; rfl
          · exact (Option.some.inj h5) ▸ rfl
        · obtain ⟨_, _, h6⟩ := Option.bind_eq_some_iff.1 h5
          obtain ⟨_, _, rfl⟩ := Option.map_eq_some_iff.1 h6; rfl
      rw [this]
      exact ⟨hred.1.trans i1, hred.2.1.trans i2, hred.2.2.trans i3⟩
  obtain ⟨h1, h2, h3⟩ := key k s hs
  have e : limReset s = ⟨rbNew 0 L, s.fol, [], 0⟩ := by
    unfold limReset rbClear
    congr 1
    rw [h1, h3]
    unfold rbNew
    congr 1
    rw [List.map_const', h2]
    simp [rbNew]
  refine ⟨?_, rfl⟩
  rw [e]
  exact ⟨rfl, by simp, by simp, fun m hm => absurd hm (by omega), _, rbNew_ok laws_max hL, fun m hm => absurd hm (by omega), fun _ _ _ => rfl⟩

/-- A reset limiter still delays by its lookahead; only the gain differs. -/
theorem C46_reset_delay {L : Nat} (hL : 1 ≤ L) {a r : ℝ} (x y : Nat → Frame ℝ n) (k : Nat) {s : LimSt n} (hs : limRun (limNew n L a r) y k = some s) :
    ∃ gain, LimitsBy L x (limOut (limReset s) x) gain := by
  obtain ⟨peak, hpk⟩ := exists_peak hL x
  refine ⟨gainStream (folSet s.fol (peak (L - 1))) peak L, fun k => ?_⟩
  rw [lim_out hL (limReset_ok hL hs).1 hpk]
  simp only [div_eq_mul_inv, one_mul]; rfl

/-- **C46, violation after reset.** The full claim (gain at least one, for a limiter in any state) fails: a limiter that has run and is then reset
starts its gain from the level of the first buffer instead of one. Here a constant input 1/10 comes out as 8/17, almost five times louder. -/
theorem C46_reset_violation : ∃ s, limRun (limNew 1 1 (1 / 2) (1 / 2)) (fun _ _ => 1 / 10) 2 = some s ∧
    limOut (limReset s) (fun _ _ => 1 / 10) 1 = some (fun _ => 8 / 17) := by
  have hpk : ∀ k, IsPeak 1 (fun _ _ => 1 / 10 : Nat → Frame ℝ 1) k (1 / 10) := by
    have ha : amp (fun _ => 1 / 10 : Frame ℝ 1) = 1 / 10 := by
      simp only [amp, Fin.foldl_succ, Fin.foldl_zero, abs_of_nonneg (by norm_num : (0:ℝ) ≤ 1 / 10)]
      norm_num
    refine fun k => ⟨⟨k, le_refl _, by omega, ha.symm⟩, ?_⟩
    rintro b ⟨m, _, _, rfl⟩
    exact ha.le
  obtain ⟨s, h1, h2⟩ := lim_follow (le_refl 1) (limNew_ok (n := 1) (le_refl 1) (1 / 2) (1 / 2) _) hpk 1
  refine ⟨s, h1, ?_⟩
  obtain ⟨r1, r2⟩ := limReset_ok (x := fun _ _ => 1 / 10) (le_refl 1) h1
  rw [lim_out (le_refl 1) r1 hpk, r2, h2]
  show some (if 1 < 1 then _ else _) = _
  rw [if_neg (by norm_num)]
  congr 1
  funext c
  have hm : max (1 : ℝ) (1 / 10 * (11 / 10)) = 1 := max_eq_left (by norm_num)
  simp only [hm, gainStream]
  have e : afollowNode.ticks.st (folSet (limNew 1 1 (1 / 2) (1 / 2)).fol (1 / 10)) (fun _ _ => 1) 1 = (⟨1, 1, 1, 1 / 2, 1 / 2, 1 / 2, 1 / 2⟩ : AFollowSt ℝ) :=
    fresh_first _ _ _ _
  rw [e]
  show 1 / 10 * (1 / (afollowTick (folSet (⟨1, 1, 1, 1 / 2, 1 / 2, 1 / 2, 1 / 2⟩ : AFollowSt ℝ) (1 / 10)) 1).2) = 8 / 17
  simp only [afollowTick, folSet, filterPole_same]
  norm_num

/-- A stereo signal with peak 2 fills the hypotheses of `C46_limits`. -/
example : ∀ k, 3 ≤ k → IsPeak 3 (fun _ c => if c = 0 then -2 else 1 : Nat → Frame ℝ 2) k 2 := by
  have ha : amp (fun c => if c = 0 then -2 else 1 : Frame ℝ 2) = 2 := by
    simp [amp, Fin.foldl_succ]
  intro k hk
  refine ⟨⟨k, le_refl _, by omega, ha.symm⟩, ?_⟩
  rintro b ⟨m, _, _, rfl⟩
  exact ha.le

/-! ## Declick (C47) -/

/-- Specification. Gain of the fade-in at sample `k`: a smooth curve over `duration`, then one. -/
noncomputable def fadeGain (duration sampleDuration : ℝ) (k : Nat) : ℝ :=
  if k * sampleDuration < duration then smooth5 (k * sampleDuration / duration) else 1

/-- Two states of the declicker that cannot be told apart. -/
def DecRel (s m : DecSt) : Prop :=
  0 < s.sampleDuration ∧ s.duration = m.duration ∧ s.sampleDuration = m.sampleDuration ∧ (s.t = m.t ∨ (s.duration ≤ s.t ∧ s.duration ≤ m.t))

theorem decRel_tick {s m : DecSt} (h : DecRel s m) (x : Frame ℝ 1) : DecRel (decTick s x).1 (decTick m x).1 ∧ (decTick s x).2 = (decTick m x).2 := by
  obtain ⟨st, sd, ss⟩ := s
  obtain ⟨mt, md, ms⟩ := m
  obtain ⟨h0, h1, h2, h3⟩ := h
  simp only at h0 h1 h2 h3
  subst h1 h2
  unfold decTick
  rcases h3 with rfl | ⟨h3, h4⟩
  · split
    · exact ⟨⟨h0, rfl, rfl, Or.inl rfl⟩, rfl⟩
    · exact ⟨⟨h0, rfl, rfl, Or.inl rfl⟩, rfl⟩
  · simp only [not_lt.2 h3, not_lt.2 h4, if_false]
    exact ⟨⟨h0, rfl, rfl, Or.inr ⟨h3, h4⟩⟩, trivial⟩

/-- The state after `k` ticks, up to indistinguishability. -/
theorem dec_st {s : DecSt} (h : 0 < s.sampleDuration) (w : Nat → Frame ℝ 1) (k : Nat) :
    DecRel ⟨s.t + k * s.sampleDuration, s.duration, s.sampleDuration⟩ (declick.ticks.st s w k) := by
  induction k with
  | zero => exact ⟨h, rfl, rfl, Or.inl (by simp [Mealy.st])⟩
  | succ k ih =>
    have := (decRel_tick ih (w k)).1
    show DecRel _ (decTick (declick.ticks.st s w k) (w k)).1
    generalize decTick (declick.ticks.st s w k) (w k) = m at this ⊢
    obtain ⟨h0, h1, h2, h3⟩ := this
    by_cases ht : s.t + k * s.sampleDuration < s.duration
    · simp only [decTick, ht, if_true] at h0 h1 h2 h3
      refine ⟨h0, h1, h2, ?_⟩
      rcases h3 with h3 | ⟨h3, h4⟩
      · left; rw [← h3]; push_cast; ring
      · right; refine ⟨?_, h4⟩; push_cast; linarith
    · simp only [decTick, ht, if_false] at h0 h1 h2 h3
      refine ⟨h0, h1, h2, ?_⟩
      have h5 : s.duration ≤ m.1.t := by
        rcases h3 with h3 | ⟨_, h4⟩
        · rw [← h3]; exact not_lt.1 ht
        · exact h4
      right; refine ⟨?_, h5⟩; push_cast; linarith [not_lt.1 ht]

theorem dec_out {s : DecSt} (h : 0 < s.sampleDuration) (w : Nat → Frame ℝ 1) (k : Nat) :
    declick.ticks.out s w k = fun _ => w k 0 * (if s.t + k * s.sampleDuration < s.duration then smooth5 ((s.t + k * s.sampleDuration) / s.duration) else 1) := by
  show (decTick (declick.ticks.st s w k) (w k)).2 = _
  rw [← (decRel_tick (dec_st h w k) (w k)).2]
  unfold decTick
  split
  · rename_i hlt; simp only at hlt; simp [hlt, delerp]
  · rename_i hlt; simp only at hlt; simp [hlt]

theorem declick_implements : Implements declick declick.ticks DecRel where
  tick := fun s m x h => decRel_tick h x
  process := by
    intro g s m size inp out hs h
    have hm : 0 < m.sampleDuration := h.2.2.1 ▸ h.1
    have hst := dec_st (s := m) hm inp.frame size
    have hout := dec_out (s := m) hm inp.frame
    generalize declick.ticks.st m inp.frame size = q at hst
    obtain ⟨st, sd, ss⟩ := s
    obtain ⟨mt, md, ms⟩ := m
    obtain ⟨h0, h1, h2, h3⟩ := h
    simp only at h0 h1 h2 h3 hst hout hm
    subst h1 h2
    obtain ⟨q0, q1, q2, q3⟩ := hst
    simp only at q0 q1 q2 q3
    have hsz : (0 : ℝ) ≤ size * ss := by positivity
    show DecRel (decProcess g ⟨st, sd, ss⟩ size inp out).1 q ∧ ∀ k, k < size → (decProcess g ⟨st, sd, ss⟩ size inp out).2.frame k = _
    by_cases hlt : st < sd
    · obtain rfl : st = mt := h3.resolve_right (fun h => absurd hlt (not_lt.2 h.1))
      refine ⟨?_, fun k hk => ?_⟩
      · simp only [decProcess, hlt, if_true]
        exact ⟨q0, q1, q2, q3⟩
      · rw [hout k]
        have hk' : (k : ℝ) + 1 ≤ size := by exact_mod_cast hk
        have hcond : (k < if sd < st + size * ss then ⌈(sd - st) / ss⌉.toNat else size) ↔ st + k * ss < sd := by
          split
          · rw [Int.lt_toNat, Int.lt_ceil, lt_div_iff₀ h0]
            constructor <;> intro h <;> (push_cast at *; linarith)
          · rename_i hge
            refine ⟨fun _ => ?_, fun _ => hk⟩
            nlinarith [not_lt.1 hge]
        funext c
        obtain rfl : c = 0 := Subsingleton.elim _ _
        have hcp := congrFun (setItems_frame inp out hk) 0
        simp only [Buf.frame] at hcp
        simp only [decProcess, hlt, if_true, Buf.frame]
        by_cases hc : st + k * ss < sd
        · rw [if_pos (hcond.2 hc), if_pos hc, hcp]
          congr 2
          simp only [delerp]; ring
        · rw [if_neg (fun h => hc (hcond.1 h)), if_neg hc, hcp, mul_one]
    · have hmt : sd ≤ mt := by rcases h3 with rfl | h; exacts [not_lt.1 hlt, h.2]
      refine ⟨?_, fun k hk => ?_⟩
      · simp only [decProcess, hlt, if_false]
        refine ⟨h0, q1, q2, Or.inr ⟨not_lt.1 hlt, ?_⟩⟩
        rcases q3 with q3 | ⟨_, q3⟩
        · rw [← q3]; show sd ≤ mt + size * ss; linarith
        · exact q3
      · rw [hout k, if_neg (by have : (0 : ℝ) ≤ k * ss := by positivity
                               linarith), mul_one]
        simp only [decProcess, hlt, if_false]
        rw [setItems_frame inp out hk]
        funext c
        obtain rfl : c = 0 := Subsingleton.elim _ _
        rfl

/-- **C47.** A fresh declicker multiplies sample `k` by the fade-in gain. -/
theorem C47_output {duration sampleDuration : ℝ} (h : 0 < sampleDuration) (w : Nat → Frame ℝ 1) (k : Nat) :
    declick.ticks.out ⟨0, duration, sampleDuration⟩ w k 0 = w k 0 * fadeGain duration sampleDuration k := by
  have := congrFun (dec_out (s := ⟨0, duration, sampleDuration⟩) h w k) 0
  simp only [zero_add] at this
  exact this

/-- **C47.** The gain rises monotonically from zero to one and stays there: from sample `duration / sampleDuration` on the signal passes unchanged. -/
theorem C47_fade {duration sampleDuration : ℝ} (hd : 0 < duration) (h : 0 < sampleDuration) :
    Monotone (fadeGain duration sampleDuration) ∧ fadeGain duration sampleDuration 0 = 0 ∧
    (∀ k, 0 ≤ fadeGain duration sampleDuration k ∧ fadeGain duration sampleDuration k ≤ 1) ∧
    ∀ k : Nat, duration / sampleDuration ≤ k ↔ fadeGain duration sampleDuration k = 1 := by
  have hin : ∀ k : Nat, k * sampleDuration < duration → k * sampleDuration / duration ∈ Set.Icc (0 : ℝ) 1 := fun k hk =>
    ⟨by positivity, by rw [div_le_one hd]; exact hk.le⟩
  have h01 : ∀ k, 0 ≤ fadeGain duration sampleDuration k ∧ fadeGain duration sampleDuration k ≤ 1 := by
    intro k
    unfold fadeGain
    split
    · exact C30_smooth5.maps (hin k (by assumption))
    · norm_num
  refine ⟨?_, ?_, h01, ?_⟩
  · intro j k hjk
    have hjk' : (j : ℝ) * sampleDuration ≤ k * sampleDuration := mul_le_mul_of_nonneg_right (by exact_mod_cast hjk) h.le
    by_cases hk : k * sampleDuration < duration
    · have hj := lt_of_le_of_lt hjk' hk
      unfold fadeGain
      rw [if_pos hk, if_pos hj]
      exact C30_smooth5.mono.monotoneOn (hin j hj) (hin k hk) (by gcongr)
    · have : fadeGain duration sampleDuration k = 1 := if_neg hk
      rw [this]; exact (h01 j).2
  · simp [fadeGain, hd, C30_smooth5.zero]
  · intro k
    rw [div_le_iff₀ h]
    constructor
    · intro hk; exact if_neg (not_lt.2 hk)
    · intro hk
      by_contra hlt
      have hlt := not_le.1 hlt
      unfold fadeGain at hk
      rw [if_pos hlt] at hk
      have : smooth5 (k * sampleDuration / duration) < smooth5 1 := C30_smooth5.mono (hin k hlt) ⟨zero_le_one, le_refl _⟩ (by rw [div_lt_one hd]; exact hlt)
      rw [C30_smooth5.one, hk] at this
      exact lt_irrefl _ this

/-- **C47, blocks.** Any sequence of blocks, ticks and resets gives the same samples as ticking. -/
theorem C47_block_equals_tick : BlockEqualsTickOn declick (fun s => 0 < DecSt.sampleDuration s) := by
  intro w cs hcs s hs
  refine exec_of_rel (R := DecRel) ?_ declick_implements w cs hcs 0 s s ⟨hs, rfl, rfl, Or.inl rfl⟩
  rintro s t ⟨h0, h1, h2, _⟩
  exact ⟨h0, h1, h2, Or.inl rfl⟩

example : fadeGain 1 (1 / 4) 2 = 1 / 2 := by
  norm_num [fadeGain, smooth5]

/-! ## Meters (C48) -/

/-- **C48, peak.** A fresh peak meter shows the largest of the past magnitudes, each decayed geometrically by its age. -/
theorem C48_peak {s : ℝ} (hs : 0 ≤ s) (w : Nat → Frame ℝ 1) (k : Nat) :
    IsGreatest {y | ∃ j, j ≤ k ∧ y = s ^ (k - j) * |w j 0|} ((meterNode .peak).ticks.out ⟨s, 0⟩ w k 0) := by
  have hst : ∀ k, ((meterNode .peak).ticks.st ⟨s, 0⟩ w k : MeterSt).smoothing = s := by
    intro k
    induction k with
    | zero => rfl
    | succ k ih => exact ih
  have hout : ∀ k, (meterNode .peak).ticks.out ⟨s, 0⟩ w k 0 = ((meterNode .peak).ticks.st ⟨s, 0⟩ w (k + 1) : MeterSt).state := fun k => rfl
  have hstep : ∀ k, ((meterNode .peak).ticks.st ⟨s, 0⟩ w (k + 1) : MeterSt).state = max (((meterNode .peak).ticks.st ⟨s, 0⟩ w k : MeterSt).state * s) |w k 0| := by
    intro k
    have h : ((meterNode .peak).ticks.st ⟨s, 0⟩ w (k + 1) : MeterSt).state = max (((meterNode .peak).ticks.st ⟨s, 0⟩ w k : MeterSt).state * ((meterNode .peak).ticks.st ⟨s, 0⟩ w k : MeterSt).smoothing) |w k 0| := rfl
    rw [h, hst k]
  induction k with
  | zero =>
    rw [hout, hstep]
    have h0 : ((meterNode .peak).ticks.st ⟨s, 0⟩ w 0 : MeterSt).state = 0 := rfl
    rw [h0, zero_mul, max_eq_right (abs_nonneg _)]
    exact ⟨⟨0, le_refl _, by simp⟩, by rintro y ⟨j, hj, rfl⟩; obtain rfl : j = 0 := by omega
                                       simp⟩
  | succ k ih =>
    rw [hout, hstep]
    rw [hout] at ih
    generalize ((meterNode .peak).ticks.st ⟨s, 0⟩ w (k + 1) : MeterSt).state = p at ih ⊢
    constructor
    · rcases max_choice (p * s) |w (k + 1) 0| with h | h
      · rw [h]
        obtain ⟨j, hj, e⟩ := ih.1
        exact ⟨j, by omega, by rw [e, show k + 1 - j = k - j + 1 by omega, pow_succ]; ring⟩
      · rw [h]; exact ⟨k + 1, le_refl _, by simp⟩
    · rintro y ⟨j, hj, rfl⟩
      rcases Nat.lt_or_ge k j with h | h
      · obtain rfl : j = k + 1 := by omega
        simp
      · have := ih.2 ⟨j, h, rfl⟩
        rw [show k + 1 - j = k - j + 1 by omega, pow_succ]
        refine le_trans ?_ (le_max_left _ _)
        calc s ^ (k - j) * s * |w j 0| = s ^ (k - j) * |w j 0| * s := by ring
          _ ≤ p * s := mul_le_mul_of_nonneg_right this hs

/-- **C48, peak.** The meter never reads below the current magnitude. -/
theorem C48_peak_current {s : ℝ} (hs : 0 ≤ s) (w : Nat → Frame ℝ 1) (k : Nat) : |w k 0| ≤ (meterNode .peak).ticks.out ⟨s, 0⟩ w k 0 :=
  (C48_peak hs w k).2 ⟨k, le_refl _, by simp⟩

/-- **C48, rms.** The square of a fresh rms meter is the exponentially weighted mean square of the past. -/
theorem C48_rms {s : ℝ} (hs : 0 ≤ s) (hs1 : s ≤ 1) (w : Nat → Frame ℝ 1) (k : Nat) :
    0 ≤ (meterNode .rms).ticks.out ⟨s, 0⟩ w k 0 ∧
    (meterNode .rms).ticks.out ⟨s, 0⟩ w k 0 ^ 2 = ∑ j ∈ Finset.range (k + 1), (1 - s) * s ^ (k - j) * (w j 0) ^ 2 := by
  have hst : ∀ k, ((meterNode .rms).ticks.st ⟨s, 0⟩ w k : MeterSt).smoothing = s := by
    intro k
    induction k with
    | zero => rfl
    | succ k ih => exact ih
  have hstep : ∀ k, ((meterNode .rms).ticks.st ⟨s, 0⟩ w (k + 1) : MeterSt).state = ((meterNode .rms).ticks.st ⟨s, 0⟩ w k : MeterSt).state * s + (w k 0) ^ 2 * (1 - s) := by
    intro k
    have h : ((meterNode .rms).ticks.st ⟨s, 0⟩ w (k + 1) : MeterSt).state = ((meterNode .rms).ticks.st ⟨s, 0⟩ w k : MeterSt).state * ((meterNode .rms).ticks.st ⟨s, 0⟩ w k : MeterSt).smoothing + (w k 0) ^ 2 * (1 - ((meterNode .rms).ticks.st ⟨s, 0⟩ w k : MeterSt).smoothing) := rfl
    rw [h, hst k]
  have hsum : ∀ k, ((meterNode .rms).ticks.st ⟨s, 0⟩ w k : MeterSt).state = ∑ j ∈ Finset.range k, (1 - s) * s ^ (k - 1 - j) * (w j 0) ^ 2 := by
    intro k
    induction k with
    | zero => rfl
    | succ k ih =>
      rw [hstep, ih, Finset.sum_range_succ, Finset.sum_mul]
      congr 1
      · refine Finset.sum_congr rfl fun j hj => ?_
        have := Finset.mem_range.1 hj
        rw [show k + 1 - 1 - j = k - 1 - j + 1 by omega, pow_succ]; ring
      · simp; ring
  have hout : (meterNode .rms).ticks.out ⟨s, 0⟩ w k 0 = Real.sqrt (((meterNode .rms).ticks.st ⟨s, 0⟩ w (k + 1) : MeterSt).state) := rfl
  rw [hout, hsum]
  refine ⟨Real.sqrt_nonneg _, ?_⟩
  rw [Real.sq_sqrt]
  · rfl
  · refine Finset.sum_nonneg fun j _ => ?_
    have : 0 ≤ 1 - s := by linarith
    positivity

/-- **C48, rms.** The reading is between zero and any bound on the magnitudes seen. -/
theorem C48_rms_range {s : ℝ} (hs : 0 ≤ s) (hs1 : s ≤ 1) (w : Nat → Frame ℝ 1) (k : Nat) {A : ℝ} (hA : ∀ j, j ≤ k → |w j 0| ≤ A) :
    0 ≤ (meterNode .rms).ticks.out ⟨s, 0⟩ w k 0 ∧ (meterNode .rms).ticks.out ⟨s, 0⟩ w k 0 ≤ A := by
  obtain ⟨h0, h⟩ := C48_rms hs hs1 w k
  refine ⟨h0, ?_⟩
  have hA0 : 0 ≤ A := (abs_nonneg _).trans (hA 0 (by omega))
  refine abs_le_of_sq_le_sq' ?_ hA0 |>.2
  rw [h]
  have hle : ∑ j ∈ Finset.range (k + 1), (1 - s) * s ^ (k - j) * (w j 0) ^ 2 ≤ ∑ j ∈ Finset.range (k + 1), (1 - s) * s ^ (k - j) * A ^ 2 := by
    refine Finset.sum_le_sum fun j hj => ?_
    have hj := Finset.mem_range.1 hj
    have : (w j 0) ^ 2 ≤ A ^ 2 := by rw [← sq_abs (w j 0)]; exact pow_le_pow_left₀ (abs_nonneg _) (hA j (by omega)) 2
    have h2 : 0 ≤ (1 - s) * s ^ (k - j) := mul_nonneg (by linarith) (by positivity)
    exact mul_le_mul_of_nonneg_left this h2
  refine hle.trans ?_
  rw [← Finset.sum_mul]
  have hone : ∑ j ∈ Finset.range (k + 1), (1 - s) * s ^ (k - j) = 1 - s ^ (k + 1) := by
    rw [← Finset.mul_sum]
    have := Finset.sum_range_reflect (fun j => s ^ j) (k + 1)
    simp only [Nat.add_sub_cancel] at this
    rw [this, mul_comm]
    have := geom_sum_mul_neg s (k + 1)
    linarith
  rw [hone]
  have : 0 ≤ s ^ (k + 1) := by positivity
  nlinarith [sq_nonneg A]

/-- **C48, timescale.** After `timescale` seconds without input the internal level has halved. -/
theorem C48_timescale {timescale sr : ℝ} (ht : 0 < timescale) (hsr : 0 < sr) :
    0 < meterSmoothing timescale sr ∧ meterSmoothing timescale sr < 1 ∧ meterSmoothing timescale sr ^ (timescale * sr) = 1 / 2 := by
  have hp : 0 < timescale * sr := mul_pos ht hsr
  unfold meterSmoothing
  refine ⟨by positivity, Real.rpow_lt_one (by norm_num) (by norm_num) (by positivity), ?_⟩
  rw [← Real.rpow_mul (by norm_num), one_div_mul_cancel hp.ne', Real.rpow_one]

/-- **C48, sample.** Sample mode shows the latest sample. -/
theorem C48_sample (s : MeterSt) (w : Nat → Frame ℝ 1) (k : Nat) : (meterNode .sample).ticks.out s w k 0 = w k 0 := rfl

theorem monitor_st (m : Meter) (s : MeterSt × ℝ) (w : Nat → Frame ℝ 1) (k : Nat) :
    ((monitor m).ticks.st s w k : MeterSt × ℝ).1 = (meterNode m).ticks.st s.1 w k := by
  induction k with
  | zero => rfl
  | succ k ih =>
    show meterTick m ((monitor m).ticks.st s w k : MeterSt × ℝ).1 (w k 0) = meterTick m ((meterNode m).ticks.st s.1 w k) (w k 0)
    rw [ih]

/-- **C48, monitor.** The signal passes unchanged, and after every sample the shared variable holds what a meter node would output. -/
theorem C48_monitor (m : Meter) (s : MeterSt × ℝ) (w : Nat → Frame ℝ 1) (k : Nat) :
    (monitor m).ticks.out s w k = w k ∧ ((monitor m).ticks.st s w (k + 1) : MeterSt × ℝ).2 = (meterNode m).ticks.out s.1 w k 0 := by
  refine ⟨rfl, ?_⟩
  show meterLevel m (meterTick m ((monitor m).ticks.st s w k : MeterSt × ℝ).1 (w k 0)) = _
  rw [monitor_st]
  rfl

/-- **C48, monitor in blocks.** Processing a block leaves the monitor, with its shared variable, exactly as ticking it does, and gives the same samples. -/
theorem C48_monitor_exact (m : Meter) : ExactProcess (monitor m) (fun _ => True) := by
  intro g s size inp out _ _
  have hm := C48_monitor m s inp.frame
  have hst := monitor_st m s inp.frame
  cases size with
  | zero => exact ⟨rfl, fun k hk => absurd hk (by omega)⟩
  | succ size =>
    have hfold : ∀ k, (List.range k).foldl (fun st i => meterTick m st (inp 0 i)) s.1 = (meterNode m).ticks.st s.1 inp.frame k := by
      intro k
      induction k with
      | zero => rfl
      | succ k ih => rw [List.range_succ, List.foldl_append, ih]; rfl
    have hsame : monitorBlock m s.1 (size + 1) inp = (meterNode m).ticks.st s.1 inp.frame (size + 1) := by
      rw [← hfold]
      match m with
      | .sample =>
        rw [List.range_succ, List.foldl_append]
        have : ∀ k, ((List.range k).foldl (fun st i => meterTick .sample st (inp 0 i)) s.1).smoothing = s.1.smoothing := by
          intro k
          induction k with
          | zero => rfl
          | succ k ih => rw [List.range_succ, List.foldl_append]; exact ih
        have h2 := this size
        show meterTick .sample s.1 (inp 0 size) = meterTick .sample _ (inp 0 size)
        show MeterSt.mk _ _ = MeterSt.mk _ _
        rw [h2]
      | .peak => rfl
      | .rms => rfl
    refine ⟨?_, fun k hk => ?_⟩
    · refine Prod.ext ?_ ?_
      · show monitorBlock m s.1 (size + 1) inp = _
        rw [hsame]; exact (hst (size + 1)).symm
      · show meterLevel m (monitorBlock m s.1 (size + 1) inp) = _
        rw [hsame]
        exact (hm size).2.symm
    · rw [(hm k).1]
      exact setItems_frame inp out hk

/-- **C48.** Meter and monitor may be used in any mix of blocks and ticks. -/
theorem C48_block_equals_tick (m : Meter) : BlockEqualsTick (monitor m) ∧ TickBlock (meterNode m) :=
  ⟨blockEqualsTick_of_exact (C48_monitor_exact m), tickBlock_ofTick _ _⟩

example : (meterNode .peak).ticks.out ⟨1 / 2, 0⟩ (fun k _ => if k = 0 then -4 else 0) 2 0 = 1 := by
  show meterLevel .peak (meterTick .peak (meterTick .peak (meterTick .peak ⟨1 / 2, 0⟩ (-4)) 0) 0) = 1
  norm_num [meterTick, meterLevel]

end Fundsp.Dyn
