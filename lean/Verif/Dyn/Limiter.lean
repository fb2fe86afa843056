import Verif.Dyn.Reduce

/-! C46: the limiter. -/

namespace Fundsp.Dyn
open Fundsp.Filter

variable {n : Nat}

theorem amp_foldl (x : Fin n → ℝ) : ∀ a : ℝ, 0 ≤ a → 0 ≤ Fin.foldl n (fun a c => max a |x c|) a := by
  induction n with
  | zero => intro a h; simpa using h
  | succ n ih =>
    intro a h
    rw [Fin.foldl_succ]
    exact ih (fun c => x c.succ) _ (h.trans (le_max_left _ _))

theorem amp_nonneg (x : Frame ℝ n) : 0 ≤ amp x := amp_foldl x 0 (le_refl _)

theorem le_foldl (x : Fin n → ℝ) : ∀ a : ℝ, a ≤ Fin.foldl n (fun a c => max a |x c|) a ∧ ∀ c, |x c| ≤ Fin.foldl n (fun a c => max a |x c|) a := by
  induction n with
  | zero => intro a; exact ⟨by simp, fun c => c.elim0⟩
  | succ n ih =>
    intro a
    rw [Fin.foldl_succ]
    obtain ⟨h1, h2⟩ := ih (fun c => x c.succ) (max a |x 0|)
    exact ⟨(le_max_left _ _).trans h1, fun c => Fin.cases ((le_max_right _ _).trans h1) h2 c⟩

theorem foldl_le (x : Fin n → ℝ) {b : ℝ} (h : ∀ c, |x c| ≤ b) : ∀ a : ℝ, a ≤ b → Fin.foldl n (fun a c => max a |x c|) a ≤ b := by
  induction n with
  | zero => intro a h; simpa using h
  | succ n ih =>
    intro a ha
    rw [Fin.foldl_succ]
    exact ih (fun c => x c.succ) (fun c => h _) _ (max_le ha (h 0))

theorem combined_max_le {m : Nat} {v : Nat → ℝ} {b : ℝ} (hb : 0 ≤ b) : combined max 0 m v ≤ b ↔ ∀ j < m, v j ≤ b := by
  induction m with
  | zero => simp [combined, hb]
  | succ m ih =>
    have e : combined max 0 (m + 1) v = max (combined max 0 m v) (v m) := by
      unfold combined; rw [List.range_succ, List.foldl_append]; rfl
    rw [e, max_le_iff, ih]
    constructor
    · rintro ⟨h1, h2⟩ j hj
      rcases Nat.lt_succ_iff_lt_or_eq.1 hj with h | rfl
      exacts [h1 j h, h2]
    · exact fun h => ⟨fun j hj => h j (by omega), h m (by omega)⟩

/-- State of a limiter made with length `L` after `k` samples of `x`. -/
structure LimOK (L : Nat) (x : Nat → Frame ℝ n) (k : Nat) (s : LimSt n) : Prop where
  len : s.red.length = L
  index : s.index = k % L
  buflen : s.buf.length = min k L
  buf : ∀ m, m < k → k ≤ m + L → s.buf[m % L]? = some (x m)
  red : ∃ v, RBOK max 0 (fun y => 0 ≤ y) s.red v ∧ (∀ m, m < k → k ≤ m + L → v (m % L) = amp (x m)) ∧ ∀ j, k ≤ j → j < L → v j = 0

/-- Specification. The largest amplitude among the `L` inputs up to input `k`. -/
def IsPeak (L : Nat) (x : Nat → Frame ℝ n) (k : Nat) (p : ℝ) : Prop :=
  IsGreatest {a | ∃ m, m ≤ k ∧ k < m + L ∧ a = amp (x m)} p

theorem window_index {L k j : Nat} (hj : j < L) (hk : L ≤ k ∨ j < k) : ∃ m, m < k ∧ k ≤ m + L ∧ m % L = j := by
  have hL : 0 < L := by omega
  by_cases h : j < k % L
  · refine ⟨k / L * L + j, ?_, ?_, ?_⟩
    · have := Nat.div_add_mod k L; rw [Nat.mul_comm] at this; omega
    · have := Nat.div_add_mod k L; rw [Nat.mul_comm] at this; have := Nat.mod_lt k hL; omega
    · rw [Nat.mul_add_mod', Nat.mod_eq_of_lt hj]
  · have h1 : 1 ≤ k / L := by
      rcases hk with hk | hk
      · exact Nat.div_pos hk hL
      · by_contra h0
        rw [Nat.mod_eq_of_lt ((Nat.div_eq_zero_iff_lt hL).1 (Nat.eq_zero_of_not_pos h0))] at h
        exact h hk
    refine ⟨(k / L - 1) * L + j, ?_, ?_, ?_⟩
    · have := Nat.div_add_mod k L; rw [Nat.mul_comm] at this
      have e : k / L * L = (k / L - 1) * L + L := by rw [← Nat.succ_mul]; congr 1; omega
      omega
    · have := Nat.div_add_mod k L; rw [Nat.mul_comm] at this
      have e : k / L * L = (k / L - 1) * L + L := by rw [← Nat.succ_mul]; congr 1; omega
      omega
    · rw [Nat.mul_add_mod', Nat.mod_eq_of_lt hj]

theorem mod_inj {L m k : Nat} (hm : m < k) (hk : k < m + L) : m % L ≠ k % L := by
  intro h
  have := (Nat.modEq_iff_dvd' hm.le).1 h
  have := Nat.le_of_dvd (by omega) this
  omega

theorem advance_mod {L k : Nat} (hL : 1 ≤ L) : limAdvance L (k % L) = (k + 1) % L := by
  unfold limAdvance
  have hlt := Nat.mod_lt k hL
  have e := Nat.div_add_mod k L
  generalize hq : k / L = q at e
  generalize hr : k % L = r at e hlt
  rw [← e, Nat.add_assoc, Nat.mul_add_mod]
  split
  · rw [show r + 1 = L by omega, Nat.mod_self]
  · rw [Nat.mod_eq_of_lt (by omega)]

/-- One tick: the new reducer holds the peak of the window. -/
theorem limTick_red {L k : Nat} (hL : 1 ≤ L) {x : Nat → Frame ℝ n} {s : LimSt n} (h : LimOK L x k s) :
    ∃ red p, rbSet max s.red s.index (amp (x k)) = some red ∧ red.length = L ∧ rbTotal red = some p ∧ IsPeak L x k p ∧
      ∃ v, RBOK max 0 (fun y => 0 ≤ y) red v ∧ (∀ m, m < k + 1 → k + 1 ≤ m + L → v (m % L) = amp (x m)) ∧ ∀ j, k + 1 ≤ j → j < L → v j = 0 := by
  obtain ⟨v, h1, h2, h3⟩ := h.red
  have hlen := h.len
  obtain ⟨red, r1, r2, r3⟩ := rbSet_ok laws_max h1 (index := s.index) (by rw [h.index, hlen]; exact Nat.mod_lt _ hL) (amp_nonneg (x k))
  rw [h.index] at r3
  have hv : ∀ m, m < k + 1 → k + 1 ≤ m + L → (if m % L = k % L then amp (x k) else v (m % L)) = amp (x m) := by
    intro m hm hmL
    by_cases hmk : m = k
    · rw [hmk, if_pos rfl]
    · rw [if_neg (mod_inj (by omega) (by omega))]
      exact h2 m (by omega) (by omega)
  have hz : ∀ j, k + 1 ≤ j → j < L → (if j = k % L then amp (x k) else v j) = 0 := by
    intro j hj hjL
    rw [if_neg (by rw [Nat.mod_eq_of_lt (by omega)]; omega)]
    exact h3 j (by omega) hjL
  refine ⟨red, _, r1, r2.trans hlen, r3.total laws_max, ?_, _, r3, hv, hz⟩
  rw [r2, hlen]
  have hnn : ∀ j, 0 ≤ (if j = k % L then amp (x k) else v j) ∨ L ≤ j := by
    intro j
    by_cases hj : j < L
    · left
      by_cases hk : L ≤ k + 1 ∨ j < k + 1
      · obtain ⟨m, m1, m2, rfl⟩ := window_index hj hk
        rw [hv m m1 m2]; exact amp_nonneg _
      · rw [hz j (by omega) hj]
    · right; omega
  have hle : ∀ b : ℝ, 0 ≤ b → (combined max 0 L (fun j => if j = k % L then amp (x k) else v j) ≤ b ↔ ∀ m, m ≤ k → k < m + L → amp (x m) ≤ b) := by
    intro b hb
    rw [combined_max_le hb]
    constructor
    · intro hb m m1 m2
      rw [← hv m (by omega) (by omega)]
      exact hb _ (Nat.mod_lt _ hL)
    · intro hb' j hj
      by_cases hk : L ≤ k + 1 ∨ j < k + 1
      · obtain ⟨m, m1, m2, rfl⟩ := window_index hj hk
        rw [hv m m1 m2]; exact hb' m (by omega) (by omega)
      · rw [hz j (by omega) hj]; exact hb
  set p := combined max 0 L (fun j => if j = k % L then amp (x k) else v j) with hp
  have hp0 : 0 ≤ p := by
    by_contra hneg
    have h0 : p ≤ 0 := by linarith
    have hk := (hle 0 (le_refl _)).1 h0 k (le_refl _) (by omega)
    -- the value at the current index is among those combined
    have : ∀ (m : Nat) (w : Nat → ℝ), 0 ≤ combined max 0 m w := by
      intro m w
      induction m with
      | zero => simp [combined]
      | succ m ih =>
        have e : combined max 0 (m + 1) w = max (combined max 0 m w) (w m) := by
          unfold combined; rw [List.range_succ, List.foldl_append]; rfl
        rw [e]; exact ih.trans (le_max_left _ _)
    exact hneg (this _ _)
  refine ⟨?_, ?_⟩
  · by_contra hne
    -- otherwise the peak of the finitely many amplitudes would be smaller
    have hlt : ∀ m, m ≤ k → k < m + L → amp (x m) < p := fun m m1 m2 =>
      lt_of_le_of_ne ((hle p hp0).1 (le_refl _) m m1 m2) (fun e => hne ⟨m, m1, m2, e.symm⟩)
    have hS : ∃ b, 0 ≤ b ∧ b < p ∧ ∀ m, m ≤ k → k < m + L → amp (x m) ≤ b := by
      have : ∀ N, ∃ b, 0 ≤ b ∧ b < p ∧ ∀ m, m < N → m ≤ k → k < m + L → amp (x m) ≤ b := by
        intro N
        induction N with
        | zero => exact ⟨0, le_refl _, lt_of_le_of_lt (amp_nonneg (x k)) (hlt k (le_refl _) (by omega)), fun m hm => absurd hm (by omega)⟩
        | succ N ih =>
          obtain ⟨b, b1, b2, b3⟩ := ih
          by_cases hN : N ≤ k ∧ k < N + L
          · refine ⟨max b (amp (x N)), b1.trans (le_max_left _ _), max_lt b2 (hlt N hN.1 hN.2), fun m hm m1 m2 => ?_⟩
            rcases Nat.lt_succ_iff_lt_or_eq.1 hm with h | rfl
            exacts [(b3 m h m1 m2).trans (le_max_left _ _), le_max_right _ _]
          · refine ⟨b, b1, b2, fun m hm m1 m2 => ?_⟩
            rcases Nat.lt_succ_iff_lt_or_eq.1 hm with h | rfl
            exacts [b3 m h m1 m2, absurd ⟨m1, m2⟩ hN]
      obtain ⟨b, b1, b2, b3⟩ := this (k + 1)
      exact ⟨b, b1, b2, fun m m1 m2 => b3 m (by omega) m1 m2⟩
    obtain ⟨b, b1, b2, b3⟩ := hS
    exact absurd ((hle b b1).2 b3) (not_le.2 b2)
  · rintro a ⟨m, m1, m2, rfl⟩
    exact (hle p hp0).1 (le_refl _) m m1 m2

/-- The state after a tick, and its output. -/
theorem limTick_ok {L k : Nat} (hL : 1 ≤ L) {x : Nat → Frame ℝ n} {s : LimSt n} (h : LimOK L x k s) :
    ∃ t p, IsPeak L x k p ∧ rbTotal t.red = some p ∧ LimOK L x (k + 1) t ∧
      limTick s (x k) = some (t, if k < L then fun _ => 0 else fun c => x (k - L) c * (1 / t.fol.v3)) ∧
      t.fol = (if k + 1 < L then s.fol else if k + 1 = L then folSet s.fol p else (afollowTick s.fol (max 1 (p * (11 / 10)))).1) := by
  obtain ⟨red, p, r1, r2, r3, r4, r5⟩ := limTick_red hL h
  have hbl := h.buflen
  by_cases hk : k < L
  · have hbk : s.buf.length = k := by omega
    have hb : ∀ m, m < k + 1 → k + 1 ≤ m + L → (s.buf ++ [x k])[m % L]? = some (x m) := by
      intro m m1 m2
      rw [Nat.mod_eq_of_lt (by omega)]
      by_cases hm : m < k
      · rw [List.getElem?_append_left (by omega)]
        have := h.buf m hm (by omega)
        rwa [Nat.mod_eq_of_lt (by omega)] at this
      · rw [List.getElem?_append_right (by omega), show m - s.buf.length = 0 by omega, show m = k by omega]; rfl
    by_cases hk1 : k + 1 = L
    · refine ⟨⟨red, folSet s.fol p, s.buf ++ [x k], limAdvance L s.index⟩, p, r4, r3, ⟨r2, ?_, ?_, hb, r5⟩, ?_, ?_⟩
      · show limAdvance L s.index = _
        rw [h.index, advance_mod hL]
      · show (s.buf ++ [x k]).length = _
        rw [List.length_append, List.length_singleton]; omega
      · rw [limTick, r1, Option.bind_some]
        simp only [r2, hbk, if_pos hk, List.length_append, List.length_singleton, if_pos hk1, r3, Option.map_some]
      · rw [if_neg (by omega), if_pos hk1]
    · refine ⟨⟨red, s.fol, s.buf ++ [x k], limAdvance L s.index⟩, p, r4, r3, ⟨r2, ?_, ?_, hb, r5⟩, ?_, ?_⟩
      · show limAdvance L s.index = _
        rw [h.index, advance_mod hL]
      · show (s.buf ++ [x k]).length = _
        rw [List.length_append, List.length_singleton]; omega
      · rw [limTick, r1, Option.bind_some]
        simp only [r2, hbk, if_pos hk, List.length_append, List.length_singleton, if_neg hk1]
      · rw [if_pos (by omega)]
  · have hbk : s.buf.length = L := by omega
    have hidx : s.buf[s.index]? = some (x (k - L)) := by
      have := h.buf (k - L) (by omega) (by omega)
      rw [h.index, show k % L = (k - L) % L from Nat.mod_eq_sub_mod (by omega)]
      exact this
    refine ⟨⟨red, (afollowTick s.fol (max 1 (p * (11 / 10)))).1, s.buf.set s.index (x k), limAdvance L s.index⟩, p, r4, r3, ⟨r2, ?_, ?_, ?_, r5⟩, ?_, ?_⟩
    · show limAdvance L s.index = _
      rw [h.index, advance_mod hL]
    · show (s.buf.set s.index (x k)).length = _
      rw [List.length_set]; omega
    · intro m m1 m2
      show (s.buf.set s.index (x k))[m % L]? = _
      rw [h.index]
      by_cases hm : m = k
      · rw [hm, List.getElem?_set_self (by rw [hbk]; exact Nat.mod_lt _ hL)]
      · rw [List.getElem?_set_ne (Ne.symm (mod_inj (by omega) (by omega)))]
        exact h.buf m (by omega) (by omega)
    · rw [limTick, r1, Option.bind_some]
      simp only [r2, hbk, lt_irrefl, if_false, hidx, Option.bind_some, r3, Option.map_some, if_neg hk]
    · rw [if_neg (by omega), if_neg (by omega)]

theorem limNew_ok {L : Nat} (hL : 1 ≤ L) (a r : ℝ) (x : Nat → Frame ℝ n) : LimOK L x 0 (limNew n L a r) := by
  refine ⟨rfl, by simp [limNew], by simp [limNew], fun m hm => absurd hm (by omega), _, rbNew_ok laws_max hL, fun m hm => absurd hm (by omega), fun _ _ _ => rfl⟩

theorem limRun_ok {L : Nat} (hL : 1 ≤ L) {x : Nat → Frame ℝ n} {s : LimSt n} (hs : LimOK L x 0 s) (k : Nat) : ∃ t, limRun s x k = some t ∧ LimOK L x k t := by
  induction k with
  | zero => exact ⟨_, rfl, hs⟩
  | succ k ih =>
    obtain ⟨t, h1, h2⟩ := ih
    obtain ⟨t', p, _, _, h3, h4, _⟩ := limTick_ok hL h2
    exact ⟨t', by rw [limRun, h1, Option.bind_some, h4]; rfl, h3⟩

/-- Specification. The gain reduction: a follower made with coefficients `a`, `r` runs on the peaks with ten percent of headroom, but at least one. -/
noncomputable def gainStream (f : AFollowSt ℝ) (peak : Nat → ℝ) (L : Nat) (k : Nat) : ℝ :=
  afollowNode.ticks.out f (fun j _ => max 1 (peak (L + j) * (11 / 10))) (k - L) 0

/-- The follower after sample `k ≥ L`. -/
theorem lim_follow {L : Nat} (hL : 1 ≤ L) {x : Nat → Frame ℝ n} {s : LimSt n} (hs : LimOK L x 0 s) {peak : Nat → ℝ} (hpk : ∀ k, IsPeak L x k (peak k)) (j : Nat) :
    ∃ t, limRun s x (L + j) = some t ∧ t.fol = afollowNode.ticks.st (folSet s.fol (peak (L - 1))) (fun j _ => max 1 (peak (L + j) * (11 / 10))) j := by
  have pre : ∀ k, k < L → ∃ t, limRun s x k = some t ∧ t.fol = s.fol := by
    intro k
    induction k with
    | zero => intro _; exact ⟨_, rfl, rfl⟩
    | succ k ih =>
      intro hk
      obtain ⟨t, h1, h2⟩ := ih (by omega)
      obtain ⟨t2, h3, h4⟩ := limRun_ok hL hs k
      obtain rfl : t = t2 := by rw [h1] at h3; exact Option.some.inj h3
      obtain ⟨t', p, _, _, _, h5, h6⟩ := limTick_ok hL h4
      rw [if_pos hk] at h6
      exact ⟨t', by rw [limRun, h1, Option.bind_some, h5]; rfl, h6.trans h2⟩
  induction j with
  | zero =>
    obtain ⟨t, h1, h2⟩ := pre (L - 1) (by omega)
    obtain ⟨t2, h3, h4⟩ := limRun_ok hL hs (L - 1)
    obtain rfl : t = t2 := by rw [h1] at h3; exact Option.some.inj h3
    obtain ⟨t', p, hp, _, _, h5, h6⟩ := limTick_ok hL h4
    rw [if_neg (by omega), if_pos (by omega), h2] at h6
    refine ⟨t', ?_, h6.trans ?_⟩
    · rw [Nat.add_zero, show L = L - 1 + 1 by omega, limRun, h1, Option.bind_some, h5]; rfl
    · rw [hp.unique (hpk (L - 1))]; rfl
  | succ j ih =>
    obtain ⟨t, h1, h2⟩ := ih
    obtain ⟨t2, h3, h4⟩ := limRun_ok hL hs (L + j)
    obtain rfl : t = t2 := by rw [h1] at h3; exact Option.some.inj h3
    obtain ⟨t', p, hp, _, _, h5, h6⟩ := limTick_ok hL h4
    rw [if_neg (by omega), if_neg (by omega), h2, hp.unique (hpk (L + j))] at h6
    exact ⟨t', by rw [← Nat.add_assoc, limRun, h1, Option.bind_some, h5]; rfl, h6⟩

theorem lim_out {L : Nat} (hL : 1 ≤ L) {x : Nat → Frame ℝ n} {s : LimSt n} (hs : LimOK L x 0 s) {peak : Nat → ℝ} (hpk : ∀ k, IsPeak L x k (peak k)) (k : Nat) :
    limOut s x k = some (if k < L then fun _ => 0 else fun c => x (k - L) c * (1 / gainStream (folSet s.fol (peak (L - 1))) peak L k)) := by
  obtain ⟨t, h1, h2⟩ := limRun_ok hL hs k
  obtain ⟨t', p, hp, _, _, h5, h6⟩ := limTick_ok hL h2
  rw [limOut, h1, Option.bind_some, h5, Option.map_some]
  congr 1
  by_cases hk : k < L
  · simp only [hk, if_true]
  · simp only [hk, if_false]
    obtain ⟨j, rfl⟩ : ∃ j, k = L + j := ⟨k - L, by omega⟩
    rw [if_neg (by omega), if_neg (by omega), hp.unique (hpk _)] at h6
    obtain ⟨u, h7, h8⟩ := lim_follow hL hs hpk j
    obtain rfl : t = u := by rw [h1] at h7; exact Option.some.inj h7
    rw [gainStream, Nat.add_sub_cancel_left, h6, h8]
    rfl

end Fundsp.Dyn
