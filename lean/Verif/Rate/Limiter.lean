import Verif.Rate.KeepProps

/-!
# Limiters: the gain after a change of rate

`C118_limiter` tells the delay of a limiter whose rate was set. Here is its gain: the sound is exactly that of a limiter made at the new rate.
-/
namespace Fundsp.Rate

variable {n : Nat}

/-- Until the follower is first asked for a gain, its coefficients are those of a new one. From then on they are the given ones. -/
theorem limRun_coeffs {L : Nat} (hL : 1 ≤ L) (a r : ℝ) (y : Nat → Frame ℝ n) : ∀ (k : Nat) (s : Dyn.LimSt n),
    Dyn.limRun (Dyn.limNew n L a r) y k = some s → s.fol.acoeff = a ∧ s.fol.rcoeff = r ∧
      s.fol.acoeffNow = (if k ≤ L then 1 else a) ∧ s.fol.rcoeffNow = (if k ≤ L then 1 else r) := by
  intro k
  induction k with
  | zero =>
    intro s h
    obtain rfl := Option.some.inj h
    exact ⟨rfl, rfl, by rw [if_pos (Nat.zero_le _)]; rfl, by rw [if_pos (Nat.zero_le _)]; rfl⟩
  | succ k ih =>
    intro s h
    obtain ⟨t, h1, h2⟩ := Dyn.limRun_ok hL (Dyn.limNew_ok hL a r y) k
    obtain ⟨t', p, _, _, _, h5, h6⟩ := Dyn.limTick_ok hL h2
    obtain ⟨i1, i2, i3, i4⟩ := ih t h1
    rw [Dyn.limRun, h1, Option.bind_some, h5] at h
    obtain rfl : t' = s := Option.some.inj h
    rw [h6]
    by_cases c1 : k + 1 < L
    · rw [if_pos c1, i1, i2, i3, i4]
      rw [if_pos (by omega : k ≤ L), if_pos (by omega : k ≤ L), if_pos (by omega : k + 1 ≤ L), if_pos (by omega : k + 1 ≤ L)]
      exact ⟨rfl, rfl, rfl, rfl⟩
    · rw [if_neg c1]
      by_cases c2 : k + 1 = L
      · rw [if_pos c2]
        refine ⟨i1, i2, ?_, ?_⟩
        · rw [if_pos (by omega : k + 1 ≤ L)]; exact i3.trans (if_pos (by omega))
        · rw [if_pos (by omega : k + 1 ≤ L)]; exact i4.trans (if_pos (by omega))
      · rw [if_neg c2, if_neg (by omega : ¬ k + 1 ≤ L), if_neg (by omega : ¬ k + 1 ≤ L)]
        exact ⟨i1, i2, i1, i2⟩

/-- The limiter after a change of rate is in its initial state but for its follower. -/
theorem limSetRate_ok {L : Nat} (hL : 1 ≤ L) {a0 r0 : ℝ} (y : Nat → Frame ℝ n) (k : Nat) {s : Dyn.LimSt n} (hs : Dyn.limRun (Dyn.limNew n L a0 r0) y k = some s)
    (lookahead a r sr : ℝ) (x : Nat → Frame ℝ n) : Dyn.LimOK (Dyn.limLength sr lookahead) x 0 (limSetRate lookahead a r s sr) := by
  have h1 : 1 ≤ Dyn.limLength sr lookahead := le_max_left _ _
  obtain ⟨t, ht, hok⟩ := Dyn.limRun_ok hL (Dyn.limNew_ok hL a0 r0 y) k
  obtain rfl : s = t := Option.some.inj (hs.symm.trans ht)
  by_cases h : Dyn.limLength sr lookahead = s.red.length
  · have e : (limSetRate lookahead a r s sr).red = (Dyn.limReset s).red := by
      show Dyn.rbClear 0 (if Dyn.limLength sr lookahead ≠ s.red.length then _ else s.red) = Dyn.rbClear 0 s.red
      rw [if_neg (not_not.2 h)]
    obtain ⟨q1, q2, q3, q4, q5⟩ := (Dyn.limReset_ok (x := x) hL hs).1
    have hl : Dyn.limLength sr lookahead = L := h.trans hok.len
    rw [hl]
    exact ⟨by rw [e]; exact q1, q2, q3, q4, by rw [e]; exact q5⟩
  · have e : (limSetRate lookahead a r s sr).red = (Dyn.limReset (Dyn.limNew n (Dyn.limLength sr lookahead) a r)).red := by
      show Dyn.rbClear 0 (if Dyn.limLength sr lookahead ≠ s.red.length then _ else s.red) = Dyn.rbClear 0 _
      rw [if_pos h]
      rfl
    obtain ⟨q1, q2, q3, q4, q5⟩ := (Dyn.limReset_ok (x := x) (y := x) (k := 0) (a := a) (r := r) h1 rfl).1
    exact ⟨by rw [e]; exact q1, q2, q3, q4, by rw [e]; exact q5⟩

/-- Limiters in their initial state play the same if their followers have the same coefficients. -/
theorem lim_same {L : Nat} (hL : 1 ≤ L) {x : Nat → Frame ℝ n} {s t : Dyn.LimSt n} (hs : Dyn.LimOK L x 0 s) (ht : Dyn.LimOK L x 0 t)
    (h1 : s.fol.acoeff = t.fol.acoeff) (h2 : s.fol.rcoeff = t.fol.rcoeff) (h3 : s.fol.acoeffNow = t.fol.acoeffNow) (h4 : s.fol.rcoeffNow = t.fol.rcoeffNow) (m : Nat) :
    Dyn.limOut s x m = Dyn.limOut t x m := by
  obtain ⟨peak, hpk⟩ := Dyn.exists_peak hL x
  rw [Dyn.lim_out hL hs hpk, Dyn.lim_out hL ht hpk]
  have e : Dyn.folSet s.fol (peak (L - 1)) = Dyn.folSet t.fol (peak (L - 1)) := by
    unfold Dyn.folSet
    rw [h1, h2, h3, h4]
  rw [e]

/-- **C118, limiters.** A limiter whose rate is set before it has delivered its first limited sample plays from then on exactly as a limiter made at that rate:
`a` and `r` are its attack and release at the new rate. -/
theorem C118_limiter_new {L : Nat} (hL : 1 ≤ L) {a0 r0 : ℝ} (y : Nat → Frame ℝ n) (k : Nat) (hk : k ≤ L) {s : Dyn.LimSt n}
    (hs : Dyn.limRun (Dyn.limNew n L a0 r0) y k = some s) (lookahead a r sr : ℝ) (x : Nat → Frame ℝ n) (m : Nat) :
    Dyn.limOut (limSetRate lookahead a r s sr) x m = Dyn.limOut (Dyn.limNew n (max 1 ⌊sr * lookahead + 1 / 2⌋₊) a r) x m := by
  obtain ⟨-, -, c3, c4⟩ := limRun_coeffs hL a0 r0 y k s hs
  rw [if_pos hk] at c3 c4
  have q : ¬ s.fol.acoeffNow < 1 := by rw [c3]; exact lt_irrefl _
  refine lim_same (le_max_left _ _) (limSetRate_ok hL y k hs lookahead a r sr x) (Dyn.limNew_ok (le_max_left _ _) a r x) rfl rfl ?_ ?_ m
  · show (if s.fol.acoeffNow < 1 then a else s.fol.acoeffNow) = 1
    rw [if_neg q, c3]
  · show (if s.fol.acoeffNow < 1 then r else s.fol.rcoeffNow) = 1
    rw [if_neg q, c4]

/-- **C118, limiters.** A limiter whose rate is set later plays from then on exactly as a limiter made at the new rate which has played anything longer than its
lookahead and was reset: nothing of its old rate or its old sound is left. -/
theorem C118_limiter_played {L : Nat} (hL : 1 ≤ L) {a0 r0 : ℝ} (ha0 : a0 < 1) (y : Nat → Frame ℝ n) (k : Nat) (hk : L < k) {s : Dyn.LimSt n}
    (hs : Dyn.limRun (Dyn.limNew n L a0 r0) y k = some s) (lookahead a r sr : ℝ) (x y' : Nat → Frame ℝ n) (k' : Nat) (hk' : max 1 ⌊sr * lookahead + 1 / 2⌋₊ < k')
    {t : Dyn.LimSt n} (ht : Dyn.limRun (Dyn.limNew n (max 1 ⌊sr * lookahead + 1 / 2⌋₊) a r) y' k' = some t) (m : Nat) :
    Dyn.limOut (limSetRate lookahead a r s sr) x m = Dyn.limOut (Dyn.limReset t) x m := by
  obtain ⟨-, -, c3, -⟩ := limRun_coeffs hL a0 r0 y k s hs
  obtain ⟨d1, d2, d3, d4⟩ := limRun_coeffs (le_max_left _ _) a r y' k' t ht
  rw [if_neg (by omega)] at c3 d3 d4
  have q : s.fol.acoeffNow < 1 := by rw [c3]; exact ha0
  refine lim_same (le_max_left _ _) (limSetRate_ok hL y k hs lookahead a r sr x) (Dyn.limReset_ok (x := x) (le_max_left _ _) ht).1 d1.symm d2.symm ?_ ?_ m
  · show (if s.fol.acoeffNow < 1 then a else s.fol.acoeffNow) = t.fol.acoeffNow
    rw [if_pos q, d3]
  · show (if s.fol.acoeffNow < 1 then r else s.fol.rcoeffNow) = t.fol.rcoeffNow
    rw [if_pos q, d4]

/-- A lookahead of 10 ms, made at 44.1 kHz: set to 48 kHz before it is used, and after a second. -/
example (s : Dyn.LimSt 2) (hs : Dyn.limRun (Dyn.limNew 2 441 (1 / 2) (1 / 3)) (fun _ _ => 1) 0 = some s) (x : Nat → Frame ℝ 2) (m : Nat) :
    Dyn.limOut (limSetRate 0.01 (1 / 4) (1 / 5) s 48000) x m = Dyn.limOut (Dyn.limNew 2 480 (1 / 4) (1 / 5)) x m := by
  have e : max 1 ⌊(48000 : ℝ) * 0.01 + 1 / 2⌋₊ = 480 := by
    have : ⌊(48000 : ℝ) * 0.01 + 1 / 2⌋₊ = 480 := by rw [Nat.floor_eq_iff (by norm_num)]; norm_num
    rw [this]; rfl
  have := C118_limiter_new (by norm_num) _ _ (by norm_num) hs 0.01 (1 / 4) (1 / 5) 48000 x m
  rwa [e] at this

example (y y' x : Nat → Frame ℝ 2) (m : Nat) : ∃ s t, Dyn.limRun (Dyn.limNew 2 441 (1 / 2) (1 / 3)) y 44100 = some s ∧
    Dyn.limRun (Dyn.limNew 2 480 (1 / 4) (1 / 5)) y' 481 = some t ∧
    Dyn.limOut (limSetRate 0.01 (1 / 4) (1 / 5) s 48000) x m = Dyn.limOut (Dyn.limReset t) x m := by
  have e : max 1 ⌊(48000 : ℝ) * 0.01 + 1 / 2⌋₊ = 480 := by
    have : ⌊(48000 : ℝ) * 0.01 + 1 / 2⌋₊ = 480 := by rw [Nat.floor_eq_iff (by norm_num)]; norm_num
    rw [this]; rfl
  obtain ⟨s, hs, -⟩ := Dyn.limRun_ok (L := 441) (by norm_num) (Dyn.limNew_ok (by norm_num) (1 / 2) (1 / 3) y) 44100
  obtain ⟨t, ht, -⟩ := Dyn.limRun_ok (L := 480) (by norm_num) (Dyn.limNew_ok (by norm_num) (1 / 4) (1 / 5) y') 481
  refine ⟨s, t, hs, ht, ?_⟩
  exact C118_limiter_played (by norm_num) (by norm_num) y _ (by norm_num) hs 0.01 (1 / 4) (1 / 5) 48000 x y' 481 (by rw [e]; norm_num) (by rw [e]; exact ht) m

end Fundsp.Rate
