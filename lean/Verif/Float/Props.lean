import Verif.Float.Lemmas

/-! C93: time in floating point. C94: phases, samples and interpolation in floating point. -/

noncomputable section
namespace Fundsp.Fl

/-! ## C93 -/

/-! ## Rounding -/

theorem roundEven_nearest (y : ℝ) (n : ℤ) : |(roundEven y : ℝ) - y| ≤ |(n : ℝ) - y| := by
  by_cases h : roundEven y = n
  · rw [h]
  · have h1 := roundEven_err y
    by_contra hc
    push Not at hc
    exact h (roundEven_of_near (lt_of_lt_of_le (by rw [abs_sub_comm]; exact hc) h1))

/-- **C93, rounding.** What `rnd` means: the result has `p` bits, no number with `p` bits is nearer, and half way between two neighbours the even one is taken. -/
theorem C93_rounding (p : ℕ) (hp : 1 ≤ p) (x : ℝ) :
    Rep p (rnd p x) ∧ (∀ y, Rep p y → |rnd p x - x| ≤ |y - x|) ∧
    ∀ m e : ℤ, 2 ^ (p - 1) ≤ m → m < 2 ^ p → x = (m + 1 / 2) * 2 ^ e → rnd p x = (if Even m then m else m + 1 : ℤ) * 2 ^ e := by
  refine ⟨rep_rnd hp x, fun y hy => ?_, fun m e h1 h2 hx => ?_⟩
  · by_cases h0 : x = 0
    · rw [h0, rnd_zero]; simp
    · -- positive numbers
      have pos : ∀ x y : ℝ, 0 < x → Rep p y → |rnd p x - x| ≤ |y - x| := by
        intro x y hx hy
        obtain ⟨k, h1, h2⟩ := exists_binade hx.ne'
        have hu : (0 : ℝ) < 2 ^ (k - p + 1) := by positivity
        have near : ∀ n : ℤ, |rnd p x - x| ≤ |n * 2 ^ (k - p + 1) - x| := by
          intro n
          rw [rnd_of h1 h2]
          have := roundEven_nearest (x / 2 ^ (k - p + 1)) n
          have e : ∀ a : ℝ, |a * 2 ^ (k - p + 1) - x| = |a - x / 2 ^ (k - p + 1)| * 2 ^ (k - p + 1) := by
            intro a
            rw [← abs_of_pos hu, ← abs_mul, abs_of_pos hu, sub_mul, div_mul_cancel₀ _ hu.ne']
          rw [e, e]
          exact mul_le_mul_of_nonneg_right this hu.le
        rw [abs_of_pos hx] at h1 h2
        rcases lt_or_ge y (2 ^ k) with h3 | h3
        · have := near (2 ^ (p - 1))
          have e : ((2 ^ (p - 1) : ℤ) : ℝ) * 2 ^ (k - p + 1) = 2 ^ k := by
            push_cast
            rw [← zpow_natCast, ← zpow_add₀ (by norm_num)]
            congr 1
            omega
          rw [e] at this
          refine this.trans ?_
          rw [abs_of_nonpos (by linarith), abs_of_nonpos (by linarith)]
          linarith
        · rcases lt_or_ge y (2 ^ (k + 1)) with h4 | h4
          · have hy0 : 0 < y := lt_of_lt_of_le (by positivity) h3
            have e1 := rnd_rep hp hy
            rw [rnd_of (k := k) (by rwa [abs_of_pos hy0]) (by rwa [abs_of_pos hy0])] at e1
            rw [← e1]
            exact near _
          · have := near (2 ^ p)
            have e : ((2 ^ p : ℤ) : ℝ) * 2 ^ (k - p + 1) = 2 ^ (k + 1) := by
              push_cast
              exact two_zpow_split p k
            rw [e] at this
            refine this.trans ?_
            rw [abs_of_nonneg (by linarith), abs_of_nonneg (by linarith)]
            linarith
      rcases lt_or_gt_of_ne h0 with h | h
      · have := pos (-x) (-y) (by linarith) hy.neg
        rw [rnd_neg] at this
        rw [show -rnd p x - -x = -(rnd p x - x) by ring, abs_neg, show -y - -x = -(y - x) by ring, abs_neg] at this
        exact this
      · exact pos x y h hy
  · have hm1 : (2 : ℝ) ^ (p - 1) ≤ m := by exact_mod_cast h1
    have hm2 : (m : ℝ) + 1 ≤ 2 ^ p := by exact_mod_cast h2
    have hu : (0 : ℝ) < 2 ^ e := by positivity
    have hxp : 0 < x := by
      rw [hx]
      have : (0 : ℝ) < 2 ^ (p - 1) := by positivity
      exact mul_pos (by linarith) hu
    have e1 : (2 : ℝ) ^ (e + p - 1) = 2 ^ (p - 1) * 2 ^ e := by
      rw [← zpow_natCast, ← zpow_add₀ (by norm_num)]
      congr 1
      omega
    have e2 : (2 : ℝ) ^ (e + p - 1 + 1) = 2 ^ p * 2 ^ e := by
      rw [← zpow_natCast, ← zpow_add₀ (by norm_num)]
      congr 1
      omega
    have hb1 : (2 : ℝ) ^ (e + p - 1) ≤ |x| := by
      rw [abs_of_pos hxp, e1, hx]
      exact mul_le_mul_of_nonneg_right (by linarith) hu.le
    have hb2 : |x| < (2 : ℝ) ^ (e + p - 1 + 1) := by
      rw [abs_of_pos hxp, e2, hx]
      exact mul_lt_mul_of_pos_right (by linarith) hu
    rw [rnd_of hb1 hb2, show e + p - 1 - p + 1 = e by ring, hx, mul_div_cancel_right₀ _ hu.ne']
    have hf : ⌊(m : ℝ) + 1 / 2⌋ = m := by rw [Int.floor_eq_iff]; constructor <;> linarith
    have hr : Int.fract ((m : ℝ) + 1 / 2) = 1 / 2 := by unfold Int.fract; rw [hf]; ring
    congr 2
    unfold roundEven
    rw [hr, hf, if_neg (lt_irrefl _), if_neg (lt_irrefl _)]

/-- **C93, the timer.** In double precision, the time of a timer after `n` samples is `n / sr` up to an explicit error, and the shared variable holds it rounded to single
precision. `2 ^ (k + 1)` bounds the time and `2 ^ (j + 1)` the duration of a sample. -/
theorem C93_timer (sr : ℝ) (hsr : 0 < sr) (k j : ℤ) (n : ℕ) (hj : 1 / sr < 2 ^ (j + 1)) (hn : n * (rnd 53 (1 / sr) + 2 ^ (k - 53)) < 2 ^ (k + 1)) :
    |((TimerSt.tick (rnd 53 (1 / sr)))^[n] ⟨0, 0⟩).time - n / sr| ≤ n * (2 ^ (k - 53) + 2 ^ (j - 53)) ∧
    ((TimerSt.tick (rnd 53 (1 / sr)))^[n] ⟨0, 0⟩).value = rnd 24 ((TimerSt.tick (rnd 53 (1 / sr)))^[n] ⟨0, 0⟩).time := by
  have hp : (1 : ℕ) ≤ 53 := by norm_num
  have hd : 0 ≤ rnd 53 (1 / sr) := rnd_nonneg hp (by positivity)
  have ht : ∀ n, ((TimerSt.tick (rnd 53 (1 / sr)))^[n] ⟨0, 0⟩).time = acc 53 (rnd 53 (1 / sr)) n := by
    intro n
    induction n with
    | zero => rfl
    | succ n ih => rw [Function.iterate_succ_apply']; exact congrArg (fun x => rnd 53 (x + rnd 53 (1 / sr))) ih
  constructor
  · rw [ht]
    have h1 := acc_err hp (k := k) hd n hn
    have h2 := rnd_err_of (p := 53) (x := 1 / sr) (k := j) (by rwa [abs_of_pos (by positivity)])
    rw [abs_le] at h1 h2 ⊢
    have e : (n : ℝ) / sr = n * (1 / sr) := by ring
    have h3 := mul_le_mul_of_nonneg_left h2.1 (Nat.cast_nonneg (α := ℝ) n)
    have h4 := mul_le_mul_of_nonneg_left h2.2 (Nat.cast_nonneg (α := ℝ) n)
    push_cast at h1 h2 h3 h4 ⊢
    rw [e]
    constructor <;> linarith [h1.1, h1.2]
  · cases n with
    | zero => exact (rnd_zero 24).symm
    | succ n => rw [Function.iterate_succ_apply']; rfl

/-- **C93, the timer in blocks.** The same when samples are rendered in blocks of any sizes: the error grows with the number of blocks. -/
theorem C93_timer_blocks (sd : ℝ) (hsd : 0 ≤ sd) (k : ℤ) (sizes : List ℕ) (hn : sizes.sum * sd + sizes.length * (2 * 2 ^ (k - 53)) < 2 ^ (k + 1)) :
    |(sizes.foldl (fun s n => TimerSt.process sd n s) ⟨0, 0⟩).time - sizes.sum * sd| ≤ sizes.length * (2 * 2 ^ (k - 53)) := by
  have hp : (1 : ℕ) ≤ 53 := by norm_num
  have hu : (0 : ℝ) < 2 ^ (k - 53) := by positivity
  induction sizes using List.reverseRecOn with
  | nil => simp
  | append_singleton l m ih =>
    rw [List.foldl_append]
    simp only [List.foldl_cons, List.foldl_nil, List.sum_append, List.sum_cons, List.sum_nil, List.length_append, List.length_cons, List.length_nil]
    rw [List.sum_append, List.length_append] at hn
    simp only [List.sum_cons, List.sum_nil, List.length_cons, List.length_nil] at hn
    push_cast at hn ⊢
    simp only [add_zero, zero_add] at hn ⊢
    have hm : (0 : ℝ) ≤ m * sd := by positivity
    have hl : (0 : ℝ) ≤ l.sum * sd := by positivity
    have hll : (0 : ℝ) ≤ l.length * (2 * 2 ^ (k - 53)) := by positivity
    have h := ih (by nlinarith)
    obtain ⟨T, hT⟩ : ∃ T, T = (l.foldl (fun s n => TimerSt.process sd n s) ⟨0, 0⟩).time := ⟨_, rfl⟩
    rw [← hT] at h
    rw [abs_le] at h
    have he1 := rnd_err_of (p := 53) (x := m * sd) (k := k) (by rw [abs_of_nonneg hm]; nlinarith)
    have he2 := rnd_err_of (p := 53) (x := T + rnd 53 (m * sd)) (k := k) (by
      rw [abs_le] at he1; rw [abs_lt]; push_cast at he1; constructor <;> nlinarith)
    show |rnd 53 ((l.foldl (fun s n => TimerSt.process sd n s) ⟨0, 0⟩).time + rnd 53 (m * sd)) - _| ≤ _
    rw [← hT]
    rw [abs_le] at he1 he2 ⊢
    push_cast at he1 he2
    constructor <;> nlinarith

/-- **C93, double precision clocks advance.** A clock in double precision moves on at every sample for 68 years, at any sample rate between 1 Hz and 2 MHz: timer, sequencer,
and envelopes in the default prelude. -/
theorem C93_advances_f64 (sr : ℝ) (h1 : 1 ≤ sr) (h2 : sr ≤ 2 ^ 21) (n : ℕ) (ht : acc 53 (rnd 53 (1 / sr)) n < 2 ^ 31) :
    acc 53 (rnd 53 (1 / sr)) n < acc 53 (rnd 53 (1 / sr)) (n + 1) := by
  have hp : (1 : ℕ) ≤ 53 := by norm_num
  have hs : (2 : ℝ) ^ (-21 : ℤ) ≤ rnd 53 (1 / sr) := by
    refine le_rnd hp (rep_zpow _) ?_
    rw [le_div_iff₀ (by linarith)]
    calc (2 : ℝ) ^ (-21 : ℤ) * sr ≤ 2 ^ (-21 : ℤ) * 2 ^ 21 := by gcongr
      _ = 1 := by norm_num
  refine rnd_advance hp (k := 30) (acc_rep hp _ _) (acc_nonneg hp (le_trans (by positivity) hs) n) (by norm_num; norm_num at ht; exact ht) ?_
  refine lt_of_lt_of_le ?_ hs
  norm_num

/-- **C93, single precision clocks (partial).** A clock in single precision moves on while the time is below `2 ^ (k + 1)`, if a sample is longer than `2 ^ (k - 24)`.
Missing: later times, see the violations below. -/
theorem C93_advances_f32_partial (d : ℝ) (k : ℤ) (hd : 2 ^ (k - 24) < d) (n : ℕ) (ht : acc 24 d n < 2 ^ (k + 1)) : acc 24 d n < acc 24 d (n + 1) := by
  have hp : (1 : ℕ) ≤ 24 := by norm_num
  exact rnd_advance hp (acc_rep hp _ _) (acc_nonneg hp (le_trans (by positivity) hd.le) n) ht (by exact_mod_cast hd)

/-- **C93, single precision clocks at 44.1 kHz (partial).** They move on for the first 512 seconds. -/
theorem C93_advances_44100_partial (n : ℕ) (h : acc 24 (rnd 24 (1 / 44100)) n < 512) : acc 24 (rnd 24 (1 / 44100)) n < acc 24 (rnd 24 (1 / 44100)) (n + 1) := by
  refine C93_advances_f32_partial _ 8 ?_ n (by norm_num; exact h)
  have := sd32.1
  norm_num at this ⊢
  exact this

/-- **C93, the error in single precision (partial).** The time after `n` steps is `n * d` up to `n` units of half the last place at the largest time, which is the time of a sample times `n` only while
`n` is small. -/
theorem C93_error_f32_partial (d : ℝ) (k : ℤ) (hd : 0 ≤ d) (n : ℕ) (hn : n * (d + 2 ^ (k - 24)) < 2 ^ (k + 1)) : |acc 24 d n - n * d| ≤ n * 2 ^ (k - 24) := by
  have := acc_err (p := 24) (by norm_num) (k := k) hd n (by exact_mod_cast hn)
  exact_mod_cast this

/-- **C93, which time an envelope and a system have.** The clock of an envelope at sample `n` is the sum of `n` rounded steps, and so is the time given to the function of a
dynamical system, which is always in single precision. -/
theorem C93_clocks (p : ℕ) (sd : ℝ) (ni : ℕ → ℝ) (interval : ℝ) (n : ℕ) :
    (EnvClock.after p sd ni n).t = acc p sd n ∧ (SysClock.after sd interval n).time = acc 24 sd n := ⟨env_t p sd ni n, sys_time sd interval n⟩

/-- **C93 fails for envelopes in single precision.** In the single precision prelude at 44.1 kHz, an envelope (or `lfo`) rendered sample by sample stops at 512 seconds: from some
sample on its time stays there, and its function is never evaluated again. `ni` are the intervals between evaluations, of any lengths between 1 ms and 8 minutes. -/
theorem C93_violation_envelope (ni : ℕ → ℝ) (hni : ∀ m, 0.001 ≤ ni m ∧ ni m ≤ 500) :
    ∃ N, ∀ n, N ≤ n → (EnvClock.after 24 (rnd 24 (1 / 44100)) ni n).t = 512 ∧
      (EnvClock.after 24 (rnd 24 (1 / 44100)) ni n).calls = (EnvClock.after 24 (rnd 24 (1 / 44100)) ni N).calls := by
  have hp : (1 : ℕ) ≤ 24 := by norm_num
  obtain ⟨sd, hsd⟩ : ∃ sd, sd = rnd 24 (1 / 44100) := ⟨_, rfl⟩
  obtain ⟨N0, hN0⟩ := acc_stuck (p := 24) hp (k := 8) (d := sd) (by rw [hsd]; exact_mod_cast sd32.1) (by rw [hsd]; exact_mod_cast sd32.2)
  rw [← hsd]
  have h512 : ∀ n, N0 ≤ n → (EnvClock.after 24 sd ni n).t = 512 := by
    intro n hn; rw [env_t, hN0 n hn]; norm_num
  have hstep : ∀ n, EnvClock.after 24 sd ni (n + 1) = EnvClock.tick 24 sd ni (EnvClock.after 24 sd ni n) := fun n => Function.iterate_succ_apply' _ _ _
  have ht1 : ∀ n, 0 ≤ (EnvClock.after 24 sd ni n).t1 := by
    intro n
    induction n with
    | zero => exact le_rfl
    | succ n ih =>
      rw [hstep]
      unfold EnvClock.tick
      split
      · exact rnd_nonneg hp (by have := (hni (EnvClock.after 24 sd ni n).calls).1; linarith)
      · exact ih
  -- the end of the segment passes 512
  obtain ⟨m, hm⟩ : ∃ m, 512 < (EnvClock.after 24 sd ni (N0 + m)).t1 := by
    by_contra hc
    push Not at hc
    have key : ∀ m : ℕ, m * (0.0009 : ℝ) ≤ (EnvClock.after 24 sd ni (N0 + m)).t1 := by
      intro m
      induction m with
      | zero => simpa using ht1 N0
      | succ m ih =>
        have e : (EnvClock.after 24 sd ni (N0 + (m + 1))).t1 = rnd 24 ((EnvClock.after 24 sd ni (N0 + m)).t1 + ni (EnvClock.after 24 sd ni (N0 + m)).calls) := by
          rw [← Nat.add_assoc, hstep]
          unfold EnvClock.tick
          rw [if_pos (by rw [h512 _ (by omega)]; exact hc m)]
        rw [e]
        have h1 := hni (EnvClock.after 24 sd ni (N0 + m)).calls
        have h2 := hc m
        have h3 := ht1 (N0 + m)
        have := rnd_err_of (p := 24) (k := 9) (x := (EnvClock.after 24 sd ni (N0 + m)).t1 + ni (EnvClock.after 24 sd ni (N0 + m)).calls)
          (by rw [abs_of_nonneg (by linarith)]; norm_num; linarith)
        rw [abs_le] at this
        norm_num at this h1
        push_cast
        linarith [this.1, h1.1]
    obtain ⟨M, hM⟩ := exists_nat_gt ((512 : ℝ) / 0.0009)
    rw [div_lt_iff₀ (by norm_num)] at hM
    linarith [key M, hc M]
  have hfin : ∀ j, 512 < (EnvClock.after 24 sd ni (N0 + m + j)).t1 ∧ (EnvClock.after 24 sd ni (N0 + m + j)).calls = (EnvClock.after 24 sd ni (N0 + m)).calls := by
    intro j
    induction j with
    | zero => exact ⟨hm, rfl⟩
    | succ j ih =>
      rw [← Nat.add_assoc, hstep]
      unfold EnvClock.tick
      rw [if_neg (by rw [h512 _ (by omega)]; exact not_le.2 ih.1)]
      exact ih
  refine ⟨N0 + m, fun n hn => ⟨h512 n (by omega), ?_⟩⟩
  obtain ⟨j, rfl⟩ := Nat.exists_eq_add_of_le hn
  exact (hfin j).2

/-- **C93 fails for dynamical systems.** At 44.1 kHz, a dynamical system rendered sample by sample tells its function the time 512 at all calls from some sample on, although it
goes on calling it, for any update interval up to 500 seconds. -/
theorem C93_violation_system (interval : ℝ) (hi : interval ≤ 500) :
    (∃ N, ∀ n, N ≤ n → (SysClock.after (rnd 24 (1 / 44100)) interval n).time = 512) ∧
    (∀ M, ∃ n, M ≤ n ∧ (SysClock.after (rnd 24 (1 / 44100)) interval n).Calls interval) := by
  have hp : (1 : ℕ) ≤ 24 := by norm_num
  obtain ⟨sd, hsd⟩ : ∃ sd, sd = rnd 24 (1 / 44100) := ⟨_, rfl⟩
  have h1 : (2 : ℝ) ^ ((8 : ℤ) - (24 : ℕ)) < sd := by rw [hsd]; exact_mod_cast sd32.1
  have h2 : sd < (2 : ℝ) ^ ((8 : ℤ) + 1 - (24 : ℕ)) := by rw [hsd]; exact_mod_cast sd32.2
  have hd : 0 ≤ sd := le_trans (by positivity) h1.le
  rw [← hsd]
  constructor
  · obtain ⟨N, hN⟩ := acc_stuck hp h1 h2
    refine ⟨N, fun n hn => ?_⟩
    rw [sys_time, hN n hn]; norm_num
  · intro M
    by_contra hc
    push Not at hc
    have hstep : ∀ n, SysClock.after sd interval (n + 1) = SysClock.tick sd interval (SysClock.after sd interval n) := fun n => Function.iterate_succ_apply' _ _ _
    have h0 : ∀ n, 0 ≤ (SysClock.after sd interval n).delta := by
      intro n
      induction n with
      | zero => exact le_rfl
      | succ n ih =>
        rw [hstep]
        unfold SysClock.tick
        refine rnd_nonneg hp ?_
        split <;> linarith
    have hnc : ∀ n, M ≤ n → (SysClock.after sd interval (n + 1)).delta = rnd 24 ((SysClock.after sd interval n).delta + sd) := by
      intro n hn
      rw [hstep]
      unfold SysClock.tick
      rw [if_neg (hc n hn)]
    obtain ⟨n, hn⟩ := reach hp (k := 8) h1 (x := fun n => (SysClock.after sd interval (M + n)).delta) (L := interval) (by norm_num; linarith) (fun n => h0 _)
      (fun n _ => hnc (M + n) (by omega))
    exact hc (M + n) (by omega) (Or.inl hn)

/-- **C93 fails for long crossfades.** When a node of a net is crossfaded over `2 ^ 25 + 4` samples or more (761 seconds at 44.1 kHz), rendered sample by sample, the crossfade
never ends, nor gets further than half way. -/
theorem C93_violation_fade (fadeTime sr : ℝ) (h : 2 ^ 25 + 4 ≤ fadeTime * sr) (n : ℕ) : fadePhase fadeTime sr n ≤ 1 / 2 := by
  have hp : (1 : ℕ) ≤ 24 := by norm_num
  have h1 : (2 : ℝ) ^ 25 + 4 ≤ rnd 24 (fadeTime * sr) := le_rnd hp ⟨2 ^ 23 + 1, 2, by norm_num, by norm_num⟩ h
  have hpos : (0 : ℝ) < rnd 24 (fadeTime * sr) := lt_of_lt_of_le (by norm_num) h1
  have h2 : rnd 24 (1 / rnd 24 (fadeTime * sr)) ≤ (2 ^ 24 - 1) * 2 ^ (-49 : ℤ) := by
    refine rnd_le hp ⟨2 ^ 24 - 1, -49, by norm_num, by norm_num⟩ ?_
    rw [div_le_iff₀ hpos]
    calc (1 : ℝ) ≤ (2 ^ 24 - 1) * 2 ^ (-49 : ℤ) * (2 ^ 25 + 4) := by norm_num
      _ ≤ _ := by gcongr
  have := acc_le hp (k := -2) (rnd_nonneg hp (by positivity)) (lt_of_le_of_lt h2 (by norm_num)) n
  unfold fadePhase
  norm_num at this ⊢
  exact this

/-- **C93, crossfades (partial).** Crossfades over fewer than `2 ^ 25 - 4` samples end. -/
theorem C93_fade_partial (fadeTime sr : ℝ) (h0 : 0 < fadeTime * sr) (h : fadeTime * sr ≤ 2 ^ 25 - 4) : ∃ n, 1 ≤ fadePhase fadeTime sr n := by
  have hp : (1 : ℕ) ≤ 24 := by norm_num
  have h1 : rnd 24 (fadeTime * sr) ≤ 2 ^ 25 - 4 := rnd_le hp ⟨2 ^ 23 - 1, 2, by norm_num, by norm_num⟩ h
  have hpos : (0 : ℝ) < rnd 24 (fadeTime * sr) := by
    obtain ⟨k, h3, h4⟩ := exists_binade h0.ne'
    rw [abs_of_pos h0] at h3 h4
    exact lt_of_lt_of_le (by positivity) (rnd_binade hp h3 h4).1
  have h2 : (2 ^ 23 + 1) * (2 : ℝ) ^ (-48 : ℤ) ≤ rnd 24 (1 / rnd 24 (fadeTime * sr)) := by
    refine le_rnd hp ⟨2 ^ 23 + 1, -48, by norm_num, by norm_num⟩ ?_
    rw [le_div_iff₀ hpos]
    calc (2 ^ 23 + 1) * (2 : ℝ) ^ (-48 : ℤ) * rnd 24 (fadeTime * sr) ≤ (2 ^ 23 + 1) * (2 : ℝ) ^ (-48 : ℤ) * (2 ^ 25 - 4) := by gcongr
      _ ≤ 1 := by norm_num
  refine reach hp (k := -1) (d := rnd 24 (1 / rnd 24 (fadeTime * sr))) (lt_of_lt_of_le (by norm_num) h2) (by norm_num) (fun n => acc_nonneg hp (le_trans (by positivity) h2) n)
    (fun n _ => rfl)

/-! ## C94 -/

theorem phaseStep_range {p : ℕ} (hp : 1 ≤ p) (delta phase : ℝ) : 0 ≤ phaseStep p delta phase ∧ phaseStep p delta phase ≤ 1 := by
  have h0 := Int.fract_nonneg (rnd p (phase + delta))
  have h1 := (Int.fract_lt_one (rnd p (phase + delta))).le
  exact ⟨rnd_nonneg hp h0, rnd_le hp rep_one h1⟩

theorem phaseStep_pos {p : ℕ} (hp : 1 ≤ p) {delta phase : ℝ} (hd : 0 ≤ delta) (h : 0 ≤ phase) : phaseStep p delta phase = Int.fract (rnd p (phase + delta)) := by
  have h0 : 0 ≤ rnd p (phase + delta) := rnd_nonneg hp (by linarith)
  exact rnd_rep hp (rep_fract (rep_rnd hp _) h0)

theorem phases_succ (p : ℕ) (d φ : ℝ) (n : ℕ) : phases p d φ (n + 1) = phaseStep p d (phases p d φ n) := Function.iterate_succ_apply' _ _ _

/-- **C94, range of phases.** In floating point, phases of oscillators stay between 0 and 1 at any frequency, and below 1 if the frequency is not negative. -/
theorem C94_phase_range (p : ℕ) (hp : 1 ≤ p) (delta phase : ℝ) :
    (0 ≤ phaseStep p delta phase ∧ phaseStep p delta phase ≤ 1) ∧ (0 ≤ delta → 0 ≤ phase → phaseStep p delta phase < 1) := by
  refine ⟨phaseStep_range hp delta phase, fun hd h => ?_⟩
  rw [phaseStep_pos hp hd h]
  exact Int.fract_lt_one _

/-- **C94, the phase one.** With a negative frequency the phase can become 1 itself, and not 0. -/
theorem C94_phase_one : phaseStep 24 (-2 ^ (-30 : ℤ)) 0 = 1 := by
  have hp : (1 : ℕ) ≤ 24 := by norm_num
  have e1 : rnd 24 (0 + -2 ^ (-30 : ℤ)) = -2 ^ (-30 : ℤ) := by rw [zero_add]; exact rnd_rep hp (rep_zpow _).neg
  unfold phaseStep
  simp only
  rw [e1]
  have e2 : ⌊-(2 : ℝ) ^ (-30 : ℤ)⌋ = -1 := by rw [Int.floor_eq_iff]; norm_num
  rw [e2]
  rw [rnd_of (k := -1) (by rw [abs_of_nonneg (by norm_num)]; norm_num) (by rw [abs_of_nonneg (by norm_num)]; norm_num)]
  rw [roundEven_of_near (n := 2 ^ 24) (by norm_num [abs_lt])]
  norm_num

/-- **C94, oscillators run (partial).** If the phase step is more than `2 ^ -(p + 1)` and at most half a cycle, the phase wraps around again and again. Missing: lower frequencies. -/
theorem C94_runs_partial (p : ℕ) (hp : 2 ≤ p) (delta phase : ℝ) (h1 : 2 ^ (-1 - (p : ℤ)) < delta) (h2 : delta ≤ 1 / 2) (h0 : 0 ≤ phase ∧ phase < 1) (M : ℕ) :
    ∃ n, M ≤ n ∧ phases p delta phase (n + 1) < phases p delta phase n := by
  have hp1 : 1 ≤ p := by omega
  have hd : 0 ≤ delta := le_trans (by positivity) h1.le
  have hr : ∀ n, 0 ≤ phases p delta phase n ∧ phases p delta phase n < 1 := by
    intro n
    induction n with
    | zero => exact h0
    | succ n ih => rw [phases_succ, phaseStep_pos hp1 hd ih.1]; exact ⟨Int.fract_nonneg _, Int.fract_lt_one _⟩
  by_contra hc
  push Not at hc
  have hstep : ∀ n, M ≤ n → phases p delta phase (n + 1) = rnd p (phases p delta phase n + delta) := by
    intro n hn
    have hn' := hc n hn
    obtain ⟨x, hx⟩ : ∃ x, x = phases p delta phase n := ⟨_, rfl⟩
    have hxr := hr n
    rw [phases_succ, ← hx, phaseStep_pos hp1 hd (by rw [hx]; exact hxr.1)] at hn' ⊢
    rw [← hx] at hxr
    have hy0 : 0 ≤ rnd p (x + delta) := rnd_nonneg hp1 (by linarith [hxr.1])
    have herr := rnd_err_of (p := p) (x := x + delta) (k := 0) (by rw [abs_of_nonneg (by linarith [hxr.1])]; norm_num; linarith [hxr.2])
    have h14 : (2 : ℝ) ^ (0 - (p : ℤ)) ≤ 1 / 4 := by
      calc (2 : ℝ) ^ (0 - (p : ℤ)) ≤ 2 ^ (-2 : ℤ) := zpow_le_zpow_right₀ (by norm_num) (by omega)
        _ = 1 / 4 := by norm_num
    rw [abs_le] at herr
    rcases lt_or_ge (rnd p (x + delta)) 1 with hy | hy
    · rw [Int.fract_eq_self.2 ⟨hy0, hy⟩]
    · exfalso
      have hfl : ⌊rnd p (x + delta)⌋ = 1 := by rw [Int.floor_eq_iff]; push_cast; constructor <;> linarith
      have : Int.fract (rnd p (x + delta)) = rnd p (x + delta) - 1 := by unfold Int.fract; rw [hfl]; push_cast; ring
      rw [this] at hn'
      linarith
  obtain ⟨n, hn⟩ := reach hp1 (k := -1) h1 (x := fun n => phases p delta phase (M + n)) (L := 1) (by norm_num) (fun n => (hr _).1) (fun n _ => hstep (M + n) (by omega))
  exact absurd (hr (M + n)).2 (not_lt.2 hn)

/-- **C94 fails for low frequencies.** In single precision, an oscillator whose phase step is less than `2 ^ -25` cycles (`0.0013` Hz at 44.1 kHz) started from phase zero never gets
beyond half of its cycle. -/
theorem C94_violation_stuck (delta : ℝ) (h0 : 0 ≤ delta) (h : delta < 2 ^ (-25 : ℤ)) (n : ℕ) : phases 24 delta 0 n ≤ 1 / 2 := by
  have hp : (1 : ℕ) ≤ 24 := by norm_num
  have hle : ∀ n, acc 24 delta n ≤ 1 / 2 := fun n => by
    have := acc_le hp (k := -2) h0 (by norm_num; norm_num at h; exact h) n
    norm_num at this ⊢; exact this
  have key : ∀ n, phases 24 delta 0 n = acc 24 delta n := by
    intro n
    induction n with
    | zero => rfl
    | succ n ih =>
      rw [phases_succ, ih, phaseStep_pos hp h0 (acc_nonneg hp h0 n)]
      show Int.fract (acc 24 delta (n + 1)) = acc 24 delta (n + 1)
      exact Int.fract_eq_self.2 ⟨acc_nonneg hp h0 (n + 1), lt_of_le_of_lt (hle (n + 1)) (by norm_num)⟩
  rw [key]; exact hle n

/-- **C94, the steps taken.** In the second half of the cycle, the phase in single precision moves by a whole number of steps of `2 ^ -24`, the nearest to the step asked for. -/
theorem C94_steps (m q : ℤ) (delta : ℝ) (hm : 2 ^ 23 ≤ m) (hd : 0 ≤ delta) (hq : |delta * 2 ^ 24 - q| < 1 / 2) (hw : m + q < 2 ^ 24) :
    phaseStep 24 delta (m / 2 ^ 24) = (m + q : ℤ) / 2 ^ 24 := by
  have hp : (1 : ℕ) ≤ 24 := by norm_num
  have hmr : (2 : ℝ) ^ 23 ≤ m := by exact_mod_cast hm
  have hq0 : 0 ≤ q := by
    by_contra hc
    have : (q : ℝ) ≤ -1 := by exact_mod_cast (show q ≤ -1 by omega)
    rw [abs_lt] at hq
    nlinarith [hq.2, mul_nonneg hd (show (0 : ℝ) ≤ 2 ^ 24 by norm_num)]
  have hwr : (m : ℝ) + q + 1 ≤ 2 ^ 24 := by exact_mod_cast (show m + q + 1 ≤ 2 ^ 24 by omega)
  have hqr : (0 : ℝ) ≤ q := by exact_mod_cast hq0
  rw [abs_lt] at hq
  have hx1 : (1 : ℝ) / 2 ≤ m / 2 ^ 24 + delta := by
    have : (1 : ℝ) / 2 ≤ m / 2 ^ 24 := by rw [le_div_iff₀ (by norm_num)]; linarith
    linarith
  have hx2 : (m : ℝ) / 2 ^ 24 + delta < 1 := by
    rw [div_add' _ _ _ (by norm_num), div_lt_iff₀ (by norm_num)]
    linarith
  have e : rnd 24 (m / 2 ^ 24 + delta) = (m + q : ℤ) / 2 ^ 24 := by
    rw [rnd_of (k := -1) (by rw [abs_of_nonneg (by linarith)]; norm_num; norm_num at hx1; exact hx1) (by rw [abs_of_nonneg (by linarith)]; norm_num; norm_num at hx2; exact hx2)]
    rw [roundEven_of_near (n := m + q)]
    · push_cast; norm_num; ring
    · have : ((m : ℝ) / 2 ^ 24 + delta) / 2 ^ ((-1 : ℤ) - (24 : ℕ) + 1) = m + delta * 2 ^ 24 := by norm_num; ring
      rw [this]; push_cast; rw [abs_lt]; constructor <;> linarith
  rw [phaseStep_pos hp hd (by positivity), e]
  refine Int.fract_eq_self.2 ⟨?_, ?_⟩
  · have : (0 : ℝ) ≤ ((m + q : ℤ) : ℝ) := by push_cast; linarith [show (0 : ℝ) ≤ 2 ^ 23 by norm_num]
    positivity
  · rw [div_lt_one (by norm_num)]; push_cast; linarith

/-- **C94 fails for the frequency.** At 44.1 kHz, a bandlimited saw of 0.01 Hz runs through the second half of its cycle, which lasts 50 seconds, in less than 48: the phase after `n` samples is
`1 / 2 + 4 n / 2 ^ 24`, where 3.8 is asked for. -/
theorem C94_violation_frequency (delta : ℝ) (hd : delta = rnd 24 (rnd 24 0.01 * rnd 24 (1 / 44100))) (n : ℕ) (hn : n < 2 ^ 21) :
    phases 24 delta (1 / 2) n = 1 / 2 + 4 * n / 2 ^ 24 ∧ (2 ^ 21 : ℝ) / 44100 < 48 ∧ (48 : ℝ) < 0.5 / 0.01 := by
  have hp : (1 : ℕ) ≤ 24 := by norm_num
  refine ⟨?_, by norm_num, by norm_num⟩
  have hz := rnd_between hp (a := 0.0098876953125) (b := 0.010009765625) (x := 0.01) ⟨81, -13, by norm_num, by norm_num⟩ ⟨82, -13, by norm_num, by norm_num⟩ (by norm_num) (by norm_num)
  have hs := rnd_between hp (a := 1468 * 2 ^ (-26 : ℤ)) (b := 1540 * 2 ^ (-26 : ℤ)) (x := 1 / 44100) ⟨1468, -26, by norm_num, by norm_num⟩ ⟨1540, -26, by norm_num, by norm_num⟩
    (by norm_num) (by norm_num)
  have hb : (3.51 : ℝ) < delta * 2 ^ 24 ∧ delta * 2 ^ 24 < 4.49 := by
    have hlo : (36 : ℝ) / 10 * 2 ^ (-24 : ℤ) ≤ rnd 24 0.01 * rnd 24 (1 / 44100) := by
      calc (36 : ℝ) / 10 * 2 ^ (-24 : ℤ) ≤ 0.0098876953125 * (1468 * 2 ^ (-26 : ℤ)) := by norm_num
        _ ≤ _ := mul_le_mul hz.1 hs.1 (by positivity) (le_trans (by norm_num) hz.1)
    have hhi : rnd 24 0.01 * rnd 24 (1 / 44100) ≤ 4 * 2 ^ (-24 : ℤ) := by
      calc rnd 24 0.01 * rnd 24 (1 / 44100) ≤ 0.010009765625 * (1540 * 2 ^ (-26 : ℤ)) := mul_le_mul hz.2 hs.2 (le_trans (by positivity) hs.1) (by norm_num)
        _ ≤ _ := by norm_num
    have h := rnd_between hp (a := 57 * 2 ^ (-28 : ℤ)) (b := 4 * 2 ^ (-24 : ℤ)) (x := rnd 24 0.01 * rnd 24 (1 / 44100)) ⟨57, -28, by norm_num, by norm_num⟩ ⟨4, -24, by norm_num, by norm_num⟩
      (le_trans (by norm_num) hlo) hhi
    rw [← hd] at h
    norm_num at h ⊢
    constructor <;> linarith [h.1, h.2]
  have hd0 : 0 ≤ delta := by nlinarith [hb.1]
  induction n with
  | zero => simp [phases]
  | succ n ih =>
    rw [phases_succ, ih (by omega)]
    have := C94_steps (2 ^ 23 + 4 * n) 4 delta (by omega) hd0 (by rw [abs_lt]; push_cast; constructor <;> linarith [hb.1, hb.2]) (by omega)
    rw [show (1 : ℝ) / 2 + 4 * n / 2 ^ 24 = ((2 ^ 23 + 4 * n : ℤ) : ℝ) / 2 ^ 24 by push_cast; ring, this]
    push_cast; ring

/-- **C94, noise.** Samples of noise in single precision are between -1 and 1, and samples of maximum length sequences are exactly -1 or 1. -/
theorem C94_noise (x : BitVec 32) (m : Noise.MlsState) :
    (-1 ≤ Noise.sample f32Noise x ∧ Noise.sample f32Noise x ≤ 1) ∧
    (f32Noise.sub (f32Noise.mul (f32Noise.ofNat m.value) f32Noise.two) f32Noise.one = -1 ∨
      f32Noise.sub (f32Noise.mul (f32Noise.ofNat m.value) f32Noise.two) f32Noise.one = 1) := by
  have hp : (1 : ℕ) ≤ 24 := by norm_num
  constructor
  · obtain ⟨n, hn⟩ : ∃ n, n = (Noise.hash32x x >>> 8).toNat := ⟨_, rfl⟩
    have hlt : n < 2 ^ 24 := by
      rw [hn, BitVec.toNat_ushiftRight, Nat.shiftRight_eq_div_pow]
      have := (Noise.hash32x x).isLt
      omega
    have e : Noise.sample f32Noise x = rnd 24 (rnd 24 (rnd 24 ((Noise.hash32x x >>> 8).toNat : ℝ) * rnd 24 (2 / rnd 24 (2 ^ 24 - 1))) - 1) := rfl
    rw [e]
    rw [← hn]
    have hn' : (n : ℝ) ≤ 2 ^ 24 - 1 := by
      have : (n : ℝ) + 1 ≤ 2 ^ 24 := by exact_mod_cast hlt
      linarith
    have e1 : rnd 24 (n : ℝ) = n := rnd_rep hp ⟨n, 0, by rw [abs_of_nonneg (by positivity)]; exact_mod_cast hlt.le, by simp⟩
    have e2 : rnd 24 ((2 : ℝ) ^ 24 - 1) = 2 ^ 24 - 1 := rnd_rep hp ⟨2 ^ 24 - 1, 0, by norm_num, by norm_num⟩
    rw [e1, e2]
    have hz0 : 0 ≤ rnd 24 ((2 : ℝ) / (2 ^ 24 - 1)) := rnd_nonneg hp (by norm_num)
    have hz : rnd 24 ((2 : ℝ) / (2 ^ 24 - 1)) ≤ (2 ^ 23 + 1) * 2 ^ (-46 : ℤ) := rnd_le hp ⟨2 ^ 23 + 1, -46, by norm_num, by norm_num⟩ (by norm_num)
    have hv : rnd 24 ((2 : ℝ) + (2 ^ 23 - 1) * 2 ^ (-46 : ℤ)) = 2 :=
      rnd_stall hp (k := 1) ⟨2, 0, by norm_num, by norm_num⟩ (by norm_num) (by norm_num) (by norm_num) (by norm_num)
    have hy : rnd 24 (n * rnd 24 ((2 : ℝ) / (2 ^ 24 - 1))) ≤ 2 := by
      refine le_trans (rnd_mono hp ?_) hv.le
      calc (n : ℝ) * rnd 24 ((2 : ℝ) / (2 ^ 24 - 1)) ≤ (2 ^ 24 - 1) * ((2 ^ 23 + 1) * 2 ^ (-46 : ℤ)) := mul_le_mul hn' hz hz0 (by norm_num)
        _ = _ := by norm_num
    have hy0 : 0 ≤ rnd 24 (n * rnd 24 ((2 : ℝ) / (2 ^ 24 - 1))) := rnd_nonneg hp (by positivity)
    exact rnd_between hp rep_one.neg rep_one (by linarith) (by linarith)
  · have : m.value = 0 ∨ m.value = 1 := by
      unfold Noise.MlsState.value
      rw [Nat.and_one_is_mod]; omega
    show rnd 24 (rnd 24 (rnd 24 (m.value : ℝ) * 2) - 1) = -1 ∨ rnd 24 (rnd 24 (rnd 24 (m.value : ℝ) * 2) - 1) = 1
    rcases this with h | h
    · left
      rw [h, Nat.cast_zero, rnd_zero, zero_mul, rnd_zero, zero_sub, rnd_rep hp rep_one.neg]
    · right
      have r2 : rnd 24 (2 : ℝ) = 2 := rnd_rep hp (by simpa using rep_zpow (p := 24) 1)
      rw [h, Nat.cast_one, rnd_rep hp rep_one, one_mul, r2]
      rw [show (2 : ℝ) - 1 = 1 by norm_num, rnd_rep hp rep_one]

/-- **C94, conversion to 16 bits.** The sample written for a number in single precision fits in 16 bits, -1 and 1 become -32767 and 32767, 0 becomes 0, and larger
numbers do not become smaller samples. -/
theorem C94_wav16 (x y : ℝ) : (-32767 ≤ wav16 x ∧ wav16 x ≤ 32767) ∧ wav16 1 = 32767 ∧ wav16 (-1) = -32767 ∧ wav16 0 = 0 ∧ (x ≤ y → wav16 x ≤ wav16 y) := by
  have hp : (1 : ℕ) ≤ 24 := by norm_num
  obtain ⟨K, hK⟩ : ∃ K, K = rnd 24 32767.49 := ⟨_, rfl⟩
  have hb := rnd_between hp (a := 16776954 * 2 ^ (-9 : ℤ)) (b := 16776955 * 2 ^ (-9 : ℤ)) (x := 32767.49) ⟨16776954, -9, by norm_num, by norm_num⟩ ⟨16776955, -9, by norm_num, by norm_num⟩
    (by norm_num) (by norm_num)
  rw [← hK] at hb
  norm_num at hb
  have hKr : rnd 24 K = K := by rw [hK]; exact rnd_rep hp (rep_rnd hp _)
  have mono : ∀ {a b : ℝ}, a ≤ b → roundAway a ≤ roundAway b := by
    intro a b h
    unfold roundAway
    split_ifs with h1 h2 h2
    · exact Int.floor_mono (by linarith)
    · exfalso; linarith
    · have h3 : 0 ≤ ⌊-a + 1 / 2⌋ := Int.floor_nonneg.2 (by linarith)
      have h4 : 0 ≤ ⌊b + 1 / 2⌋ := Int.floor_nonneg.2 (by linarith)
      omega
    · have := Int.floor_mono (show -b + 1 / 2 ≤ -a + 1 / 2 by linarith)
      omega
  have hwm : ∀ {a b : ℝ}, a ≤ b → wav16 a ≤ wav16 b := by
    intro a b h
    unfold wav16
    rw [← hK]
    refine mono (rnd_mono hp ?_)
    exact mul_le_mul_of_nonneg_right (min_le_min_right _ (max_le_max_right _ h)) (by linarith [hb.1])
  have h1 : wav16 1 = 32767 := by
    unfold wav16
    rw [← hK]
    rw [show min (max (1 : ℝ) (-1)) 1 * K = K by norm_num, hKr]
    unfold roundAway
    rw [if_pos (by linarith [hb.1]), Int.floor_eq_iff]
    push_cast
    constructor <;> linarith [hb.1, hb.2]
  have hm1 : wav16 (-1) = -32767 := by
    unfold wav16
    rw [← hK]
    rw [show min (max (-1 : ℝ) (-1)) 1 * K = -K by norm_num, rnd_neg, hKr]
    unfold roundAway
    rw [if_neg (by linarith [hb.1]), neg_neg, neg_inj, Int.floor_eq_iff]
    push_cast
    constructor <;> linarith [hb.1, hb.2]
  have hclamp : ∀ x, wav16 x = wav16 (min (max x (-1)) 1) := by
    intro x
    unfold wav16
    congr 3
    have h2 : -1 ≤ min (max x (-1)) 1 := le_min (le_max_right _ _) (by norm_num)
    rw [max_eq_left h2, min_eq_left (min_le_right _ _)]
  refine ⟨⟨?_, ?_⟩, h1, hm1, ?_, hwm⟩
  · rw [← hm1, hclamp x]; exact hwm (le_min (le_max_right _ _) (by norm_num))
  · rw [← h1, hclamp x]; exact hwm (min_le_right _ _)
  · unfold wav16
    rw [show min (max (0 : ℝ) (-1)) 1 = 0 by norm_num, zero_mul, rnd_zero]
    unfold roundAway
    rw [if_pos le_rfl, Int.floor_eq_iff]; norm_num

/-- **C94, ends of interpolation.** In floating point, linear interpolation gives exactly the end points at 0 and 1, and its inverse gives exactly 0 and 1 at the end points. -/
theorem C94_lerp_ends (p : ℕ) (hp : 1 ≤ p) (a b : ℝ) (ha : Rep p a) (hb : Rep p b) :
    lerpFl p a b 0 = a ∧ lerpFl p a b 1 = b ∧ delerpFl p a b a = 0 ∧ (a ≠ b → delerpFl p a b b = 1) := by
  refine ⟨?_, ?_, ?_, fun hne => ?_⟩
  · unfold lerpFl; rw [sub_zero, rnd_rep hp rep_one, mul_one, mul_zero, rnd_zero, add_zero, rnd_rep hp ha, rnd_rep hp ha]
  · unfold lerpFl; rw [sub_self, rnd_zero, mul_zero, rnd_zero, mul_one, zero_add, rnd_rep hp hb, rnd_rep hp hb]
  · unfold delerpFl; rw [sub_self, rnd_zero, zero_div, rnd_zero]
  · unfold delerpFl
    have hn : rnd p (b - a) ≠ 0 := by
      have h0 : b - a ≠ 0 := sub_ne_zero.2 hne.symm
      rcases lt_or_gt_of_ne h0 with h | h
      · obtain ⟨k, h1, h2⟩ := exists_binade (neg_ne_zero.2 h0)
        have hpos : 0 < -(b - a) := by linarith
        rw [abs_of_pos hpos] at h1 h2
        have := (rnd_binade hp h1 h2).1
        rw [rnd_neg] at this
        have : (0 : ℝ) < 2 ^ k := by positivity
        linarith
      · obtain ⟨k, h1, h2⟩ := exists_binade h0
        rw [abs_of_pos h] at h1 h2
        have := (rnd_binade hp h1 h2).1
        have : (0 : ℝ) < 2 ^ k := by positivity
        linarith
    rw [div_self hn, rnd_rep hp rep_one]

/-- **C94 fails for interpolation between.** In single precision, interpolation between 7 and 7 can give more than 7. -/
theorem C94_violation_lerp : Rep 24 (8712149 * 2 ^ (-26 : ℤ)) ∧ 7 < lerpFl 24 7 7 (8712149 * 2 ^ (-26 : ℤ)) := by
  have hp : (1 : ℕ) ≤ 24 := by norm_num
  refine ⟨⟨8712149, -26, by norm_num, by norm_num⟩, ?_⟩
  unfold lerpFl
  have e1 : rnd 24 (1 - 8712149 * 2 ^ (-26 : ℤ)) = 14599179 * (2 : ℝ) ^ (-24 : ℤ) := by
    rw [rnd_of (k := -1) (by rw [abs_of_nonneg (by norm_num)]; norm_num) (by rw [abs_of_nonneg (by norm_num)]; norm_num), roundEven_of_near (n := 14599179) (by norm_num [abs_lt])]
    norm_num
  have e2 : rnd 24 (7 * (14599179 * (2 : ℝ) ^ (-24 : ℤ))) = 12774282 * (2 : ℝ) ^ (-21 : ℤ) := by
    rw [rnd_of (k := 2) (by rw [abs_of_nonneg (by norm_num)]; norm_num) (by rw [abs_of_nonneg (by norm_num)]; norm_num), roundEven_of_near (n := 12774282) (by norm_num [abs_lt])]
    norm_num
  have e3 : rnd 24 (7 * (8712149 * (2 : ℝ) ^ (-26 : ℤ))) = 15246261 * (2 : ℝ) ^ (-24 : ℤ) := by
    rw [rnd_of (k := -1) (by rw [abs_of_nonneg (by norm_num)]; norm_num) (by rw [abs_of_nonneg (by norm_num)]; norm_num), roundEven_of_near (n := 15246261) (by norm_num [abs_lt])]
    norm_num
  have e4 : rnd 24 (12774282 * (2 : ℝ) ^ (-21 : ℤ) + 15246261 * (2 : ℝ) ^ (-24 : ℤ)) = 14680065 * (2 : ℝ) ^ (-21 : ℤ) := by
    rw [rnd_of (k := 2) (by rw [abs_of_nonneg (by norm_num)]; norm_num) (by rw [abs_of_nonneg (by norm_num)]; norm_num), roundEven_of_near (n := 14680065) (by norm_num [abs_lt])]
    norm_num
  rw [e1, e2, e3, e4]
  norm_num

/-! ## Cases meeting the hypotheses -/

/-- One hour of samples at 44.1 kHz: the timer is off by less than `10 ^ -4` seconds. -/
example : (158760000 : ℕ) * (rnd 53 (1 / 44100) + 2 ^ ((11 : ℤ) - 53)) < 2 ^ ((11 : ℤ) + 1) ∧ (1 : ℝ) / 44100 < 2 ^ ((-16 : ℤ) + 1) ∧
    ((158760000 : ℕ) : ℝ) * (2 ^ ((11 : ℤ) - 53) + 2 ^ ((-16 : ℤ) - 53)) < 1 / 10000 := by
  have hp : (1 : ℕ) ≤ 53 := by norm_num
  have := rnd_le hp (a := 24348 * 2 ^ (-30 : ℤ)) (x := 1 / 44100) ⟨24348, -30, by norm_num, by norm_num⟩ (by norm_num)
  refine ⟨?_, by norm_num, by norm_num⟩
  push_cast
  calc (158760000 : ℝ) * (rnd 53 (1 / 44100) + 2 ^ ((11 : ℤ) - 53)) ≤ 158760000 * (24348 * 2 ^ (-30 : ℤ) + 2 ^ ((11 : ℤ) - 53)) := by gcongr
    _ < _ := by norm_num

example : ∃ N, ∀ n, N ≤ n → (EnvClock.after 24 (rnd 24 (1 / 44100)) (fun _ => 0.002) n).t = 512 :=
  let ⟨N, h⟩ := C93_violation_envelope (fun _ => 0.002) (fun _ => by norm_num)
  ⟨N, fun n hn => (h n hn).1⟩

example : ∃ n, 1 ≤ fadePhase 1 44100 n := C93_fade_partial 1 44100 (by norm_num) (by norm_num)

example (n : ℕ) : fadePhase 1000 44100 n ≤ 1 / 2 := C93_violation_fade 1000 44100 (by norm_num) n

/-- A sine of 1/16 of the sample rate in double precision. -/
example (M : ℕ) : ∃ n, M ≤ n ∧ phases 53 (1 / 16) 0 (n + 1) < phases 53 (1 / 16) 0 n := C94_runs_partial 53 (by norm_num) (1 / 16) 0 (by norm_num) (by norm_num) (by norm_num) M

example (n : ℕ) : phases 24 (2 ^ (-26 : ℤ)) 0 n ≤ 1 / 2 := C94_violation_stuck _ (by norm_num) (by norm_num) n

example : phaseStep 24 (2.6 / 2 ^ 24) (((2 ^ 23 : ℤ) : ℝ) / 2 ^ 24) = ((2 ^ 23 + 3 : ℤ) : ℝ) / 2 ^ 24 := C94_steps (2 ^ 23) 3 _ (by norm_num) (by norm_num) (by norm_num [abs_lt]) (by norm_num)

example : lerpFl 24 3 5 1 = 5 := (C94_lerp_ends 24 (by norm_num) 3 5 (rep_int (by norm_num)) (rep_int (by norm_num))).2.1

theorem rnd_grid {p : ℕ} (hp : 1 ≤ p) (j : ℤ) (k : ℕ) (hk : k < 2 ^ p) : rnd p (k * 2 ^ j) = k * 2 ^ j :=
  rnd_rep hp ⟨k, j, by rw [abs_of_nonneg (Int.natCast_nonneg k)]; exact_mod_cast hk.le, by push_cast; rfl⟩

open Classical in
/-- **C93, exact clocks.** If the sample rate is a power of two and the interval a whole number `m` of samples, then for `2 ^ p - m` samples the clocks make no error: the
envelope function is called at sample 0 and at every `m`-th sample, the next time being the exact time of that sample, and so is the function of a dynamical system. -/
theorem C93_exact (p : ℕ) (hp : 1 ≤ p) (j : ℤ) (m : ℕ) (hm : 1 ≤ m) (n : ℕ) :
    (n + m < 2 ^ p → (EnvClock.after p (2 ^ j) (fun _ => m * 2 ^ j) n).t = n * 2 ^ j ∧
      ∃ c, (EnvClock.after p (2 ^ j) (fun _ => m * 2 ^ j) n).calls = c ∧ (EnvClock.after p (2 ^ j) (fun _ => m * 2 ^ j) n).t1 = (m * c : ℕ) * 2 ^ j ∧ n ≤ m * c ∧ m * c < n + m) ∧
    (n + m < 2 ^ 24 → (SysClock.after (2 ^ j) (m * 2 ^ j) n).time = n * 2 ^ j ∧
      ((SysClock.after (2 ^ j) (m * 2 ^ j) n).Calls (m * 2 ^ j) ↔ m ∣ n)) := by
  have hj : (0 : ℝ) < 2 ^ j := by positivity
  constructor
  · induction n with
    | zero => exact fun _ => ⟨by simp [EnvClock.after], 0, rfl, by simp [EnvClock.after], by simp, by omega⟩
    | succ n ih =>
      intro hn
      obtain ⟨h1, c, h2, h3, h4, h5⟩ := ih (by omega)
      have e : EnvClock.after p (2 ^ j) (fun _ => m * 2 ^ j) (n + 1) = EnvClock.tick p (2 ^ j) (fun _ => m * 2 ^ j) (EnvClock.after p (2 ^ j) (fun _ => m * 2 ^ j) n) :=
        Function.iterate_succ_apply' _ _ _
      rw [e]
      generalize EnvClock.after p (2 ^ j) (fun _ => m * 2 ^ j) n = s at h1 h2 h3
      have ht : rnd p (s.t + 2 ^ j) = (n + 1 : ℕ) * 2 ^ j := by
        rw [h1, show (n : ℝ) * 2 ^ j + 2 ^ j = (n + 1 : ℕ) * 2 ^ j by push_cast; ring]
        exact rnd_grid hp j _ (by omega)
      by_cases hc : s.t1 ≤ s.t
      · have e2 : EnvClock.tick p (2 ^ j) (fun _ => m * 2 ^ j) s = ⟨rnd p (s.t + 2 ^ j), rnd p (s.t1 + m * 2 ^ j), s.calls + 1⟩ := by simp only [EnvClock.tick, if_pos hc]
        have hle : m * c ≤ n := by
          rw [h1, h3] at hc
          exact_mod_cast le_of_mul_le_mul_right hc hj
        rw [e2]
        refine ⟨ht, c + 1, by rw [h2], ?_, ?_, ?_⟩
        · show rnd p (s.t1 + m * 2 ^ j) = _
          rw [h3, show ((m * c : ℕ) : ℝ) * 2 ^ j + m * 2 ^ j = (m * (c + 1) : ℕ) * 2 ^ j by push_cast; ring]
          exact rnd_grid hp j _ (by rw [Nat.mul_succ]; omega)
        · rw [Nat.mul_succ]; omega
        · rw [Nat.mul_succ]; omega
      · have e2 : EnvClock.tick p (2 ^ j) (fun _ => m * 2 ^ j) s = ⟨rnd p (s.t + 2 ^ j), s.t1, s.calls⟩ := by simp only [EnvClock.tick, if_neg hc]
        have hlt : n < m * c := by
          by_contra hh
          refine hc ?_
          rw [h1, h3]
          exact mul_le_mul_of_nonneg_right (by exact_mod_cast not_lt.1 hh) hj.le
        rw [e2]
        exact ⟨ht, c, h2, h3, by omega, by omega⟩
  · have key : n + m < 2 ^ 24 → (SysClock.after (2 ^ j) (m * 2 ^ j) n).time = n * 2 ^ j ∧
        ∃ q r : ℕ, n = q * m + r ∧ r ≤ m ∧ (r = 0 → n = 0) ∧ (SysClock.after (2 ^ j) (m * 2 ^ j) n).delta = r * 2 ^ j := by
      induction n with
      | zero => exact fun _ => ⟨by simp [SysClock.after], 0, 0, by simp, by simp, by simp, by simp [SysClock.after]⟩
      | succ n ih =>
        intro hn
        obtain ⟨h1, q, r, h2, h3, h4, h5⟩ := ih (by omega)
        have e : SysClock.after (2 ^ j) (m * 2 ^ j) (n + 1) = SysClock.tick (2 ^ j) (m * 2 ^ j) (SysClock.after (2 ^ j) (m * 2 ^ j) n) :=
          Function.iterate_succ_apply' _ _ _
        rw [e]
        generalize SysClock.after (2 ^ j) (m * 2 ^ j) n = s at h1 h5
        refine ⟨?_, ?_⟩
        · show rnd 24 (s.time + 2 ^ j) = _
          rw [h1, show (n : ℝ) * 2 ^ j + 2 ^ j = (n + 1 : ℕ) * 2 ^ j by push_cast; ring]
          exact rnd_grid (by norm_num) j _ (by omega)
        · by_cases hc : s.Calls (m * 2 ^ j)
          · have hr : r = m ∨ n = 0 := by
              rcases hc with hc | hc
              · rw [h5] at hc
                have : m ≤ r := by exact_mod_cast le_of_mul_le_mul_right hc hj
                exact .inl (by omega)
              · rw [h1] at hc
                right
                have := (mul_eq_zero.1 hc).resolve_right hj.ne'
                exact_mod_cast this
            have e2 : (SysClock.tick (2 ^ j) (m * 2 ^ j) s).delta = (1 : ℕ) * 2 ^ j := by
              show rnd 24 ((if s.Calls (m * 2 ^ j) then 0 else s.delta) + 2 ^ j) = _
              rw [if_pos hc, zero_add, ← rnd_grid (show 1 ≤ 24 by norm_num) j 1 (by norm_num)]
              simp
            rcases hr with hr | hr
            · exact ⟨q + 1, 1, by rw [Nat.succ_mul]; omega, hm, by omega, e2⟩
            · exact ⟨0, 1, by omega, hm, by omega, e2⟩
          · have hr : r < m := by
              by_contra hh
              refine hc (.inl ?_)
              rw [h5]
              exact mul_le_mul_of_nonneg_right (by exact_mod_cast not_lt.1 hh) hj.le
            refine ⟨q, r + 1, by omega, by omega, by omega, ?_⟩
            show rnd 24 ((if s.Calls (m * 2 ^ j) then 0 else s.delta) + 2 ^ j) = _
            rw [if_neg hc, h5, show (r : ℝ) * 2 ^ j + 2 ^ j = (r + 1 : ℕ) * 2 ^ j by push_cast; ring]
            exact rnd_grid (by norm_num) j _ (by omega)
    intro hn
    obtain ⟨h1, q, r, h2, h3, h4, h5⟩ := key hn
    refine ⟨h1, ?_⟩
    rw [SysClock.Calls, h1, h5]
    constructor
    · rintro (h | h)
      · have : m ≤ r := by exact_mod_cast le_of_mul_le_mul_right h hj
        exact ⟨q + 1, by rw [h2, show r = m by omega]; ring⟩
      · have := (mul_eq_zero.1 h).resolve_right hj.ne'
        have : n = 0 := by exact_mod_cast this
        rw [this]; exact dvd_zero _
    · intro h
      have hr : m ∣ r := (Nat.dvd_add_right (Dvd.intro_left q rfl)).1 (h2 ▸ h)
      rcases Nat.eq_zero_or_pos r with h0 | h0
      · right; rw [h4 h0]; simp
      · left
        have := Nat.le_of_dvd h0 hr
        exact mul_le_mul_of_nonneg_right (by exact_mod_cast this) hj.le

/-- At 32768 Hz, an envelope evaluated every 64 samples and a system called every 64 samples. -/
example : (EnvClock.after 24 (2 ^ (-15 : ℤ)) (fun _ => (64 : ℕ) * 2 ^ (-15 : ℤ)) 129).t = (129 : ℕ) * 2 ^ (-15 : ℤ) ∧
    ¬ (SysClock.after (2 ^ (-15 : ℤ)) ((64 : ℕ) * 2 ^ (-15 : ℤ)) 129).Calls ((64 : ℕ) * 2 ^ (-15 : ℤ)) :=
  ⟨((C93_exact 24 (by norm_num) (-15) 64 (by norm_num) 129).1 (by norm_num)).1,
    fun h => by have := (((C93_exact 24 (by norm_num) (-15) 64 (by norm_num) 129).2 (by norm_num)).2).1 h; omega⟩

/-- **C94, symmetry of WAV samples.** The 16-bit sample of `-x` is minus that of `x`. -/
theorem C94_wav16_odd (x : ℝ) : wav16 (-x) = -wav16 x := by
  have h0 : ∀ y : ℝ, roundAway (-y) = -roundAway y := by
    intro y
    unfold roundAway
    rcases lt_trichotomy y 0 with h | h | h
    · rw [if_pos (by linarith), if_neg (by linarith), neg_neg]
    · subst h; norm_num
    · rw [if_neg (by linarith), if_pos h.le, neg_neg]
  unfold wav16
  rw [show min (max (-x) (-1)) 1 = -(min (max x (-1)) 1) by
    rcases le_total x 1 with h | h <;> rcases le_total (-1) x with h' | h' <;> simp only [min_def, max_def] <;> split_ifs <;> linarith, neg_mul, rnd_neg, h0]

end Fundsp.Fl
