import Verif.Env.Interp
import Mathlib.Tactic.NormNum

/-!
# Envelopes: properties C54 and C55
-/

noncomputable section
namespace Fundsp.Env

open Fundsp.Math (lerp delerp clamp01)

variable {i o : Nat} {S : Type}

/-! ## C54 -/

/-- States from which blocks and ticks are compared: the shortest segment takes a sample or more, and no segment ended a sample ago or earlier.
Both hold of new envelopes and are kept by every operation. -/
def Normal (s : EnvSt o S) : Prop := 0 < s.dt ∧ s.dt ≤ 0.75 * s.interval ∧ s.t < s.t1 + s.dt

/-- A new or reset envelope is in a normal state. -/
theorem C54_new (env : ℝ → Frame ℝ o) (interval sr : ℝ) (hash : BitVec 64) (hsr : 0 < sr) (h : 1 / sr ≤ 0.75 * interval) :
    Normal (newSt env interval sr hash) := by
  refine ⟨by show 0 < 1 / sr; positivity, h, ?_⟩
  show (0 : ℝ) < 0 + 1 / sr
  have : 0 < 1 / sr := by positivity
  linarith

/-- As `C54_new`, for envelopes with inputs. -/
theorem C54_new_in (interval sr : ℝ) (hash : BitVec 64) (c : S) (hsr : 0 < sr) (h : 1 / sr ≤ 0.75 * interval) :
    Normal (newInSt interval sr hash c : EnvSt o S) := by
  refine ⟨by show 0 < 1 / sr; positivity, h, ?_⟩
  show (0 : ℝ) < 0 + 1 / sr
  have : 0 < 1 / sr := by positivity
  linarith

/-- States that cannot be told apart: the value and its slope are not reset, but set at the start of each segment. -/
def PureRel (rnd : BitVec 64 → ℝ) (env : ℝ → Frame ℝ o) (s m : EnvSt o Unit) : Prop :=
  m.Slow ∧ m.Lag ∧ s.norm (next rnd env) = m.norm (next rnd env) ∧ s.hash = m.hash ∧ s.interval = m.interval ∧ s.dt = m.dt

theorem norm_fields (rnd : BitVec 64 → ℝ) (env : ℝ → Frame ℝ o) (m : EnvSt o Unit) :
    (m.norm (next rnd env)).hash = m.hash ∧ (m.norm (next rnd env)).interval = m.interval ∧ (m.norm (next rnd env)).dt = m.dt := by
  unfold EnvSt.norm; split <;> exact ⟨rfl, rfl, rfl⟩

/-- **C54, blocks and ticks.** Missing from the full claim: intervals between one sample and 4/3 samples, where it fails (`C54_violation`). -/
theorem C54_block_equals_tick_partial (rnd : BitVec 64 → ℝ) (hr : ∀ h, 0 ≤ rnd h ∧ rnd h ≤ 1) (env : ℝ → Frame ℝ o) :
    BlockEqualsTickOn (envelope rnd env) Normal := by
  have hg : Good (fun _ : Frame ℝ 0 => next rnd env) := next_good hr env
  intro w cs hcs s hs
  refine exec_of_rel (n := envelope rnd env) (R := PureRel rnd env) ?_ ⟨?_, ?_⟩ w cs hcs 0 s s ⟨⟨hs.1, hs.2.1⟩, hs.2.2, rfl, rfl, rfl, rfl⟩
  · rintro s m ⟨h1, h2, h3, h4, h5, h6⟩
    refine ⟨h1, ?_, ?_, h4, h5, h6⟩
    · show (0 : ℝ) < 0 + m.dt
      have := h1.1
      linarith
    · have hn : ∀ s : EnvSt o Unit, (reset env s).norm (next rnd env) = next rnd env (reset env s) := by
        intro s; unfold EnvSt.norm; rw [if_pos (show (reset env s).t1 ≤ (reset env s).t from le_refl _)]
      refine (hn s).trans (Eq.trans ?_ (hn m).symm)
      simp only [next, EnvSt.segment, EnvSt.nextInterval, reset]
      rw [h4, h5, h6]
  · intro s m x h
    obtain ⟨h1, h2, h3, h4, h5, h6⟩ := h
    have := tick_inv hg x h1 h2
    have e1 : ((envelope rnd env).tick s x).1 = ((envelope rnd env).tick m x).1 := by
      show (s.norm (next rnd env)).step = (EnvSt.norm (next rnd env) m).step
      rw [h3]
    refine ⟨⟨this.1, this.2, ?_, ?_, ?_, ?_⟩, ?_⟩
    · rw [e1]
    · rw [e1]
    · rw [e1]
    · rw [e1]
    · show (s.norm (next rnd env)).v = (EnvSt.norm (next rnd env) m).v
      rw [h3]
  · intro g s m size inp out hsz h
    obtain ⟨h1, h2, h3, h4, h5, h6⟩ := h
    have hinp : (fun c => c.elim0 : Buf ℝ 0) = inp := by funext c; exact c.elim0
    by_cases h0 : size = 0
    · subst h0
      refine ⟨?_, fun k hk => absurd hk (by omega)⟩
      have hrun : envRun true (fun _ : Frame ℝ 0 => next rnd env) 0 inp (s.norm (next rnd env)) out = (s.norm (next rnd env), out) :=
        run_eq (f := 1) (by rw [envLoop, if_neg (by omega)])
      show PureRel rnd env (envRun true (fun _ : Frame ℝ 0 => next rnd env) 0 (fun c => c.elim0) (s.norm (next rnd env)) out).1 m
      rw [hinp, hrun, h3]
      have hl := norm_lt hg (fun c => c.elim0) h1 h2
      exact ⟨h1, h2, norm_of_lt hg hl (x := fun c => c.elim0), norm_fields rnd env m⟩
    · have := run_spec (eager := true) hg hsz (by omega) inp out h1 h2
      show PureRel rnd env (envRun true (fun _ : Frame ℝ 0 => next rnd env) size (fun c => c.elim0) (s.norm (next rnd env)) out).1 _ ∧ ∀ k, k < size →
        (envRun true (fun _ : Frame ℝ 0 => next rnd env) size (fun c => c.elim0) (s.norm (next rnd env)) out).2.frame k = _
      rw [hinp, h3]
      refine ⟨?_, this.2⟩
      obtain ⟨r1, r2, r3⟩ := this.1
      refine ⟨r1, r2, norm_rel hg (fun _ _ _ _ => rfl) this.1 (fun c => c.elim0), ?_⟩
      rcases r3 with r3 | ⟨-, -, x, r3⟩
      · rw [r3]; exact ⟨rfl, rfl, rfl⟩
      · rw [r3]; exact ⟨rfl, rfl, rfl⟩

example : Normal (newSt (fun t _ => t : ℝ → Frame ℝ 1) 0.002 44100 7) := C54_new _ _ _ _ (by norm_num) (by norm_num)

/-- As above, for envelopes with inputs and closures with a state. -/
theorem C54_block_equals_tick_in_partial (rnd : BitVec 64 → ℝ) (hr : ∀ h, 0 ≤ rnd h ∧ rnd h ≤ 1) (env : S → ℝ → Frame ℝ i → S × Frame ℝ o) :
    BlockEqualsTickOn (envelopeIn rnd env) Normal := by
  have hg : Good (nextIn rnd env) := nextIn_good hr env
  intro w cs hcs s hs
  refine exec_of_rel (n := envelopeIn rnd env) (R := Rel false (nextIn rnd env)) ?_ ⟨?_, ?_⟩ w cs hcs 0 s s ⟨⟨hs.1, hs.2.1⟩, hs.2.2, Or.inl rfl⟩
  · rintro s m ⟨h1, h2, h3⟩
    refine ⟨h1, ?_, Or.inl ?_⟩
    · show (0 : ℝ) < 0 + m.dt
      have := h1.1
      linarith
    · rcases h3 with h3 | ⟨h3, -⟩
      · rw [h3]
      · cases h3
  · intro s m x h
    have e : s.norm (nextIn rnd env x) = EnvSt.norm (nextIn rnd env x) m := norm_rel hg (fun h => by cases h) h x
    have := tick_inv hg x h.1 h.2.1
    refine ⟨⟨this.1, this.2, Or.inl ?_⟩, ?_⟩
    · show (s.norm (nextIn rnd env x)).step = (EnvSt.norm (nextIn rnd env x) m).step
      rw [e]
    · show (s.norm (nextIn rnd env x)).v = (EnvSt.norm (nextIn rnd env x) m).v
      rw [e]
  · intro g s m size inp out hsz h
    have e : s.norm (nextIn rnd env (inp.frame 0)) = EnvSt.norm (nextIn rnd env (inp.frame 0)) m := norm_rel hg (fun h => by cases h) h _
    by_cases h0 : size = 0
    · subst h0
      exact ⟨h, fun k hk => absurd hk (by omega)⟩
    · have := run_spec (eager := false) hg hsz (by omega) inp out h.1 h.2.1
      have hp : (envelopeIn rnd env).process g s size inp out = envRun false (nextIn rnd env) size inp (s.norm (nextIn rnd env (inp.frame 0))) out := by
        show envInProcess _ _ _ _ _ = _
        unfold envInProcess; rw [if_neg h0]
      rw [hp, e]
      exact this

/-- The sample points start at zero and advance by the interval times a factor in [0.75, 1.25]. -/
theorem C54_jitter (rnd : BitVec 64 → ℝ) (hr : ∀ h, 0 ≤ rnd h ∧ rnd h ≤ 1) (hash : BitVec 64) (interval : ℝ) (hi : 0 < interval) (n : Nat) :
    point rnd hash interval 0 = 0 ∧ 0.75 * interval ≤ point rnd hash interval (n + 1) - point rnd hash interval n ∧ point rnd hash interval (n + 1) - point rnd hash interval n ≤ 1.25 * interval := by
  have h := hr (hashAt hash n)
  have e : point rnd hash interval (n + 1) - point rnd hash interval n = (0.75 + 0.5 * rnd (hashAt hash n)) * interval := by
    show point rnd hash interval n + _ - _ = _; ring
  rw [e]
  refine ⟨rfl, ?_, ?_⟩
  · nlinarith [mul_nonneg h.1 hi.le]
  · nlinarith [mul_nonneg (by linarith [h.2] : 0 ≤ 1 - rnd (hashAt hash n)) hi.le]

/-- **C54, interpolation.** After a reset, the output at every sample is the linear interpolation of the user function at the surrounding sample points. -/
theorem C54_interpolation_partial (rnd : BitVec 64 → ℝ) (hr : ∀ h, 0 ≤ rnd h ∧ rnd h ≤ 1) (env : ℝ → Frame ℝ o) (s : EnvSt o Unit) (hd : 0 < s.dt) (hi : s.dt ≤ 0.75 * s.interval)
    (w : Nat → Frame ℝ 0) (k : Nat) :
    ∃ n, point rnd s.hash s.interval n ≤ k * s.dt ∧ k * s.dt < point rnd s.hash s.interval (n + 1) ∧
      ∀ c, (envelope rnd env).stream (reset env s) w k c =
        (1 - (k * s.dt - point rnd s.hash s.interval n) / (point rnd s.hash s.interval (n + 1) - point rnd s.hash s.interval n)) * env (point rnd s.hash s.interval n) c +
          (k * s.dt - point rnd s.hash s.interval n) / (point rnd s.hash s.interval (n + 1) - point rnd s.hash s.interval n) * env (point rnd s.hash s.interval (n + 1)) c := by
  obtain ⟨n, h1, h2, h3⟩ := env_run hr env s ⟨hd, hi⟩ w k
  refine ⟨n, h1, h2, fun c => ?_⟩
  have hdt : (((mach (fun _ : Frame ℝ 0 => next rnd env)).st (reset env s) w k : EnvSt o Unit).norm (next rnd env)).dt = s.dt := by
    have : ∀ k, ((mach (fun _ : Frame ℝ 0 => next rnd env)).st (reset env s) w k : EnvSt o Unit).dt = s.dt ∧ (((mach (fun _ : Frame ℝ 0 => next rnd env)).st (reset env s) w k : EnvSt o Unit).norm (next rnd env)).dt = s.dt := by
      intro k
      have hn : ∀ m : EnvSt o Unit, (m.norm (next rnd env)).dt = m.dt := by intro m; unfold EnvSt.norm; split <;> rfl
      induction k with
      | zero => exact ⟨rfl, (hn _).trans rfl⟩
      | succ k ih => exact ⟨ih.2, (hn _).trans ih.2⟩
    exact (this k).2
  show (((mach (fun _ : Frame ℝ 0 => next rnd env)).st (reset env s) w k : EnvSt o Unit).norm (next rnd env)).v c = _
  rw [h3.v, hdt]
  unfold lerp
  ring

example : ∃ s : EnvSt 1 Unit, 0 < s.dt ∧ s.dt ≤ 0.75 * s.interval ∧ s.interval = 0.002 :=
  ⟨newSt (fun t _ => t) 0.002 44100 7, by show (0 : ℝ) < 1 / 44100; norm_num, by show (1 : ℝ) / 44100 ≤ 0.75 * 0.002; norm_num, rfl⟩

/-- As above, for envelopes with inputs: the function is sampled at each point with the input at the first sample of the segment that ends in the point. -/
theorem C54_interpolation_in_partial (rnd : BitVec 64 → ℝ) (hr : ∀ h, 0 ≤ rnd h ∧ rnd h ≤ 1) (env : S → ℝ → Frame ℝ i → S × Frame ℝ o) (s : EnvSt o S) (hd : 0 < s.dt) (hi : s.dt ≤ 0.75 * s.interval)
    (w : Nat → Frame ℝ i) (k : Nat) :
    ∃ n, point rnd s.hash s.interval n ≤ k * s.dt ∧ k * s.dt < point rnd s.hash s.interval (n + 1) ∧
      ∀ c, (envelopeIn rnd env).stream (resetIn s) w k c =
        (1 - (k * s.dt - point rnd s.hash s.interval n) / (point rnd s.hash s.interval (n + 1) - point rnd s.hash s.interval n)) * (inRun env (point rnd s.hash s.interval) s.dt w s.clo n).2 c +
          (k * s.dt - point rnd s.hash s.interval n) / (point rnd s.hash s.interval (n + 1) - point rnd s.hash s.interval n) * (inRun env (point rnd s.hash s.interval) s.dt w s.clo (n + 1)).2 c := by
  obtain ⟨n, h1, h2, h3⟩ := in_run hr env s ⟨hd, hi⟩ w k
  refine ⟨n, h1, h2, fun c => ?_⟩
  have hg := nextIn_good hr env
  have hdt : (((mach (nextIn rnd env)).st (resetIn s) w k : EnvSt o S).norm (nextIn rnd env (w k))).dt = s.dt := by
    have : ∀ k, ((mach (nextIn rnd env)).st (resetIn s) w k : EnvSt o S).dt = s.dt ∧ (((mach (nextIn rnd env)).st (resetIn s) w k : EnvSt o S).norm (nextIn rnd env (w k))).dt = s.dt := by
      intro k
      have hn : ∀ x (m : EnvSt o S), (m.norm (nextIn rnd env x)).dt = m.dt := by
        intro x m; unfold EnvSt.norm; split
        · exact hg.dt _ _
        · rfl
      induction k with
      | zero => exact ⟨rfl, (hn _ _).trans rfl⟩
      | succ k ih => exact ⟨ih.2, (hn _ _).trans ih.2⟩
    exact (this k).2
  show (((mach (nextIn rnd env)).st (resetIn s) w k : EnvSt o S).norm (nextIn rnd env (w k))).v c = _
  rw [h3.v, hdt]
  unfold lerp
  ring

/-! ### Where C54 fails -/

/-- A step function of time. -/
def stepEnv : ℝ → Frame ℝ 1 := fun t _ => if t ≤ 3.9 then 0 else 1

theorem stepEnv_lo {t : ℝ} (h : t ≤ 3.9) : stepEnv t = fun _ => 0 := by funext c; exact if_pos h
theorem stepEnv_hi {t : ℝ} (h : 3.9 < t) : stepEnv t = fun _ => 1 := by funext c; exact if_neg (not_le.2 h)

/-- Segment change with the shortest segments. -/
theorem next_zero (env : ℝ → Frame ℝ o) (s : EnvSt o Unit) :
    (next (fun _ => 0) env s).t = s.t ∧ (next (fun _ => 0) env s).dt = s.dt ∧ (next (fun _ => 0) env s).interval = s.interval ∧
      (next (fun _ => 0) env s).t0 = s.t1 ∧ (next (fun _ => 0) env s).t1 = s.t1 + 0.75 * s.interval ∧ (next (fun _ => 0) env s).v1 = env (s.t1 + 0.75 * s.interval) ∧
      (next (fun _ => 0) env s).v = fun c => lerp (s.v1 c) (env (s.t1 + 0.75 * s.interval) c) ((s.t - s.t1) / (0.75 * s.interval)) := by
  have e : lerp 0.75 1.25 ((fun _ => 0 : BitVec 64 → ℝ) s.thash) = 0.75 := by unfold lerp; norm_num
  refine ⟨rfl, rfl, rfl, rfl, ?_, ?_, ?_⟩
  · show s.t1 + lerp 0.75 1.25 ((fun _ => 0 : BitVec 64 → ℝ) s.thash) * s.interval = _; rw [e]
  · show env (s.t1 + lerp 0.75 1.25 ((fun _ => 0 : BitVec 64 → ℝ) s.thash) * s.interval) = _; rw [e]
  · funext c
    show lerp (s.v1 c) (env (s.t1 + lerp 0.75 1.25 ((fun _ => 0 : BitVec 64 → ℝ) s.thash) * s.interval) c)
      ((s.t - s.t1) / (s.t1 + lerp 0.75 1.25 ((fun _ => 0 : BitVec 64 → ℝ) s.thash) * s.interval - s.t1)) = _
    rw [e, add_sub_cancel_left]

/-- What the first samples do when every segment is 0.78 samples long. -/
theorem tick_zero (s : EnvSt 1 Unit) (x : Frame ℝ 0) (hle : s.t1 ≤ s.t) (hdt : s.dt = 1) (hi : s.interval = 1.04) :
    ((envelope (fun _ => 0) stepEnv).tick s x).1.t = s.t + 1 ∧ ((envelope (fun _ => 0) stepEnv).tick s x).1.dt = 1 ∧ ((envelope (fun _ => 0) stepEnv).tick s x).1.interval = 1.04 ∧
      ((envelope (fun _ => 0) stepEnv).tick s x).1.t1 = s.t1 + 0.78 ∧ ((envelope (fun _ => 0) stepEnv).tick s x).1.v1 = stepEnv (s.t1 + 0.78) := by
  have hn : s.norm (next (fun _ => 0) stepEnv) = next (fun _ => 0) stepEnv s := by unfold EnvSt.norm; rw [if_pos hle]
  obtain ⟨h1, h2, h3, h4, h5, h6, -⟩ := next_zero stepEnv s
  have e : s.t1 + 0.75 * s.interval = s.t1 + 0.78 := by rw [hi]; norm_num
  rw [e] at h5 h6
  have he : ((envelope (fun _ => 0) stepEnv).tick s x).1 = (next (fun _ => 0) stepEnv s).step := by
    show (s.norm (next (fun _ => 0) stepEnv)).step = _; rw [hn]
  rw [he]
  refine ⟨?_, ?_, ?_, h5, h6⟩
  · show (next (fun _ => 0) stepEnv s).t + (next (fun _ => 0) stepEnv s).dt = _; rw [h1, h2, hdt]
  · exact h2.trans hdt
  · exact h3.trans hi

theorem loop_one (eager : Bool) (nx : Frame ℝ i → EnvSt o S → EnvSt o S) (inp : Buf ℝ i) (s : EnvSt o S) (out : Buf ℝ o) (h : s.samplesLeft = 1) :
    ∃ r, envLoop eager nx 1 inp 2 0 s out = some r ∧ r.2.frame 0 = s.v := by
  rw [envLoop, if_pos (by omega)]
  simp only [h]
  rw [envLoop, if_neg (by decide)]
  refine ⟨_, rfl, ?_⟩
  funext c
  rfl

/-- The fifth sample: ticking extrapolates the segment that ended at 3.9, a block has moved on. -/
theorem fifth (s : EnvSt 1 Unit) (ht : s.t = 4) (hdt : s.dt = 1) (hi : s.interval = 1.04) (ht1 : s.t1 = 3.12) (hv1 : s.v1 = fun _ => 0) :
    ((envelope (fun _ => 0) stepEnv).tick s (fun c => c.elim0)).2 = (fun _ => 0) ∧
      ((envelope (fun _ => 0) stepEnv).process (fun _ _ _ => 0) s 1 (blockInput (fun _ c => c.elim0) 4 1 (fun c => c.elim0)) (fun _ _ => 0)).2.frame 0 = fun _ => 0.1 / 0.78 := by
  have hn : s.norm (next (fun _ => 0) stepEnv) = next (fun _ => 0) stepEnv s := by unfold EnvSt.norm; rw [if_pos (by rw [ht, ht1]; norm_num)]
  obtain ⟨h1, h2, h3, h4, h5, h6, h7⟩ := next_zero stepEnv s
  have ee : s.t1 + 0.75 * s.interval = 3.9 := by rw [hi, ht1]; norm_num
  rw [ee] at h5 h6 h7
  rw [stepEnv_lo (le_refl _)] at h6 h7
  rw [ht] at h1; rw [hdt] at h2; rw [hi] at h3
  constructor
  · show (s.norm (next (fun _ => 0) stepEnv)).v = _
    rw [hn, h7, hv1]
    funext c; unfold lerp; ring
  · show (envRun true (fun _ : Frame ℝ 0 => next (fun _ => 0) stepEnv) 1 (fun c => c.elim0) (s.norm (next (fun _ => 0) stepEnv)) (fun _ _ => 0)).2.frame 0 = _
    rw [hn]
    generalize next (fun _ => 0) stepEnv s = m at *
    have l0 : m.samplesLeft = 0 := by
      unfold EnvSt.samplesLeft
      have : ⌈(m.t1 - m.t) / m.dt⌉ = 0 := by rw [h5, h1, h2, Int.ceil_eq_iff]; norm_num
      rw [this]; rfl
    obtain ⟨g1, g2, g3, g4, g5, g6, g7⟩ := next_zero stepEnv m
    have ee' : m.t1 + 0.75 * m.interval = 4.68 := by rw [h3, h5]; norm_num
    rw [ee'] at g5 g6 g7
    rw [h1] at g1; rw [h2] at g2
    have l1 : (next (fun _ => 0) stepEnv m).samplesLeft = 1 := by
      unfold EnvSt.samplesLeft
      have : ⌈((next (fun _ => 0) stepEnv m).t1 - (next (fun _ => 0) stepEnv m).t) / (next (fun _ => 0) stepEnv m).dt⌉ = 1 := by rw [g5, g1, g2, Int.ceil_eq_iff]; norm_num
      rw [this]; rfl
    have hm : ({ m with v := fun c => (fun y => y + m.vd c)^[0] (m.v c), t := m.t + (0 : Nat) * m.dt } : EnvSt 1 Unit) = m := adv_zero m
    obtain ⟨r, hr⟩ : ∃ r, envLoop true (fun _ : Frame ℝ 0 => next (fun _ => 0) stepEnv) 1 (fun c => c.elim0) 3 0 m (fun _ _ => 0) = some r ∧ r.2.frame 0 = fun _ => 0.1 / 0.78 := by
      rw [envLoop, if_pos (by omega)]
      simp only [l0, Nat.min_zero, Nat.add_zero]
      rw [hm, if_pos ⟨trivial, Or.inl trivial⟩]
      obtain ⟨r, hr, hv⟩ := loop_one true (fun _ : Frame ℝ 0 => next (fun _ => 0) stepEnv) (fun c => c.elim0) (next (fun _ => 0) stepEnv m)
        (fun c j => if 0 ≤ j ∧ j < 0 then (fun y => y + m.vd c)^[j - 0] (m.v c) else 0) l1
      refine ⟨r, hr, hv.trans ?_⟩
      funext c
      show (next (fun _ => 0) stepEnv m).v c = _
      rw [g7, h6, h1, h5, h3, stepEnv_hi (by norm_num)]
      unfold lerp; norm_num
    rw [run_eq hr.1, hr.2]

/-- **C54 fails** for intervals a little longer than a sample: in a block the envelope catches up with time, when ticking it falls behind and extrapolates. -/
theorem C54_violation : ∃ (rnd : BitVec 64 → ℝ) (env : ℝ → Frame ℝ 1) (interval sr : ℝ), (∀ h, 0 ≤ rnd h ∧ rnd h < 1) ∧ 0 < sr ∧ 1 / sr < interval ∧
    ∃ (w : Nat → Frame ℝ 0) (cs : List (Call ℝ 0 1)), (∀ c ∈ cs, c.ok) ∧
      ((envelope rnd env).exec w cs 0 (newSt env interval sr 0)).2 ≠ ((envelope rnd env).exec w (unblock cs) 0 (newSt env interval sr 0)).2 := by
  refine ⟨fun _ => 0, stepEnv, 1.04, 1, fun _ => ⟨le_refl _, by norm_num⟩, by norm_num, by norm_num, fun _ c => c.elim0, [.tick, .tick, .tick, .tick, .block 1 (fun c => c.elim0) (fun _ _ => 0) (fun _ _ _ => 0)], ?_, ?_⟩
  · intro c hc
    simp only [List.mem_cons, List.mem_nil_iff, or_false] at hc
    rcases hc with h | h | h | h | h <;> rw [h] <;> simp [Call.ok]
  · intro h
    have h5 := congrArg (fun l => l[4]?) h
    simp only [unblock, Node.exec] at h5
    obtain ⟨a1, a2, a3, a4, -⟩ := tick_zero (newSt stepEnv 1.04 1 0) (fun c => c.elim0) (le_refl _) (by show (1 : ℝ) / 1 = 1; norm_num) rfl
    have a1' : ((envelope (fun _ => 0) stepEnv).tick (newSt stepEnv 1.04 1 0) (fun c => c.elim0)).1.t = 1 := a1.trans (by show (0 : ℝ) + 1 = 1; norm_num)
    have a4' : ((envelope (fun _ => 0) stepEnv).tick (newSt stepEnv 1.04 1 0) (fun c => c.elim0)).1.t1 = 0.78 := a4.trans (by show (0 : ℝ) + 0.78 = 0.78; norm_num)
    clear a1 a4
    generalize ((envelope (fun _ => 0) stepEnv).tick (newSt stepEnv 1.04 1 0) (fun c => c.elim0)).1 = s1 at *
    obtain ⟨b1, b2, b3, b4, -⟩ := tick_zero s1 (fun c => c.elim0) (by rw [a1', a4']; norm_num) a2 a3
    rw [a1'] at b1; rw [a4'] at b4
    generalize ((envelope (fun _ => 0) stepEnv).tick s1 (fun c => c.elim0)).1 = s2 at *
    obtain ⟨c1, c2, c3, c4, -⟩ := tick_zero s2 (fun c => c.elim0) (by rw [b1, b4]; norm_num) b2 b3
    rw [b1] at c1; rw [b4] at c4
    generalize ((envelope (fun _ => 0) stepEnv).tick s2 (fun c => c.elim0)).1 = s3 at *
    obtain ⟨d1, d2, d3, d4, d5⟩ := tick_zero s3 (fun c => c.elim0) (by rw [c1, c4]; norm_num) c2 c3
    rw [c1] at d1; rw [c4] at d4 d5
    generalize ((envelope (fun _ => 0) stepEnv).tick s3 (fun c => c.elim0)).1 = s4 at *
    have d6 : s4.v1 = fun _ => 0 := d5.trans (stepEnv_lo (by norm_num))
    have e := fifth s4 (by rw [d1]; norm_num) d2 d3 (by rw [d4]; norm_num) d6
    simp only [List.range_one, List.map_cons, List.map_nil, List.replicate_one, List.singleton_append, List.append_nil] at h5
    have h6 : ((envelope (fun _ => 0) stepEnv).process (fun _ _ _ => 0) s4 1 (blockInput (fun _ c => c.elim0) 4 1 (fun c => c.elim0)) (fun _ _ => 0)).2.frame 0 =
        ((envelope (fun _ => 0) stepEnv).tick s4 (fun c => c.elim0)).2 := by
      simpa [Node.exec] using h5
    rw [e.1] at h6
    have h7 := congrFun (h6.symm.trans e.2) 0
    norm_num at h7

end Fundsp.Env
