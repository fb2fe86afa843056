import Verif.Env.Props

/-!
# C124: changing the interval of an envelope

`An::interval` and `Setting::interval` (`/repo/src/combinator.rs:283-286`, `/repo/src/setting.rs:173-178`) set the average distance of the points at
which `envelope` and `lfo` evaluate their function. Over the reals, as C54.
-/

noncomputable section
namespace Fundsp.Env
open Fundsp.Math (lerp delerp)
variable {o : Nat}

/-! ## Model -/

/-- `Envelope::set`: `envelope.rs:165-169`. -/
def setInterval (s : EnvSt o Unit) (i : ℝ) : EnvSt o Unit := { s with interval := i }

/-- `Envelope::set_hash`: `envelope.rs:171-174`. -/
def setHash (s : EnvSt o Unit) (h : BitVec 64) : EnvSt o Unit := { s with hash := h, thash := h }

/-- What can be done to an envelope. -/
inductive Ev
  | tick
  | block (n : Nat)
  | interval (i : ℝ)
  | hash (h : BitVec 64)
  | reset

/-- Effect on the state. -/
def evApply (rnd : BitVec 64 → ℝ) (env : ℝ → Frame ℝ o) (s : EnvSt o Unit) : Ev → EnvSt o Unit
  | .tick => ((envelope rnd env).tick s (fun c => c.elim0)).1
  | .block n => ((envelope rnd env).process 0 s n (fun c => c.elim0) (fun _ _ => 0)).1
  | .interval i => setInterval s i
  | .hash h => setHash s h
  | .reset => reset env s

/-- State after a history. -/
def stateAfter (rnd : BitVec 64 → ℝ) (env : ℝ → Frame ℝ o) (s : EnvSt o Unit) (es : List Ev) : EnvSt o Unit := es.foldl (evApply rnd env) s

/-- The sample that is played after a history. -/
def sampleAfter (rnd : BitVec 64 → ℝ) (env : ℝ → Frame ℝ o) (s : EnvSt o Unit) (es : List Ev) : Frame ℝ o :=
  ((envelope rnd env).tick (stateAfter rnd env s es) (fun c => c.elim0)).2

/-- The samples of a block that is played after a history. -/
def blockAfter (rnd : BitVec 64 → ℝ) (env : ℝ → Frame ℝ o) (s : EnvSt o Unit) (es : List Ev) (n : Nat) : Buf ℝ o :=
  ((envelope rnd env).process 0 (stateAfter rnd env s es) n (fun c => c.elim0) (fun _ _ => 0)).2

/-! ## Specification -/

/-- The same with blocks as single samples. -/
def singles (es : List Ev) : List Ev := es.flatMap (fun e => match e with | .block n => List.replicate n .tick | e => [e])

/-- Samples played since the last reset. -/
def played (es : List Ev) : Nat := es.foldl (fun k e => match e with | .tick => k + 1 | .block n => k + n | .reset => 0 | _ => k) 0

/-- The interval that is set. -/
def inForce (i0 : ℝ) (es : List Ev) : ℝ := es.foldl (fun i e => match e with | .interval j => j | _ => i) i0

/-- `y` is on the straight line through the values of `f` at `a` and `b`. -/
def OnChord (f : ℝ → Frame ℝ o) (a b t : ℝ) (y : Frame ℝ o) : Prop := ∀ c, y c = (1 - (t - a) / (b - a)) * f a c + (t - a) / (b - a) * f b c

/-! ## Lemmas -/

/-- The state is in a segment. -/
structure InSeg (env : ℝ → Frame ℝ o) (s : EnvSt o Unit) : Prop where
  lo : s.t0 ≤ s.t
  hi : s.t < s.t1
  v : OnChord env s.t0 s.t1 s.t s.v
  vd : ∀ c, s.vd c = (env s.t1 c - env s.t0 c) / ((s.t1 - s.t0) / s.dt)

theorem next_inSeg {rnd : BitVec 64 → ℝ} (hr : ∀ h, 0 ≤ rnd h ∧ rnd h ≤ 1) (env : ℝ → Frame ℝ o) {s : EnvSt o Unit} (hs : s.Slow) (hv : s.v1 = env s.t1)
    (h1 : s.t1 ≤ s.t) (h2 : s.t < s.t1 + s.dt) :
    InSeg env (next rnd env s) ∧ (next rnd env s).t0 = s.t1 ∧ (next rnd env s).v1 = env (next rnd env s).t1 ∧
    0.75 * s.interval ≤ (next rnd env s).t1 - s.t1 ∧ (next rnd env s).t1 - s.t1 ≤ 1.25 * s.interval := by
  obtain ⟨j0, j1⟩ := jitter_bounds (hr s.thash).1 (hr s.thash).2
  have hpos : 0 < s.interval := by nlinarith [hs.1, hs.2]
  have e1 : (next rnd env s).t1 = s.t1 + lerp 0.75 1.25 (rnd s.thash) * s.interval := rfl
  have b1 : 0.75 * s.interval ≤ lerp 0.75 1.25 (rnd s.thash) * s.interval := mul_le_mul_of_nonneg_right j0 hpos.le
  have b2 : lerp 0.75 1.25 (rnd s.thash) * s.interval ≤ 1.25 * s.interval := mul_le_mul_of_nonneg_right j1 hpos.le
  refine ⟨⟨h1, ?_, ?_, ?_⟩, rfl, rfl, by rw [e1]; linarith, by rw [e1]; linarith⟩
  · rw [e1]
    show s.t < _
    linarith [hs.2]
  · intro c
    show lerp (s.v1 c) (env (s.t1 + lerp 0.75 1.25 (rnd s.thash) * s.interval) c) (delerp s.t1 (s.t1 + lerp 0.75 1.25 (rnd s.thash) * s.interval) s.t) =
      (1 - (s.t - s.t1) / (s.t1 + lerp 0.75 1.25 (rnd s.thash) * s.interval - s.t1)) * env s.t1 c +
        (s.t - s.t1) / (s.t1 + lerp 0.75 1.25 (rnd s.thash) * s.interval - s.t1) * env (s.t1 + lerp 0.75 1.25 (rnd s.thash) * s.interval) c
    rw [hv]
    generalize lerp 0.75 1.25 (rnd s.thash) * s.interval = L
    unfold lerp delerp
    ring
  · intro c
    show (env (s.t1 + lerp 0.75 1.25 (rnd s.thash) * s.interval) c - s.v1 c) / (lerp 0.75 1.25 (rnd s.thash) * s.interval / s.dt) =
      (env (s.t1 + lerp 0.75 1.25 (rnd s.thash) * s.interval) c - env s.t1 c) / ((s.t1 + lerp 0.75 1.25 (rnd s.thash) * s.interval - s.t1) / s.dt)
    rw [hv, add_sub_cancel_left]

theorem InSeg.step {env : ℝ → Frame ℝ o} {s : EnvSt o Unit} (h : InSeg env s) (hd : 0 < s.dt) (hlt : s.t + s.dt < s.t1) : InSeg env s.step := by
  refine ⟨?_, hlt, ?_, h.vd⟩
  · show s.t0 ≤ s.t + s.dt; linarith [h.lo]
  · intro c
    show s.v c + s.vd c = (1 - (s.t + s.dt - s.t0) / (s.t1 - s.t0)) * env s.t0 c + (s.t + s.dt - s.t0) / (s.t1 - s.t0) * env s.t1 c
    rw [h.v, h.vd]
    have : s.t1 - s.t0 ≠ 0 := by linarith [h.lo, h.hi]
    field_simp
    ring

theorem played_snoc (es : List Ev) (e : Ev) : played (es ++ [e]) = (match e with | .tick => played es + 1 | .block n => played es + n | .reset => 0 | _ => played es) := by
  simp [played, List.foldl_append]

theorem inForce_snoc (i0 : ℝ) (es : List Ev) (e : Ev) : inForce i0 (es ++ [e]) = (match e with | .interval j => j | _ => inForce i0 es) := by
  simp [inForce, List.foldl_append]

theorem stateAfter_snoc (rnd : BitVec 64 → ℝ) (env : ℝ → Frame ℝ o) (s : EnvSt o Unit) (es : List Ev) (e : Ev) :
    stateAfter rnd env s (es ++ [e]) = evApply rnd env (stateAfter rnd env s es) e := by simp [stateAfter, List.foldl_append]

/-- The invariant: where the state is after a history. -/
structure At (rnd : BitVec 64 → ℝ) (env : ℝ → Frame ℝ o) (i0 dt : ℝ) (es : List Ev) (s : EnvSt o Unit) : Prop where
  hdt : s.dt = dt
  slow : s.Slow
  int : s.interval = inForce i0 es
  t : s.t = played es * dt
  v1 : s.v1 = env s.t1
  place : (s.t1 ≤ s.t ∧ s.t < s.t1 + dt) ∨ (InSeg env s ∧ ∃ p q, es = p ++ q ∧ Ev.reset ∉ q ∧ s.t0 ≤ played p * dt ∧ played p * dt < s.t0 + dt ∧
    0.75 * inForce i0 p ≤ s.t1 - s.t0 ∧ s.t1 - s.t0 ≤ 1.25 * inForce i0 p)

/-- After the segment change that a tick may begin with. -/
theorem At.norm {rnd : BitVec 64 → ℝ} (hr : ∀ h, 0 ≤ rnd h ∧ rnd h ≤ 1) {env : ℝ → Frame ℝ o} {i0 dt : ℝ} {es : List Ev} {s : EnvSt o Unit}
    (h : At rnd env i0 dt es s) : InSeg env (s.norm (next rnd env)) ∧ (s.norm (next rnd env)).v1 = env (s.norm (next rnd env)).t1 ∧
    (s.norm (next rnd env)).t = s.t ∧ (s.norm (next rnd env)).dt = s.dt ∧ (s.norm (next rnd env)).interval = s.interval ∧
    ∃ p q, es = p ++ q ∧ Ev.reset ∉ q ∧ (s.norm (next rnd env)).t0 ≤ played p * dt ∧ played p * dt < (s.norm (next rnd env)).t0 + dt ∧
      0.75 * inForce i0 p ≤ (s.norm (next rnd env)).t1 - (s.norm (next rnd env)).t0 ∧
      (s.norm (next rnd env)).t1 - (s.norm (next rnd env)).t0 ≤ 1.25 * inForce i0 p := by
  rcases h.place with ⟨h1, h2⟩ | ⟨hin, hp⟩
  · have hn : s.norm (next rnd env) = next rnd env s := by unfold EnvSt.norm; rw [if_pos h1]
    rw [hn]
    obtain ⟨a, b, c, d, e⟩ := next_inSeg hr env h.slow h.v1 h1 (by rw [h.hdt]; exact h2)
    refine ⟨a, c, rfl, rfl, rfl, es, [], by simp, by simp, by rw [b, ← h.t]; exact h1, by rw [b, ← h.t]; exact h2, ?_, ?_⟩
    · rw [b, ← h.int]; exact d
    · rw [b, ← h.int]; exact e
  · have hn : s.norm (next rnd env) = s := by unfold EnvSt.norm; rw [if_neg (not_le.2 hin.hi)]
    rw [hn]
    exact ⟨hin, h.v1, rfl, rfl, rfl, hp⟩

theorem At.lag {rnd : BitVec 64 → ℝ} {env : ℝ → Frame ℝ o} {i0 dt : ℝ} {es : List Ev} {s : EnvSt o Unit} (h : At rnd env i0 dt es s) : s.Lag := by
  unfold EnvSt.Lag
  rcases h.place with ⟨-, h2⟩ | ⟨h2, -⟩
  · rw [h.hdt]; exact h2
  · linarith [h2.hi, h.slow.1]

theorem At.tick {rnd : BitVec 64 → ℝ} (hr : ∀ h, 0 ≤ rnd h ∧ rnd h ≤ 1) {env : ℝ → Frame ℝ o} {i0 dt : ℝ} {es : List Ev} {s : EnvSt o Unit}
    (h : At rnd env i0 dt es s) : At rnd env i0 dt (es ++ [.tick]) (s.norm (next rnd env)).step := by
  obtain ⟨n1, n2, n3, n4, n5, p, q, rfl, hq, b1, b2, b3, b4⟩ := h.norm hr
  refine ⟨n4.trans h.hdt, ⟨by show 0 < (s.norm (next rnd env)).dt; rw [n4]; exact h.slow.1,
    by show (s.norm (next rnd env)).dt ≤ 0.75 * (s.norm (next rnd env)).interval; rw [n4, n5]; exact h.slow.2⟩, ?_, ?_, n2, ?_⟩
  · rw [inForce_snoc]; exact n5.trans h.int
  · rw [played_snoc]
    show (s.norm (next rnd env)).t + (s.norm (next rnd env)).dt = _
    rw [n3, n4, h.t, h.hdt]; push_cast; ring
  · by_cases hlt : (s.norm (next rnd env)).t + (s.norm (next rnd env)).dt < (s.norm (next rnd env)).t1
    · refine .inr ⟨n1.step (by rw [n4]; exact h.slow.1) hlt, p, q ++ [.tick], by simp, by simp [hq], b1, b2, b3, b4⟩
    · refine .inl ⟨not_lt.1 hlt, ?_⟩
      show (s.norm (next rnd env)).t + (s.norm (next rnd env)).dt < (s.norm (next rnd env)).t1 + _
      rw [n4, h.hdt]; linarith [n1.hi]

theorem At.ticks {rnd : BitVec 64 → ℝ} (hr : ∀ h, 0 ≤ rnd h ∧ rnd h ≤ 1) {env : ℝ → Frame ℝ o} {i0 dt : ℝ} {es : List Ev} {s : EnvSt o Unit}
    (h : At rnd env i0 dt es s) (w : Nat → Frame ℝ 0) (n : Nat) :
    At rnd env i0 dt (es ++ List.replicate n .tick) ((mach (fun _ : Frame ℝ 0 => next rnd env)).st s w n) := by
  induction n with
  | zero => rw [List.replicate_zero, List.append_nil]; exact h
  | succ n ih =>
    rw [List.replicate_succ', ← List.append_assoc]
    exact ih.tick hr

/-- The segment change does no harm. -/
theorem At.next {rnd : BitVec 64 → ℝ} (hr : ∀ h, 0 ≤ rnd h ∧ rnd h ≤ 1) {env : ℝ → Frame ℝ o} {i0 dt : ℝ} {es : List Ev} {s : EnvSt o Unit}
    (h : At rnd env i0 dt es s) : At rnd env i0 dt es (s.norm (next rnd env)) := by
  obtain ⟨n1, n2, n3, n4, n5, n6⟩ := h.norm hr
  exact ⟨n4.trans h.hdt, ⟨by rw [n4]; exact h.slow.1, by rw [n4, n5]; exact h.slow.2⟩, n5.trans h.int, n3.trans h.t, n2, .inr ⟨n1, n6⟩⟩

theorem At.block {rnd : BitVec 64 → ℝ} (hr : ∀ h, 0 ≤ rnd h ∧ rnd h ≤ 1) {env : ℝ → Frame ℝ o} {i0 dt : ℝ} {es : List Ev} {s : EnvSt o Unit}
    (h : At rnd env i0 dt es s) {n : Nat} (hn : n ≤ 64) (inp : Buf ℝ 0) (out : Buf ℝ o) :
    At rnd env i0 dt (es ++ List.replicate n .tick) (envProcess (Env.next rnd env) s n out).1 ∧
    ∀ j, j < n → (envProcess (Env.next rnd env) s n out).2.frame j = (mach (fun _ : Frame ℝ 0 => Env.next rnd env)).out s inp.frame j := by
  have hinp : inp = fun c => c.elim0 := by funext c; exact c.elim0
  by_cases h0 : n = 0
  · subst h0
    have hrun : envLoop true (fun _ : Frame ℝ 0 => Env.next rnd env) 0 (fun c => c.elim0) 1 0 (s.norm (Env.next rnd env)) out = some (s.norm (Env.next rnd env), out) := by
      unfold envLoop; simp
    unfold envProcess
    rw [run_eq hrun]
    exact ⟨by simpa using h.next hr, fun j hj => absurd hj (by omega)⟩
  · have hs := run_spec (eager := true) (next_good hr env) hn (by omega) inp out h.slow h.lag
    have ht := h.ticks hr inp.frame n
    rw [hinp] at hs ht ⊢
    refine ⟨?_, hs.2⟩
    obtain ⟨-, -, e | ⟨-, e1, x, e2⟩⟩ := hs.1
    · unfold envProcess; rw [e]; exact ht
    · have := ht.next hr
      unfold EnvSt.norm at this
      rw [if_pos e1] at this
      unfold envProcess; rw [e2]; exact this

theorem singles_snoc (es : List Ev) (e : Ev) : singles (es ++ [e]) = singles es ++ (match e with | .block n => List.replicate n .tick | e => [e]) := by
  simp [singles]

theorem at_after {rnd : BitVec 64 → ℝ} (hr : ∀ h, 0 ≤ rnd h ∧ rnd h ≤ 1) (env : ℝ → Frame ℝ o) (i0 sr : ℝ) (h0 : BitVec 64) (hsr : 0 < sr)
    (hi : 1 / sr ≤ 0.75 * i0) (es : List Ev) (hv : ∀ i, Ev.interval i ∈ es → 1 / sr ≤ 0.75 * i) (hb : ∀ n, Ev.block n ∈ es → n ≤ 64) :
    At rnd env i0 (1 / sr) (singles es) (stateAfter rnd env (newSt env i0 sr h0) es) := by
  have hd : 0 < 1 / sr := by positivity
  induction es using List.reverseRecOn with
  | nil =>
    refine ⟨rfl, ⟨hd, hi⟩, rfl, ?_, rfl, .inl ⟨le_rfl, ?_⟩⟩
    · show (0 : ℝ) = _; simp [played, singles]
    · show (0 : ℝ) < 0 + 1 / sr; linarith
  | append_singleton es e ih =>
    have h := ih (fun i hm => hv i (by simp [hm])) (fun n hm => hb n (by simp [hm]))
    rw [stateAfter_snoc, singles_snoc]
    generalize stateAfter rnd env (newSt env i0 sr h0) es = s at h
    generalize singles es = l at h
    cases e with
    | tick => exact h.tick hr
    | block n => exact (h.block hr (hb n (by simp)) (fun c => c.elim0) _).1
    | interval i =>
      have := hv i (by simp)
      refine ⟨h.hdt, ⟨h.slow.1, by show s.dt ≤ 0.75 * i; rw [h.hdt]; exact this⟩, by rw [inForce_snoc]; rfl, by rw [played_snoc]; exact h.t, h.v1, ?_⟩
      rcases h.place with hp | ⟨a, p, q, rfl, c, d⟩
      · exact .inl hp
      · exact .inr ⟨⟨a.lo, a.hi, a.v, a.vd⟩, p, q ++ [.interval i], by simp, by simp [c], d⟩
    | hash k =>
      refine ⟨h.hdt, h.slow, by rw [inForce_snoc]; exact h.int, by rw [played_snoc]; exact h.t, h.v1, ?_⟩
      rcases h.place with hp | ⟨a, p, q, rfl, c, d⟩
      · exact .inl hp
      · exact .inr ⟨⟨a.lo, a.hi, a.v, a.vd⟩, p, q ++ [.hash k], by simp, by simp [c], d⟩
    | reset =>
      refine ⟨h.hdt, h.slow, by rw [inForce_snoc]; exact h.int, ?_, rfl, .inl ⟨le_rfl, ?_⟩⟩
      · rw [played_snoc]; show (0 : ℝ) = _; simp
      · show (0 : ℝ) < 0 + 1 / sr; linarith

theorem played_ticks (l : List Ev) (n : Nat) : played (l ++ List.replicate n .tick) = played l + n := by
  induction n with
  | zero => simp
  | succ n ih => rw [List.replicate_succ', ← List.append_assoc, played_snoc]; simp only [ih]; omega

theorem played_singles (es : List Ev) : played (singles es) = played es := by
  induction es using List.reverseRecOn with
  | nil => rfl
  | append_singleton es e ih =>
    rw [singles_snoc, played_snoc]
    cases e with
    | block n => simp only [played_ticks, ih]
    | tick | interval | hash | reset => simp only [played_snoc, ih]

theorem interval_singles {es : List Ev} {i : ℝ} : Ev.interval i ∈ singles es ↔ Ev.interval i ∈ es := by
  simp only [singles, List.mem_flatMap]
  constructor
  · rintro ⟨e, he, hm⟩
    cases e <;> simp at hm
    rw [hm]; exact he
  · intro h; exact ⟨_, h, by simp⟩

/-! ## C124 -/

/-- **C124** (interpolation): whatever has been done to an envelope, the sample it plays next is on the line between the values of its function at two
points, one before or at the present time and one after it. Their distance is within 25 percent of the interval that was set at a time when the first
sample between them was about to be played, `p` being the history up to there. Partial: every interval is 4/3 of a sample or longer, see `C54_violation`. -/
theorem C124_interpolates_partial {rnd : BitVec 64 → ℝ} (hr : ∀ h, 0 ≤ rnd h ∧ rnd h ≤ 1) (env : ℝ → Frame ℝ o) (i0 sr : ℝ) (h0 : BitVec 64) (hsr : 0 < sr)
    (hi : 1 / sr ≤ 0.75 * i0) (es : List Ev) (hv : ∀ i, Ev.interval i ∈ es → 1 / sr ≤ 0.75 * i) (hb : ∀ n, Ev.block n ∈ es → n ≤ 64) :
    ∃ a b p q, singles es = p ++ q ∧ Ev.reset ∉ q ∧ a ≤ played p / sr ∧ played p / sr < a + 1 / sr ∧ a ≤ played es / sr ∧ played es / sr < b ∧
      0.75 * inForce i0 p ≤ b - a ∧ b - a ≤ 1.25 * inForce i0 p ∧
      OnChord env a b (played es / sr) (sampleAfter rnd env (newSt env i0 sr h0) es) := by
  have h := at_after hr env i0 sr h0 hsr hi es hv hb
  obtain ⟨n1, n2, n3, n4, n5, p, q, e, hq, b1, b2, b3, b4⟩ := h.norm hr
  have ht : ((stateAfter rnd env (newSt env i0 sr h0) es).norm (next rnd env)).t = played es / sr := by rw [n3, h.t, played_singles]; ring
  have hp : (played p : ℝ) * (1 / sr) = played p / sr := by ring
  rw [hp] at b1 b2
  refine ⟨_, _, p, q, e, hq, b1, b2, ?_, ?_, b3, b4, ?_⟩
  · rw [← ht]; exact n1.lo
  · rw [← ht]; exact n1.hi
  · rw [← ht]; exact n1.v

/-- **C124** (blocks): a block consists of the samples that single calls would give at that time, so that `C124_interpolates_partial` speaks of all samples. -/
theorem C124_block_partial {rnd : BitVec 64 → ℝ} (hr : ∀ h, 0 ≤ rnd h ∧ rnd h ≤ 1) (env : ℝ → Frame ℝ o) (i0 sr : ℝ) (h0 : BitVec 64) (hsr : 0 < sr)
    (hi : 1 / sr ≤ 0.75 * i0) (es : List Ev) (hv : ∀ i, Ev.interval i ∈ es → 1 / sr ≤ 0.75 * i) (hb : ∀ n, Ev.block n ∈ es → n ≤ 64)
    (n : Nat) (hn : n ≤ 64) (j : Nat) (hj : j < n) (c : Fin o) :
    blockAfter rnd env (newSt env i0 sr h0) es n c j = sampleAfter rnd env (newSt env i0 sr h0) (es ++ List.replicate j .tick) c := by
  have h := at_after hr env i0 sr h0 hsr hi es hv hb
  have := congrFun ((h.block hr hn (fun c => c.elim0) (fun _ _ => 0)).2 j hj) c
  refine this.trans ?_
  have hst : ∀ k, stateAfter rnd env (newSt env i0 sr h0) (es ++ List.replicate k .tick) =
      (mach (fun _ : Frame ℝ 0 => next rnd env)).st (stateAfter rnd env (newSt env i0 sr h0) es) (Buf.frame (fun c => c.elim0)) k := by
    intro k
    induction k with
    | zero => simp; rfl
    | succ k ih => rw [List.replicate_succ', ← List.append_assoc, stateAfter_snoc, ih]; rfl
  unfold sampleAfter
  rw [hst]
  rfl

/-- **C124** (before playing): an interval that is set before the first sample or reset counts from the start, as if the envelope had been made with it. -/
theorem C124_builder (env : ℝ → Frame ℝ o) (i0 i sr : ℝ) (h0 : BitVec 64) :
    setInterval (newSt env i0 sr h0) i = newSt env i sr h0 ∧ ∀ s : EnvSt o Unit, reset env (setInterval s i) = setInterval (reset env s) i := ⟨rfl, fun _ => rfl⟩

theorem played_append (p q : List Ev) (hq : Ev.reset ∉ q) : ∃ m, played (p ++ q) = played p + m := by
  induction q using List.reverseRecOn with
  | nil => exact ⟨0, by simp⟩
  | append_singleton q e ih =>
    obtain ⟨m, hm⟩ := ih (fun h => hq (by simp [h]))
    rw [← List.append_assoc, played_snoc]
    cases e with
    | tick => exact ⟨m + 1, by simp only [hm]; omega⟩
    | block n => exact ⟨m + n, by simp only [hm]; omega⟩
    | reset => exact absurd (by simp) hq
    | interval | hash => exact ⟨m, hm⟩

theorem inForce_append (i0 : ℝ) (p q : List Ev) (hq : ∀ i, Ev.interval i ∉ q) : inForce i0 (p ++ q) = inForce i0 p := by
  induction q using List.reverseRecOn with
  | nil => simp
  | append_singleton q e ih =>
    rw [← List.append_assoc, inForce_snoc]
    have := ih (fun i h => hq i (by simp [h]))
    cases e with
    | interval i => exact absurd (by simp) (hq i)
    | _ => exact this

theorem inForce_le {i0 I : ℝ} (h0 : i0 ≤ I) (p : List Ev) (hp : ∀ i, Ev.interval i ∈ p → i ≤ I) : inForce i0 p ≤ I := by
  induction p using List.reverseRecOn with
  | nil => exact h0
  | append_singleton p e ih =>
    rw [inForce_snoc]
    have := ih (fun i h => hp i (by simp [h]))
    cases e with
    | interval i => exact hp i (by simp)
    | _ => exact this

/-- **C124** (soon): if no interval before was longer than `I`, then a new interval `i` is in use 1.25 `I` later at the latest. -/
theorem C124_soon_partial {rnd : BitVec 64 → ℝ} (hr : ∀ h, 0 ≤ rnd h ∧ rnd h ≤ 1) (env : ℝ → Frame ℝ o) (i0 sr : ℝ) (h0 : BitVec 64) (hsr : 0 < sr)
    (hi : 1 / sr ≤ 0.75 * i0) (es q : List Ev) (i I : ℝ) (hv : ∀ i, Ev.interval i ∈ es → 1 / sr ≤ 0.75 * i) (hiv : 1 / sr ≤ 0.75 * i)
    (hb : ∀ n, Ev.block n ∈ es ++ q → n ≤ 64) (hq : ∀ j, Ev.interval j ∉ q) (hI0 : i0 ≤ I) (hI : ∀ i, Ev.interval i ∈ es → i ≤ I)
    (hlong : played es / sr + 1.25 * I ≤ played (es ++ .interval i :: q) / sr) :
    ∃ a b, a ≤ played (es ++ .interval i :: q) / sr ∧ played (es ++ .interval i :: q) / sr < b ∧ 0.75 * i ≤ b - a ∧ b - a ≤ 1.25 * i ∧
      OnChord env a b (played (es ++ .interval i :: q) / sr) (sampleAfter rnd env (newSt env i0 sr h0) (es ++ .interval i :: q)) := by
  obtain ⟨a, b, p, r, e, hr', b1, b2, b3, b4, b5, b6, b7⟩ := C124_interpolates_partial hr env i0 sr h0 hsr hi (es ++ .interval i :: q) (by
    intro j hj
    rcases List.mem_append.1 hj with h | h
    · exact hv j h
    · rcases List.mem_cons.1 h with h | h
      · cases h; exact hiv
      · exact absurd h (hq j)) (by
    intro n hn
    exact hb n (by simpa using hn))
  have hI' : ∀ i, Ev.interval i ∈ singles es → i ≤ I := fun i h => hI i (interval_singles.1 h)
  have hq' : ∀ i, Ev.interval i ∉ singles q := fun i h => hq i (interval_singles.1 h)
  have es' : singles (es ++ .interval i :: q) = singles es ++ .interval i :: singles q := by simp [singles]
  rw [es'] at e
  rw [← played_singles es] at hlong
  generalize singles es = l at *
  generalize singles q = k at *
  have key : inForce i0 p = i := by
    rcases List.append_eq_append_iff.1 e with ⟨x, h1, h2⟩ | ⟨x, h1, h2⟩
    · -- the segment began after the samples before the setting
      cases x with
      | nil =>
        exfalso
        rw [List.append_nil] at h1
        have hm : inForce i0 p ≤ I := by rw [h1]; exact inForce_le hI0 _ hI'
        have : a ≤ played l / sr := by rw [← h1]; exact b1
        linarith
      | cons x m =>
        rw [List.cons_append, List.cons.injEq] at h2
        obtain ⟨rfl, h2⟩ := h2
        rw [h1, show l ++ Ev.interval i :: m = (l ++ [.interval i]) ++ m by simp,
          inForce_append _ _ _ (fun j hj => hq' j (by rw [h2]; simp [hj])), inForce_snoc]
    · -- it began before them
      exfalso
      have hm : inForce i0 p ≤ I := inForce_le hI0 _ (fun j hj => hI' j (by rw [h1]; simp [hj]))
      have hl : Ev.reset ∉ x := fun hmem => hr' (by rw [h2]; simp [hmem])
      obtain ⟨m, hm'⟩ := played_append p x hl
      rw [← h1] at hm'
      have : (played p : ℝ) / sr ≤ played l / sr := by
        rw [hm']; push_cast
        exact div_le_div_of_nonneg_right (by linarith [Nat.cast_nonneg (α := ℝ) m]) hsr.le
      linarith
  rw [key] at b5 b6
  exact ⟨a, b, b3, b4, b5, b6, b7⟩

example : ∃ es q : List Ev, (∀ i, Ev.interval i ∈ es → 1 / (1000 : ℝ) ≤ 0.75 * i) ∧ (∀ n, Ev.block n ∈ es ++ q → n ≤ 64) ∧ (∀ j, Ev.interval j ∉ q) ∧
    (∀ i, Ev.interval i ∈ es → i ≤ 0.004) ∧ (played es / 1000 + 1.25 * 0.004 : ℝ) ≤ played (es ++ .interval 0.01 :: q) / 1000 := by
  refine ⟨[.tick, .interval 0.004, .block 10], [.tick, .block 4], ?_, ?_, by intro j; simp, ?_, ?_⟩
  · intro i hi
    simp at hi; rw [hi]; norm_num
  · intro n hn; simp at hn; omega
  · intro i hi
    simp at hi; rw [hi]
  · simp [played]; norm_num

/-! ### Where blocks matter -/

/-- A block that ends with a segment begins the next one. -/
theorem block_ends (nx : EnvSt o Unit → EnvSt o Unit) (s : EnvSt o Unit) (out : Buf ℝ o) {n : Nat} (hn : 0 < n) (h : (s.norm nx).samplesLeft = n) :
    (envProcess nx s n out).1 = nx ((s.norm nx).adv n) := by
  have : ∃ out', envLoop true (fun _ : Frame ℝ 0 => nx) n (fun c => c.elim0) 2 0 (s.norm nx) out = some (nx ((s.norm nx).adv n), out') := by
    unfold envLoop
    rw [if_pos hn]
    dsimp only
    unfold envLoop
    simp [h, EnvSt.adv]
  obtain ⟨out', h'⟩ := this
  unfold envProcess
  rw [run_eq h']

/-- **C124 fails** for "immediately, whether it is played in blocks or not": a block that ends with a segment has begun the next one already. Playing
four samples as a block or one by one and then setting the interval gives different sounds. -/
theorem C124_violation_block : ∃ (rnd : BitVec 64 → ℝ) (env : ℝ → Frame ℝ 1) (i0 sr i : ℝ), (∀ h, 0 ≤ rnd h ∧ rnd h < 1) ∧ 0 < sr ∧ 1 / sr ≤ 0.75 * i0 ∧ 1 / sr ≤ 0.75 * i ∧
    sampleAfter rnd env (newSt env i0 sr 0) (List.replicate 4 .tick ++ [.interval i, .tick]) 0 = 32 ∧
    sampleAfter rnd env (newSt env i0 sr 0) [.block 4, .interval i, .tick] 0 = 28 := by
  refine ⟨fun _ => 1 / 2, fun t _ => t ^ 2, 4, 1, 8, fun h => ⟨by norm_num, by norm_num⟩, by norm_num, by norm_num, by norm_num, ?_, ?_⟩
  · simp only [sampleAfter, stateAfter, List.replicate, List.cons_append, List.nil_append, List.foldl, evApply, envelope, envTick, newSt, reset, setInterval,
      EnvSt.norm, EnvSt.step, next, EnvSt.segment, EnvSt.nextInterval, lerp, delerp]
    norm_num
  · have hl : ((newSt (fun t _ => t ^ 2 : ℝ → Frame ℝ 1) 4 1 0).norm (next (fun _ => (1 / 2 : ℝ)) (fun t _ => t ^ 2))).samplesLeft = 4 := by
      simp only [EnvSt.samplesLeft, newSt, reset, EnvSt.norm, next, EnvSt.segment, EnvSt.nextInterval, lerp]
      norm_num
      rfl
    have hb := block_ends (next (fun _ => (1 / 2 : ℝ)) (fun t _ => t ^ 2)) (newSt (fun t _ => t ^ 2 : ℝ → Frame ℝ 1) 4 1 0) (fun _ _ => 0) (by norm_num) hl
    simp only [sampleAfter, stateAfter, List.foldl, evApply]
    show ((envelope _ _).tick ((envelope _ _).tick (setInterval (envProcess _ _ 4 _).1 8) _).1 _).2 0 = 28
    rw [hb]
    simp only [envelope, envTick, newSt, reset, setInterval, EnvSt.adv,
      EnvSt.norm, EnvSt.step, next, EnvSt.segment, EnvSt.nextInterval, lerp, delerp]
    norm_num

/-! ### Envelopes with inputs -/

section
variable {i : Nat} {S : Type}

/-- What can be done to an envelope with inputs. -/
inductive InEv (i : Nat)
  | tick (x : Frame ℝ i)
  | block (n : Nat) (inp : Buf ℝ i)
  | interval (t : ℝ)
  | hash (h : BitVec 64)
  | reset

/-- State and samples: `EnvelopeIn::set` `envelope.rs:344-348`, `set_hash` `350-353`. -/
def inApply (rnd : BitVec 64 → ℝ) (env : S → ℝ → Frame ℝ i → S × Frame ℝ o) (s : EnvSt o S) : InEv i → EnvSt o S × List (Frame ℝ o)
  | .tick x => (((envelopeIn rnd env).tick s x).1, [((envelopeIn rnd env).tick s x).2])
  | .block n inp => (((envelopeIn rnd env).process 0 s n inp (fun _ _ => 0)).1,
      (List.range n).map ((envelopeIn rnd env).process 0 s n inp (fun _ _ => 0)).2.frame)
  | .interval t => ({ s with interval := t }, [])
  | .hash h => ({ s with hash := h, thash := h }, [])
  | .reset => (resetIn s, [])

/-- A history. -/
def inRunEv (rnd : BitVec 64 → ℝ) (env : S → ℝ → Frame ℝ i → S × Frame ℝ o) : List (InEv i) → EnvSt o S → EnvSt o S × List (Frame ℝ o)
  | [], s => (s, [])
  | e :: es, s => ((inRunEv rnd env es (inApply rnd env s e).1).1, (inApply rnd env s e).2 ++ (inRunEv rnd env es (inApply rnd env s e).1).2)

/-- The same with blocks as single samples. -/
def inSingles (es : List (InEv i)) : List (InEv i) :=
  es.flatMap (fun e => match e with | .block n inp => (List.range n).map (fun k => .tick (inp.frame k)) | e => [e])

theorem inRunEv_append (rnd : BitVec 64 → ℝ) (env : S → ℝ → Frame ℝ i → S × Frame ℝ o) : ∀ (es fs : List (InEv i)) (s : EnvSt o S),
    inRunEv rnd env (es ++ fs) s = ((inRunEv rnd env fs (inRunEv rnd env es s).1).1, (inRunEv rnd env es s).2 ++ (inRunEv rnd env fs (inRunEv rnd env es s).1).2)
  | [], fs, s => rfl
  | e :: es, fs, s => by
    rw [List.cons_append]
    simp only [inRunEv]
    rw [inRunEv_append rnd env es fs]
    simp

theorem inRunEv_ticks (rnd : BitVec 64 → ℝ) (env : S → ℝ → Frame ℝ i → S × Frame ℝ o) (w : Nat → Frame ℝ i) (s : EnvSt o S) (n : Nat) :
    inRunEv rnd env ((List.range n).map (fun k => .tick (w k))) s =
      ((mach (nextIn rnd env)).st s w n, (List.range n).map ((mach (nextIn rnd env)).out s w)) := by
  induction n with
  | zero => rfl
  | succ n ih =>
    rw [List.range_succ, List.map_append, inRunEv_append, ih, List.map_append]
    rfl

/-- **C124** (with inputs): settings, hashes and resets between blocks have the same effect as between single samples. Partial: every interval is 4/3 of a
sample or longer, see `C54_violation`. -/
theorem C124_in_block_partial {rnd : BitVec 64 → ℝ} (hr : ∀ h, 0 ≤ rnd h ∧ rnd h ≤ 1) (env : S → ℝ → Frame ℝ i → S × Frame ℝ o) (i0 sr : ℝ) (h0 : BitVec 64) (c : S)
    (hsr : 0 < sr) (hi : 1 / sr ≤ 0.75 * i0) (es : List (InEv i)) (hv : ∀ t, InEv.interval t ∈ es → 1 / sr ≤ 0.75 * t) (hb : ∀ n inp, InEv.block n inp ∈ es → n ≤ 64) :
    inRunEv rnd env es (newInSt i0 sr h0 c) = inRunEv rnd env (inSingles es) (newInSt i0 sr h0 c) := by
  have hg := nextIn_good hr env
  have key : ∀ (es : List (InEv i)) (s : EnvSt o S), s.Slow → s.Lag → s.dt = 1 / sr → (∀ t, InEv.interval t ∈ es → 1 / sr ≤ 0.75 * t) → (∀ n inp, InEv.block n inp ∈ es → n ≤ 64) →
      inRunEv rnd env es s = inRunEv rnd env (inSingles es) s := by
    have hst : ∀ (s : EnvSt o S) (w : Nat → Frame ℝ i), s.Slow → s.Lag → s.dt = 1 / sr → ∀ n, ((mach (nextIn rnd env)).st s w n).Slow ∧ ((mach (nextIn rnd env)).st s w n).Lag ∧
        ((mach (nextIn rnd env)).st s w n).dt = 1 / sr := by
      intro s w h1 h2 h3 n
      induction n with
      | zero => exact ⟨h1, h2, h3⟩
      | succ n ih =>
        obtain ⟨a, b⟩ := tick_inv hg (w n) ih.1 ih.2.1
        refine ⟨a, b, ?_⟩
        show (((mach (nextIn rnd env)).st s w n).norm (nextIn rnd env (w n))).dt = 1 / sr
        unfold EnvSt.norm
        split
        · rw [hg.dt]; exact ih.2.2
        · exact ih.2.2
    intro es
    induction es with
    | nil => intro s _ _ _ _ _; rfl
    | cons e es ih =>
      intro s h1 h2 h3 hv hb
      have ih' := fun s h1 h2 h3 => ih s h1 h2 h3 (fun t ht => hv t (List.mem_cons_of_mem _ ht)) (fun n inp ht => hb n inp (List.mem_cons_of_mem _ ht))
      have hsing : ∀ e : InEv i, (∀ n inp, e ≠ .block n inp) → inSingles (e :: es) = e :: inSingles es := by
        intro e he
        cases e with
        | block n inp => exact absurd rfl (he n inp)
        | _ => rfl
      have one : ∀ e : InEv i, (∀ n inp, e ≠ .block n inp) → (inApply rnd env s e).1.Slow → (inApply rnd env s e).1.Lag → (inApply rnd env s e).1.dt = 1 / sr →
          inRunEv rnd env (e :: es) s = inRunEv rnd env (inSingles (e :: es)) s := by
        intro e he a b d
        rw [hsing e he]
        simp only [inRunEv]
        rw [ih' _ a b d]
      cases e with
      | tick x =>
        have := hst s (fun _ => x) h1 h2 h3 1
        exact one _ (by intro _ _ h; cases h) this.1 this.2.1 this.2.2
      | interval t =>
        refine one _ (by intro _ _ h; cases h) ⟨h1.1, ?_⟩ h2 h3
        show s.dt ≤ 0.75 * t
        rw [h3]; exact hv t (List.mem_cons_self ..)
      | hash h => exact one _ (by intro _ _ h; cases h) h1 h2 h3
      | reset =>
        refine one _ (by intro _ _ h; cases h) h1 ?_ h3
        show (0 : ℝ) < 0 + s.dt
        linarith [h1.1]
      | block n inp =>
        have hn := hb n inp (List.mem_cons_self ..)
        have hs : inSingles (InEv.block n inp :: es) = (List.range n).map (fun k => .tick (inp.frame k)) ++ inSingles es := rfl
        rw [hs, inRunEv_append, inRunEv_ticks]
        have hblk : (inApply rnd env s (.block n inp)) = ((mach (nextIn rnd env)).st s inp.frame n, (List.range n).map ((mach (nextIn rnd env)).out s inp.frame)) := by
          by_cases hz : n = 0
          · subst hz; rfl
          · obtain ⟨⟨-, -, r⟩, o⟩ := run_spec (eager := false) hg hn (by omega) inp (fun _ _ => 0) h1 h2
            have e1 : (envInProcess (nextIn rnd env) s n inp (fun _ _ => 0)) = envRun false (nextIn rnd env) n inp (s.norm (nextIn rnd env (inp.frame 0))) (fun _ _ => 0) := by
              unfold envInProcess; rw [if_neg hz]
            rcases r with r | ⟨r, -⟩
            · refine Prod.ext ?_ ?_
              · show (envInProcess (nextIn rnd env) s n inp (fun _ _ => 0)).1 = _
                rw [e1]; exact r
              · show (List.range n).map (envInProcess (nextIn rnd env) s n inp (fun _ _ => 0)).2.frame = _
                rw [e1]
                exact List.map_congr_left (fun k hk => o k (List.mem_range.1 hk))
            · exact absurd r (by simp)
        obtain ⟨a, b, d⟩ := hst s inp.frame h1 h2 h3 n
        simp only [inRunEv, hblk]
        rw [ih' _ a b d]
  have hd : 0 < 1 / sr := by positivity
  refine key es _ ⟨hd, hi⟩ ?_ rfl hv hb
  show (0 : ℝ) < 0 + 1 / sr
  linarith

example (inp : Buf ℝ 1) : inRunEv (fun _ => 1 / 2) (fun (c : Unit) t x => (c, fun _ => t * x 0)) [.block 4 inp, .interval 0.01, .block 64 inp] (newInSt 0.002 44100 3 () : EnvSt 1 Unit) =
    inRunEv (fun _ => 1 / 2) (fun (c : Unit) t x => (c, fun _ => t * x 0)) (inSingles [.block 4 inp, .interval 0.01, .block 64 inp]) (newInSt 0.002 44100 3 ()) :=
  C124_in_block_partial (fun _ => ⟨by norm_num, by norm_num⟩) _ _ _ _ _ (by norm_num) (by norm_num) _ (by intro t ht; simp at ht; rw [ht]; norm_num)
    (by intro n inp hn; simp at hn; omega)

end

end Fundsp.Env
