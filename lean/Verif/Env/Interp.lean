import Verif.Env.Lemmas
import Mathlib.Algebra.Order.Floor.Semiring

/-! # Envelopes: what the segments interpolate -/

noncomputable section
namespace Fundsp.Env

open Fundsp.Math (lerp delerp clamp01)

variable {i o : Nat} {S : Type}

/-- The pseudorandom hash of the `n`th segment. -/
def hashAt (h : BitVec 64) : Nat → BitVec 64
  | 0 => h
  | n + 1 => hashAt h n * 6364136223846793005#64 + 1#64

/-- The `n`th sample point: each is `interval` times a jitter factor after the previous one. -/
def point (rnd : BitVec 64 → ℝ) (h : BitVec 64) (interval : ℝ) : Nat → ℝ
  | 0 => 0
  | n + 1 => point rnd h interval n + (0.75 + 0.5 * rnd (hashAt h n)) * interval

/-- A state in segment `n` at sample `k`. `T`: sample points, `V`: values at the points, `C`: states of the closure. -/
structure Seg (T : Nat → ℝ) (H : Nat → BitVec 64) (V : Nat → Frame ℝ o) (C : Nat → S) (n k : Nat) (s : EnvSt o S) : Prop where
  t : s.t = k * s.dt
  t0 : s.t0 = T n
  t1 : s.t1 = T (n + 1)
  th : s.thash = H (n + 1)
  v1 : s.v1 = V (n + 1)
  clo : s.clo = C (n + 1)
  v : s.v = fun c => lerp (V n c) (V (n + 1) c) ((k * s.dt - T n) / (T (n + 1) - T n))
  vd : s.vd = fun c => (V (n + 1) c - V n c) / ((T (n + 1) - T n) / s.dt)

theorem Seg.step {T : Nat → ℝ} {H V} {C : Nat → S} {n k : Nat} {s : EnvSt o S} (h : Seg T H V C n k s) (hT : T n < T (n + 1)) (hd : 0 < s.dt) : Seg T H V C n (k + 1) s.step where
  t := by show s.t + s.dt = _ * s.dt; rw [h.t]; push_cast; ring
  t0 := h.t0
  t1 := h.t1
  th := h.th
  v1 := h.v1
  clo := h.clo
  v := by
    funext c
    show s.v c + s.vd c = lerp (V n c) (V (n + 1) c) (((k + 1 : Nat) * s.dt - T n) / (T (n + 1) - T n))
    rw [h.v, h.vd]
    have : T (n + 1) - T n ≠ 0 := by linarith
    unfold lerp
    push_cast
    field_simp
    ring
  vd := h.vd

/-- Setting up a segment. -/
theorem segment_seg {rnd : BitVec 64 → ℝ} {env : S → ℝ → S × Frame ℝ o} {T : Nat → ℝ} {H : Nat → BitVec 64} {V : Nat → Frame ℝ o} {C : Nat → S} {n k : Nat} {s : EnvSt o S}
    (ht : s.t = k * s.dt) (ht0 : s.t0 = T n) (hv0 : s.v0 = V n) (hth : s.thash = H n) (hH : H (n + 1) = H n * 6364136223846793005#64 + 1#64)
    (hT : T (n + 1) = T n + (0.75 + 0.5 * rnd (H n)) * s.interval) (he : env s.clo (T (n + 1)) = (C (n + 1), V (n + 1))) :
    Seg T H V C n k (s.segment rnd env) := by
  have hni : s.nextInterval rnd = T (n + 1) - T n := by
    unfold EnvSt.nextInterval lerp; rw [hth, hT]; ring
  have ht1 : s.t0 + s.nextInterval rnd = T (n + 1) := by rw [hni, ht0]; ring
  constructor
  · exact ht
  · exact ht0
  · exact ht1
  · show s.thash * _ + _ = _; rw [hth, hH]
  · show (env s.clo (s.t0 + s.nextInterval rnd)).2 = _; rw [ht1, he]
  · show (env s.clo (s.t0 + s.nextInterval rnd)).1 = _; rw [ht1, he]
  · funext c
    show lerp (s.v0 c) ((env s.clo (s.t0 + s.nextInterval rnd)).2 c) (delerp s.t0 (s.t0 + s.nextInterval rnd) s.t) = _
    rw [ht1, he, hv0]
    show lerp _ _ ((s.t - s.t0) / (T (n + 1) - s.t0)) = _
    rw [ht, ht0]; rfl
  · funext c
    show ((env s.clo (s.t0 + s.nextInterval rnd)).2 c - s.v0 c) / (s.nextInterval rnd / s.dt) = _
    rw [ht1, he, hv0, hni]; rfl

/-- Following the segments along a run. -/
theorem run_seg {nx : Frame ℝ i → EnvSt o S → EnvSt o S} (hg : Good nx) {T : Nat → ℝ} {H V} {C : Nat → S} (w : Nat → Frame ℝ i) (m : EnvSt o S) (hs : m.Slow) (ht : m.t = 0) (ht1 : m.t1 = 0)
    (hT0 : T 0 = 0) (hT : ∀ n, T n + m.dt ≤ T (n + 1))
    (start : Seg T H V C 0 0 (nx (w 0) m))
    (enter : ∀ (n k : Nat) s, Seg T H V C n k s → s.dt = m.dt → s.interval = m.interval → T (n + 1) ≤ k * m.dt → k * m.dt < T (n + 1) + m.dt → Seg T H V C (n + 1) k (nx (w k) s)) :
    ∀ k : Nat, ∃ n : Nat, T n ≤ k * m.dt ∧ k * m.dt < T (n + 1) ∧ Seg T H V C n k (((mach nx).st m w k : EnvSt o S).norm (nx (w k))) ∧
      (((mach nx).st m w k : EnvSt o S).norm (nx (w k))).dt = m.dt ∧ (((mach nx).st m w k : EnvSt o S).norm (nx (w k))).interval = m.interval := by
  have hd := hs.1
  intro k
  induction k with
  | zero =>
    have e : m.norm (nx (w 0)) = nx (w 0) m := by unfold EnvSt.norm; rw [if_pos (by rw [ht, ht1])]
    refine ⟨0, ?_, ?_, ?_⟩
    · rw [hT0]; simp
    · have := hT 0; rw [hT0] at this; simp; linarith
    · show Seg T H V C 0 0 (m.norm (nx (w 0))) ∧ (m.norm (nx (w 0))).dt = m.dt ∧ (m.norm (nx (w 0))).interval = m.interval
      rw [e]; exact ⟨start, hg.dt _ _, hg.interval _ _⟩
  | succ k ih =>
    obtain ⟨n, h1, h2, h3, h4, h5⟩ := ih
    have hst : (mach nx).st m w (k + 1) = (((mach nx).st m w k : EnvSt o S).norm (nx (w k))).step := rfl
    rw [hst]
    generalize ((mach nx).st m w k : EnvSt o S).norm (nx (w k)) = s at *
    have hTn : T n < T (n + 1) := by have := hT n; linarith
    have h3' := h3.step hTn (by rw [h4]; exact hd)
    have hlt : ((k + 1 : Nat) : ℝ) * m.dt < T (n + 1) + m.dt := by push_cast; linarith
    have hge : T n ≤ ((k + 1 : Nat) : ℝ) * m.dt := by push_cast; linarith
    by_cases hc : T (n + 1) ≤ ((k + 1 : Nat) : ℝ) * m.dt
    · have e : s.step.norm (nx (w (k + 1))) = nx (w (k + 1)) s.step := by
        unfold EnvSt.norm; rw [if_pos]
        rw [h3'.t1, h3'.t]
        show _ ≤ _ * s.dt
        rw [h4]; exact hc
      rw [e]
      refine ⟨n + 1, hc, ?_, enter n (k + 1) s.step h3' h4 h5 hc hlt, (hg.dt _ _).trans h4, (hg.interval _ _).trans h5⟩
      have := hT (n + 1); linarith
    · have e : s.step.norm (nx (w (k + 1))) = s.step := by
        unfold EnvSt.norm; rw [if_neg]
        rw [h3'.t1, h3'.t]
        show ¬ _ ≤ _ * s.dt
        rw [h4]; exact hc
      rw [e]
      exact ⟨n, hge, not_le.1 hc, h3', h4, h5⟩

theorem point_step {rnd : BitVec 64 → ℝ} (hr : ∀ h, 0 ≤ rnd h ∧ rnd h ≤ 1) {h : BitVec 64} {I d : ℝ} (hd : 0 < d) (hI : d ≤ 0.75 * I) (n : Nat) :
    point rnd h I n + d ≤ point rnd h I (n + 1) := by
  show _ ≤ point rnd h I n + (0.75 + 0.5 * rnd (hashAt h n)) * I
  have h0 := (hr (hashAt h n)).1
  have hI' : 0 < I := by linarith
  nlinarith [mul_nonneg h0 hI'.le]

/-- Values and closure states of `EnvelopeIn`: the closure is called at time zero, and then for point `n + 1` with the input at the first sample at or after point `n`. -/
def inRun (env : S → ℝ → Frame ℝ i → S × Frame ℝ o) (T : Nat → ℝ) (dt : ℝ) (w : Nat → Frame ℝ i) (c : S) : Nat → S × Frame ℝ o
  | 0 => env c 0 (w 0)
  | n + 1 => env (inRun env T dt w c n).1 (T (n + 1)) (w ⌈T n / dt⌉₊)

theorem in_run {rnd : BitVec 64 → ℝ} (hr : ∀ h, 0 ≤ rnd h ∧ rnd h ≤ 1) (env : S → ℝ → Frame ℝ i → S × Frame ℝ o) (s : EnvSt o S) (hs : s.Slow) (w : Nat → Frame ℝ i) :
    ∀ k : Nat, ∃ n : Nat, point rnd s.hash s.interval n ≤ k * s.dt ∧ k * s.dt < point rnd s.hash s.interval (n + 1) ∧
      Seg (point rnd s.hash s.interval) (hashAt s.hash) (fun n => (inRun env (point rnd s.hash s.interval) s.dt w s.clo n).2) (fun n => (inRun env (point rnd s.hash s.interval) s.dt w s.clo n).1) n k
        (((mach (nextIn rnd env)).st (resetIn s) w k : EnvSt o S).norm (nextIn rnd env (w k))) := by
  intro k
  have hT := point_step (h := s.hash) hr hs.1 hs.2
  have hd := hs.1
  have hTpos : ∀ n, 0 < point rnd s.hash s.interval (n + 1) := by
    intro n
    induction n with
    | zero => have := hT 0; have e : point rnd s.hash s.interval 0 = 0 := rfl; rw [e] at this; linarith
    | succ n ih => have := hT (n + 1); linarith
  obtain ⟨n, h1, h2, h3, -, -⟩ := run_seg (T := point rnd s.hash s.interval) (H := hashAt s.hash) (V := fun n => (inRun env (point rnd s.hash s.interval) s.dt w s.clo n).2)
    (C := fun n => (inRun env (point rnd s.hash s.interval) s.dt w s.clo n).1) (nextIn_good hr env) w (resetIn s) hs rfl rfl rfl hT
    (by
      unfold nextIn
      rw [if_pos ⟨rfl, rfl⟩]
      refine segment_seg ?_ rfl rfl rfl rfl rfl ?_
      · show (0 : ℝ) = ((0 : Nat) : ℝ) * s.dt; simp
      · show env (env s.clo 0 (w 0)).1 _ (w 0) = _
        have : ⌈point rnd s.hash s.interval 0 / s.dt⌉₊ = 0 := by
          show ⌈(0 : ℝ) / s.dt⌉₊ = 0; simp
        simp only [inRun, this])
    (by
      intro n k s' hseg hdt hint hle hlt
      have hk : ⌈point rnd s.hash s.interval (n + 1) / s.dt⌉₊ = k := by
        have hle' : point rnd s.hash s.interval (n + 1) ≤ k * s.dt := hle
        have hlt' : k * s.dt < point rnd s.hash s.interval (n + 1) + s.dt := hlt
        have hk0 : k ≠ 0 := by
          rintro rfl
          have := hTpos n
          simp at hle'; linarith
        rw [Nat.ceil_eq_iff hk0]
        constructor
        · rw [lt_div_iff₀ hd, Nat.cast_sub (by omega)]; push_cast; linarith
        · rw [div_le_iff₀ hd]; exact hle'
      unfold nextIn
      rw [if_neg (by
        rintro ⟨-, h⟩
        rw [hseg.t1] at h
        have := hTpos n
        linarith)]
      refine segment_seg hseg.t hseg.t1 hseg.v1 hseg.th rfl ?_ ?_
      · show _ = _ + _ * s'.interval
        rw [hint]; rfl
      · show env s'.clo _ (w k) = _
        rw [hseg.clo]
        conv_rhs => simp only [inRun]
        rw [hk]; rfl) k
  exact ⟨n, h1, h2, h3⟩

theorem env_run {rnd : BitVec 64 → ℝ} (hr : ∀ h, 0 ≤ rnd h ∧ rnd h ≤ 1) (env : ℝ → Frame ℝ o) (s : EnvSt o Unit) (hs : s.Slow) (w : Nat → Frame ℝ 0) :
    ∀ k : Nat, ∃ n : Nat, point rnd s.hash s.interval n ≤ k * s.dt ∧ k * s.dt < point rnd s.hash s.interval (n + 1) ∧
      Seg (point rnd s.hash s.interval) (hashAt s.hash) (fun n => env (point rnd s.hash s.interval n)) (fun _ => ()) n k
        (((mach (fun _ : Frame ℝ 0 => next rnd env)).st (reset env s) w k : EnvSt o Unit).norm (next rnd env)) := by
  intro k
  have hT := point_step (h := s.hash) hr hs.1 hs.2
  obtain ⟨n, h1, h2, h3, -, -⟩ := run_seg (T := point rnd s.hash s.interval) (H := hashAt s.hash) (V := fun n => env (point rnd s.hash s.interval n))
    (C := fun _ => ()) (next_good hr env) w (reset env s) hs rfl rfl rfl hT
    (by
      unfold next
      refine segment_seg ?_ rfl rfl rfl rfl rfl rfl
      show (0 : ℝ) = ((0 : Nat) : ℝ) * s.dt; simp)
    (by
      intro n k s' hseg hdt hint hle hlt
      unfold next
      refine segment_seg hseg.t hseg.t1 hseg.v1 hseg.th rfl ?_ rfl
      show _ = _ + _ * s'.interval
      rw [hint]; rfl) k
  exact ⟨n, h1, h2, h3⟩

end Fundsp.Env
