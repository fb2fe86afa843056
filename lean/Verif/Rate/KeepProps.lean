import Verif.Env.Props
import Verif.Osc.Model
import Verif.Dyn.Model
import Verif.Seq.Rate
import Verif.Rate.Model
import Verif.Dyn.Props
import Mathlib.Algebra.BigOperators.Group.Finset.Basic
import Mathlib.Analysis.SpecialFunctions.Trigonometric.Basic
import Mathlib.Tactic.Ring

/-!
# C118: changing the sample rate while playing

A unit may reset itself when its sample rate changes (`audionode.rs:54-55`). Those that go on should go on in time. Here `rate k` is the sample rate set before sample `k`; setting it
again changes nothing in these units, and only the last setting before a sample counts, so this is every history of samples and rates. Blocks are the subject of C47, C52 and C54.
-/

noncomputable section
namespace Fundsp.Rate.Keep
open Finset Fundsp Fundsp.Math Fundsp.Env

/-- The state before sample `k`, when the rate is set with `set` before every sample. -/
def state {i o : Nat} (N : Node ℝ i o) (set : N.σ → ℝ → N.σ) (s : N.σ) (rate : Nat → ℝ) (w : Nat → Frame ℝ i) : Nat → N.σ
  | 0 => s
  | k + 1 => (N.tick (set (state N set s rate w k) (rate k)) (w k)).1

/-- Sample `k`. -/
def heard {i o : Nat} (N : Node ℝ i o) (set : N.σ → ℝ → N.σ) (s : N.σ) (rate : Nat → ℝ) (w : Nat → Frame ℝ i) (k : Nat) : Frame ℝ o :=
  (N.tick (set (state N set s rate w k) (rate k)) (w k)).2

/-- The time of sample `k`: every sample lasts one over its rate. -/
def clock (rate : Nat → ℝ) (k : Nat) : ℝ := ∑ j ∈ range k, 1 / rate j

theorem clock_succ (rate : Nat → ℝ) (k : Nat) : clock rate (k + 1) = clock rate k + 1 / rate k := sum_range_succ _ _

theorem clock_mono {rate : Nat → ℝ} (h : ∀ k, 0 < rate k) {j k : Nat} (hjk : j ≤ k) : clock rate j ≤ clock rate k := by
  induction k, hjk using Nat.le_induction with
  | base => exact le_rfl
  | succ k _ ih => rw [clock_succ]; have := one_div_pos.2 (h k); linarith

theorem clock_const {rate : Nat → ℝ} {j k : Nat} (hjk : j ≤ k) (h : ∀ m, j ≤ m → m < k → rate m = rate j) : clock rate k = clock rate j + (k - j : ℕ) / rate j := by
  induction k, hjk using Nat.le_induction with
  | base => simp
  | succ k hk ih =>
    rw [clock_succ, ih fun m h1 h2 => h m h1 (by omega), h k hk (by omega), show k + 1 - j = (k - j) + 1 by omega]
    push_cast
    ring

/-! ## Oscillators -/

/-- **C118, sine.** Through all changes of the sample rate, the sine goes on from the phase it has, and its frequency is that of its input at every rate. -/
theorem C118_sine (rnd : BitVec 64 → ℝ) (s : Osc.OscSt) (rate : Nat → ℝ) (w : Nat → Frame ℝ 1) (k : Nat) :
    heard (Osc.sine rnd) Osc.OscSt.setSampleRate s rate w k 0 = Real.sin (2 * Real.pi * (s.phase + ∑ j ∈ range k, w j 0 / rate j)) := by
  have key : ∀ k, ∃ m : ℤ, (state (Osc.sine rnd) Osc.OscSt.setSampleRate s rate w k : Osc.OscSt).phase = s.phase + ∑ j ∈ range k, w j 0 / rate j - m := by
    intro k
    induction k with
    | zero => exact ⟨0, by simp [state]⟩
    | succ k ih =>
      obtain ⟨m, hm⟩ := ih
      refine ⟨m + ⌊(state (Osc.sine rnd) Osc.OscSt.setSampleRate s rate w k : Osc.OscSt).phase + w k 0 * (1 / rate k)⌋, ?_⟩
      show (state (Osc.sine rnd) Osc.OscSt.setSampleRate s rate w k : Osc.OscSt).phase + w k 0 * (1 / rate k) -
        ⌊(state (Osc.sine rnd) Osc.OscSt.setSampleRate s rate w k : Osc.OscSt).phase + w k 0 * (1 / rate k)⌋ = _
      rw [sum_range_succ]
      push_cast
      rw [hm]
      ring
  obtain ⟨m, hm⟩ := key k
  show Real.sin ((state (Osc.sine rnd) Osc.OscSt.setSampleRate s rate w k : Osc.OscSt).phase * (2 * Real.pi)) = _
  rw [hm, show (s.phase + ∑ j ∈ range k, w j 0 / rate j - m) * (2 * Real.pi) = 2 * Real.pi * (s.phase + ∑ j ∈ range k, w j 0 / rate j) - m * (2 * Real.pi) by ring]
  exact Real.sin_sub_int_mul_two_pi _ m

/-- **C118, ramp.** Likewise the ramp. -/
theorem C118_ramp (rnd : BitVec 64 → ℝ) (s : Osc.OscSt) (h0 : 0 ≤ s.phase) (h1 : s.phase < 1) (rate : Nat → ℝ) (w : Nat → Frame ℝ 1) (k : Nat) :
    heard (Osc.ramp rnd) Osc.OscSt.setSampleRate s rate w k 0 = Int.fract (s.phase + ∑ j ∈ range k, w j 0 / rate j) := by
  have key : ∀ k, (state (Osc.ramp rnd) Osc.OscSt.setSampleRate s rate w k : Osc.OscSt).phase = Int.fract (s.phase + ∑ j ∈ range k, w j 0 / rate j) := by
    intro k
    induction k with
    | zero => simp [state, Int.fract_eq_self.2 ⟨h0, h1⟩]
    | succ k ih =>
      show (state (Osc.ramp rnd) Osc.OscSt.setSampleRate s rate w k : Osc.OscSt).phase + w k 0 * (1 / rate k) -
        ⌊(state (Osc.ramp rnd) Osc.OscSt.setSampleRate s rate w k : Osc.OscSt).phase + w k 0 * (1 / rate k)⌋ = _
      rw [ih, sum_range_succ]
      show Int.fract (Int.fract (s.phase + ∑ j ∈ range k, w j 0 / rate j) + w k 0 * (1 / rate k)) = _
      rw [Int.fract_eq_fract]
      refine ⟨-⌊s.phase + ∑ j ∈ range k, w j 0 / rate j⌋, ?_⟩
      unfold Int.fract
      push_cast
      ring
  exact key k

/-- A sine of 100 Hz that starts at phase 0: a quarter of a period is over after 10 samples at 8 kHz and 20 more at 16 kHz. -/
example : heard (Osc.sine fun _ => 0) Osc.OscSt.setSampleRate (Osc.OscSt.withPhase (fun _ => 0) 0) (fun k => if k < 10 then 8000 else 16000) (fun _ _ => 100) 30 0 = 1 := by
  rw [C118_sine]
  have : ∑ j ∈ range 30, (100 : ℝ) / (if j < 10 then 8000 else 16000) = 1 / 4 := by
    simp only [sum_range_succ, sum_range_zero]
    norm_num
  rw [this]
  show Real.sin (2 * Real.pi * (0 + 1 / 4)) = 1
  rw [show 2 * Real.pi * (0 + 1 / 4) = Real.pi / 2 by ring, Real.sin_pi_div_two]

/-! ## Declick -/

/-- `Declick::set_sample_rate`: `dynamics.rs:272-275`. -/
def declickRate (s : Dyn.DecSt) (r : ℝ) : Dyn.DecSt := { s with sampleDuration := 1 / r }

/-- **C118, declick.** A fade-in takes its time in seconds, at whatever rates it is played. -/
theorem C118_declick (d sd : ℝ) {rate : Nat → ℝ} (hrate : ∀ k, 0 < rate k) (w : Nat → Frame ℝ 1) (k : Nat) :
    heard Dyn.declick declickRate ⟨0, d, sd⟩ rate w k 0 = w k 0 * if clock rate k < d then smooth5 (clock rate k / d) else 1 := by
  have key : ∀ k, let s : Dyn.DecSt := state Dyn.declick declickRate ⟨0, d, sd⟩ rate w k
      s.duration = d ∧ (s.t = clock rate k ∨ d ≤ s.t ∧ d ≤ clock rate k) := by
    intro k
    induction k with
    | zero => exact ⟨rfl, Or.inl (by simp [state, clock])⟩
    | succ k ih =>
      dsimp only at ih ⊢
      obtain ⟨h1, h2⟩ := ih
      have hp := one_div_pos.2 (hrate k)
      show (Dyn.decTick (declickRate (state Dyn.declick declickRate ⟨0, d, sd⟩ rate w k) (rate k)) (w k)).1.duration = d ∧
        ((Dyn.decTick (declickRate (state Dyn.declick declickRate ⟨0, d, sd⟩ rate w k) (rate k)) (w k)).1.t = _ ∨
          d ≤ (Dyn.decTick (declickRate (state Dyn.declick declickRate ⟨0, d, sd⟩ rate w k) (rate k)) (w k)).1.t ∧ _)
      generalize (state Dyn.declick declickRate ⟨0, d, sd⟩ rate w k : Dyn.DecSt) = s at h1 h2 ⊢
      unfold Dyn.decTick
      have hc := clock_succ rate k
      by_cases hlt : s.t < s.duration
      · rw [if_pos (show (declickRate s (rate k)).t < (declickRate s (rate k)).duration from hlt)]
        refine ⟨h1, ?_⟩
        show s.t + 1 / rate k = _ ∨ d ≤ s.t + 1 / rate k ∧ _
        rcases h2 with h | h
        · left; rw [h, hc]
        · rw [h1] at hlt; exact absurd hlt (not_lt.2 h.1)
      · rw [if_neg (show ¬ (declickRate s (rate k)).t < (declickRate s (rate k)).duration from hlt)]
        refine ⟨h1, Or.inr ?_⟩
        rw [h1, not_lt] at hlt
        refine ⟨hlt, ?_⟩
        rcases h2 with h | h <;> linarith
  obtain ⟨h1, h2⟩ := key k
  show (Dyn.decTick (declickRate (state Dyn.declick declickRate ⟨0, d, sd⟩ rate w k) (rate k)) (w k)).2 0 = _
  generalize (state Dyn.declick declickRate ⟨0, d, sd⟩ rate w k : Dyn.DecSt) = s at h1 h2 ⊢
  have e : s.t < s.duration ↔ clock rate k < d := by
    rw [h1]
    rcases h2 with h | h
    · rw [h]
    · exact ⟨fun g => absurd h.1 (not_le.2 g), fun g => absurd h.2 (not_le.2 g)⟩
  unfold Dyn.decTick
  by_cases hlt : s.t < s.duration
  · rw [if_pos (show (declickRate s (rate k)).t < (declickRate s (rate k)).duration from hlt), if_pos (e.1 hlt)]
    have ht : s.t = clock rate k := by
      rcases h2 with h | h
      · exact h
      · rw [h1] at hlt; exact absurd hlt (not_lt.2 h.1)
    show w k 0 * smooth5 (delerp 0 s.duration s.t) = _
    unfold delerp
    rw [ht, h1, sub_zero, sub_zero]
  · rw [if_neg (show ¬ (declickRate s (rate k)).t < (declickRate s (rate k)).duration from hlt), if_neg (fun h => hlt (e.2 h)), mul_one]

/-- A fade of 10 ms is over after 40 samples at 8 kHz and 80 at 16 kHz. -/
example (w : Nat → Frame ℝ 1) : heard Dyn.declick declickRate ⟨0, 0.01, 1⟩ (fun k => if k < 40 then 8000 else 16000) w 120 0 = w 120 0 := by
  rw [C118_declick _ _ (fun k => by split_ifs <;> norm_num)]
  have : clock (fun k => if k < 40 then (8000 : ℝ) else 16000) 120 = 0.01 := by
    rw [clock_const (j := 40) (by norm_num) (fun m h1 h2 => by simp; omega), clock_const (j := 0) (k := 40) (by norm_num) (fun m h1 h2 => by simp [h2])]
    norm_num [clock]
  rw [this, if_neg (lt_irrefl _), mul_one]

/-! ## Envelopes -/

/-- `Envelope::set_sample_rate`: `envelope.rs:124-126`. The slope of the segment is kept as it is, per sample. -/
def envRate {o : Nat} (s : EnvSt o Unit) (r : ℝ) : EnvSt o Unit := { s with dt := 1 / r }

/-- The state of the envelope at sample `k`, after it has gone on to the next segment if necessary: it is in segment `n`, which it entered at sample `j`. -/
structure In (rnd : BitVec 64 → ℝ) {o : Nat} (env : ℝ → Frame ℝ o) (hash : BitVec 64) (I : ℝ) (rate : Nat → ℝ) (n j k : Nat) (s : EnvSt o Unit) : Prop where
  jk : j ≤ k
  first : ∀ i < j, clock rate i < point rnd hash I n
  start : point rnd hash I n ≤ clock rate j
  stop : clock rate k < point rnd hash I (n + 1)
  t : s.t = clock rate k
  t1 : s.t1 = point rnd hash I (n + 1)
  th : s.thash = hashAt hash (n + 1)
  int : s.interval = I
  v1 : s.v1 = env (point rnd hash I (n + 1))
  v : ∀ c, s.v c = lerp (env (point rnd hash I n) c) (env (point rnd hash I (n + 1)) c)
    ((clock rate j + (k - j : ℕ) / rate j - point rnd hash I n) / (point rnd hash I (n + 1) - point rnd hash I n))
  vd : ∀ c, s.vd c = (env (point rnd hash I (n + 1)) c - env (point rnd hash I n) c) / ((point rnd hash I (n + 1) - point rnd hash I n) * rate j)

theorem point_gap {rnd : BitVec 64 → ℝ} (hr : ∀ h, 0 ≤ rnd h ∧ rnd h ≤ 1) (hash : BitVec 64) {I : ℝ} (hI : 0 < I) (n : Nat) :
    0.75 * I ≤ point rnd hash I (n + 1) - point rnd hash I n := (C54_jitter rnd hr hash I hI n).2.1

/-- Entering a segment. -/
theorem enter {rnd : BitVec 64 → ℝ} {o : Nat} (env : ℝ → Frame ℝ o) {hash : BitVec 64} {I : ℝ} {rate : Nat → ℝ} {n k : Nat} {s : EnvSt o Unit}
    (hrate : 0 < rate k) (hfirst : ∀ i < k, clock rate i < point rnd hash I n) (hstart : point rnd hash I n ≤ clock rate k) (hstop : clock rate k < point rnd hash I (n + 1))
    (ht : s.t = clock rate k) (ht1 : s.t1 = point rnd hash I n) (hth : s.thash = hashAt hash n) (hint : s.interval = I) (hv1 : s.v1 = env (point rnd hash I n))
    (hdt : s.dt = 1 / rate k) : In rnd env hash I rate n k k (next rnd env s) := by
  have e : lerp 0.75 1.25 (rnd s.thash) * s.interval = point rnd hash I (n + 1) - point rnd hash I n := by
    show _ = point rnd hash I n + (0.75 + 0.5 * rnd (hashAt hash n)) * I - _
    rw [hth, hint]; unfold lerp; ring
  have e1 : s.t1 + lerp 0.75 1.25 (rnd s.thash) * s.interval = point rnd hash I (n + 1) := by rw [e, ht1]; ring
  refine ⟨le_rfl, hfirst, hstart, hstop, ht, e1, ?_, hint, ?_, fun c => ?_, fun c => ?_⟩
  · show s.thash * 6364136223846793005#64 + 1#64 = _
    rw [hth]; rfl
  · show env (s.t1 + lerp 0.75 1.25 (rnd s.thash) * s.interval) = _
    rw [e1]
  · show lerp (s.v1 c) (env (s.t1 + lerp 0.75 1.25 (rnd s.thash) * s.interval) c) (delerp s.t1 (s.t1 + lerp 0.75 1.25 (rnd s.thash) * s.interval) s.t) = _
    rw [e1, hv1, ht1, ht, Nat.sub_self]
    unfold delerp
    norm_num
  · show (env (s.t1 + lerp 0.75 1.25 (rnd s.thash) * s.interval) c - s.v1 c) / (lerp 0.75 1.25 (rnd s.thash) * s.interval / s.dt) = _
    rw [e1, hv1, e, hdt]
    field_simp

theorem env_in {rnd : BitVec 64 → ℝ} (hr : ∀ h, 0 ≤ rnd h ∧ rnd h ≤ 1) {o : Nat} (env : ℝ → Frame ℝ o) (s : EnvSt o Unit) (hI : 0 < s.interval) {rate : Nat → ℝ}
    (hrate : ∀ k, 0 < rate k) (hslow : ∀ k, 1 / rate k ≤ 0.75 * s.interval) (w : Nat → Frame ℝ 0) (k : Nat) :
    ∃ n j, In rnd env s.hash s.interval rate n j k ((envRate (state (envelope rnd env) envRate (reset env s) rate w k) (rate k)).norm (next rnd env)) := by
  induction k with
  | zero =>
    refine ⟨0, 0, ?_⟩
    show In rnd env s.hash s.interval rate 0 0 0 ((envRate (reset env s) (rate 0)).norm (next rnd env))
    unfold EnvSt.norm
    rw [if_pos (show (envRate (reset env s) (rate 0)).t1 ≤ (envRate (reset env s) (rate 0)).t from le_rfl)]
    have := point_gap hr s.hash hI 0
    have h0 : point rnd s.hash s.interval 0 = 0 := rfl
    exact enter env (hrate 0) (fun i hi => absurd hi (by omega)) (by rw [h0]; simp [clock]) (by rw [h0] at this; simp only [clock, range_zero, sum_empty]; nlinarith)
      (by simp [envRate, reset, clock]) rfl rfl rfl rfl rfl
  | succ k ih =>
    obtain ⟨n, j, h⟩ := ih
    have hst : state (envelope rnd env) envRate (reset env s) rate w (k + 1) =
      ((envRate (state (envelope rnd env) envRate (reset env s) rate w k) (rate k)).norm (next rnd env)).step := rfl
    have hdt0 : ((envRate (state (envelope rnd env) envRate (reset env s) rate w k) (rate k)).norm (next rnd env)).dt = 1 / rate k := by
      unfold EnvSt.norm; split <;> rfl
    rw [hst]
    generalize (envRate (state (envelope rnd env) envRate (reset env s) rate w k) (rate k)).norm (next rnd env) = m at h hdt0
    have ht : (envRate m.step (rate (k + 1))).t = clock rate (k + 1) := by
      show m.t + m.dt = _
      rw [h.t, hdt0, clock_succ]
    unfold EnvSt.norm
    split_ifs with hle
    · rw [ht] at hle
      have hle : point rnd s.hash s.interval (n + 1) ≤ clock rate (k + 1) := h.t1 ▸ hle
      refine ⟨n + 1, k + 1, enter env (hrate _) (fun i hi => ?_) hle ?_ ht h.t1 h.th h.int h.v1 rfl⟩
      · exact lt_of_le_of_lt (clock_mono hrate (show i ≤ k by omega)) h.stop
      · have := point_gap hr s.hash hI (n + 1)
        have := hslow k
        have := h.stop
        rw [clock_succ]; linarith
    · rw [ht, not_le] at hle
      refine ⟨n, j, ⟨by have := h.jk; omega, h.first, h.start, h.t1 ▸ hle, ht, h.t1, h.th, h.int, h.v1, fun c => ?_, h.vd⟩⟩
      show m.v c + m.vd c = _
      have hp := point_gap hr s.hash hI n
      have hp : 0 < point rnd s.hash s.interval (n + 1) - point rnd s.hash s.interval n := by nlinarith
      have hj := hrate j
      have := h.jk
      rw [h.v, h.vd, show k + 1 - j = (k - j) + 1 by omega]
      unfold lerp
      push_cast
      field_simp
      ring

/-- **C118, envelopes.** Exactly what is heard of an envelope through all changes of the sample rate. Sample `k` is in segment `n`, from point to point of the envelope, which was entered
at sample `j`; from there on it has been advancing as if the rate at `j` had not changed since. -/
theorem C118_envelope (rnd : BitVec 64 → ℝ) (hr : ∀ h, 0 ≤ rnd h ∧ rnd h ≤ 1) {o : Nat} (env : ℝ → Frame ℝ o) (s : EnvSt o Unit) (hI : 0 < s.interval) {rate : Nat → ℝ}
    (hrate : ∀ k, 0 < rate k) (hslow : ∀ k, 1 / rate k ≤ 0.75 * s.interval) (w : Nat → Frame ℝ 0) (k : Nat) :
    ∃ n j, ∃ a b u : ℝ, a = point rnd s.hash s.interval n ∧ b = point rnd s.hash s.interval (n + 1) ∧ j ≤ k ∧ (∀ i < j, clock rate i < a) ∧ a ≤ clock rate j ∧ clock rate k < b ∧
      u = (clock rate j + (k - j : ℕ) / rate j - a) / (b - a) ∧
      ∀ c, heard (envelope rnd env) envRate (reset env s) rate w k c = (1 - u) * env a c + u * env b c := by
  obtain ⟨n, j, h⟩ := env_in hr env s hI hrate hslow w k
  refine ⟨n, j, _, _, _, rfl, rfl, h.jk, h.first, h.start, h.stop, rfl, fun c => ?_⟩
  show ((envRate (state (envelope rnd env) envRate (reset env s) rate w k) (rate k)).norm (next rnd env)).v c = _
  rw [h.v c]
  unfold lerp
  ring

/-- **C118, envelopes, part.** Once the rate has stayed the same for the longest segment, 1.25 times the interval, an envelope is again the linear interpolation of its function around the
present time, whatever rates it was played at before. Missing: until then it fails (`C118_violation_envelope`). -/
theorem C118_envelope_partial (rnd : BitVec 64 → ℝ) (hr : ∀ h, 0 ≤ rnd h ∧ rnd h ≤ 1) {o : Nat} (env : ℝ → Frame ℝ o) (s : EnvSt o Unit) (hI : 0 < s.interval) {rate : Nat → ℝ}
    (hrate : ∀ k, 0 < rate k) (hslow : ∀ k, 1 / rate k ≤ 0.75 * s.interval) (w : Nat → Frame ℝ 0) {m k : Nat} (hsame : ∀ i, m ≤ i → i ≤ k → rate i = rate k)
    (hlong : 1.25 * s.interval ≤ clock rate k - clock rate m) :
    ∃ a b u : ℝ, a ≤ clock rate k ∧ clock rate k < b ∧ b - a ≤ 1.25 * s.interval ∧ u = (clock rate k - a) / (b - a) ∧
      ∀ c, heard (envelope rnd env) envRate (reset env s) rate w k c = (1 - u) * env a c + u * env b c := by
  obtain ⟨n, j, a, b, u, ha, hb, hjk, -, hstart, hstop, hu, h⟩ := C118_envelope rnd hr env s hI hrate hslow w k
  have hgap : b - a ≤ 1.25 * s.interval := by rw [ha, hb]; exact (C54_jitter rnd hr s.hash s.interval hI n).2.2
  have hmj : m ≤ j := by
    by_contra hc
    have := clock_mono hrate (show j ≤ m by omega)
    linarith
  have e : clock rate j + (k - j : ℕ) / rate j = clock rate k :=
    (clock_const hjk fun i h1 h2 => (hsame i (by omega) (by omega)).trans (hsame j hmj hjk).symm).symm
  rw [e] at hu
  exact ⟨a, b, u, hstart.trans (clock_mono hrate hjk), hstop, hgap, hu, h⟩

/-- A function with values zero and one: an attack. -/
def attack (t : ℝ) : Frame ℝ 1 := fun _ => if t ≤ 0 then 0 else 1

/-- **C118, violation.** The control function never leaves 0...1, but when the rate of a fresh envelope of 2 ms is changed from 44.1 kHz to 88.2 kHz after the first sample, it goes on to more
than 1.75. -/
theorem C118_violation_envelope (rnd : BitVec 64 → ℝ) (hr : ∀ h, 0 ≤ rnd h ∧ rnd h ≤ 1) (hash : BitVec 64) (w : Nat → Frame ℝ 0) :
    (∀ t, 0 ≤ attack t 0 ∧ attack t 0 ≤ 1) ∧
    ∃ k, 1.75 < heard (envelope rnd attack) envRate (newSt attack 0.002 44100 hash) (fun k => if k = 0 then 44100 else 88200) w k 0 := by
  constructor
  · intro t; unfold attack; split_ifs <;> norm_num
  obtain ⟨-, g1, g2⟩ := C54_jitter rnd hr hash 0.002 (by norm_num) 0
  have h0 : point rnd hash 0.002 0 = 0 := rfl
  rw [h0, sub_zero] at g1 g2
  have hL : ∃ L, L = point rnd hash 0.002 1 := ⟨_, rfl⟩
  obtain ⟨L, hL⟩ := hL
  change 0.75 * 0.002 ≤ point rnd hash 0.002 1 at g1
  change point rnd hash 0.002 1 ≤ 1.25 * 0.002 at g2
  rw [← hL] at g1 g2
  have hrate : ∀ k : Nat, (0 : ℝ) < (fun k => if k = 0 then 44100 else 88200) k := fun k => by dsimp only; split_ifs <;> norm_num
  have f1 := Nat.floor_le (show 0 ≤ 1.8 * (L * 44100) by nlinarith)
  have f2 := Nat.lt_floor_add_one (1.8 * (L * 44100))
  obtain ⟨k, hk⟩ : ∃ k, k = ⌊1.8 * (L * 44100)⌋₊ := ⟨_, rfl⟩
  rw [← hk] at f1 f2
  have hk1 : 1 ≤ k := by
    by_contra hc
    have : k = 0 := by omega
    rw [this] at f2
    norm_num at f2
    linarith
  refine ⟨k, ?_⟩
  have hclock : clock (fun k => if k = 0 then (44100 : ℝ) else 88200) k = 1 / 44100 + (k - 1) / 88200 := by
    rw [clock_const hk1 fun m h1 h2 => by simp [show m ≠ 0 by omega]]
    simp only [clock, sum_range_one]
    rw [Nat.cast_sub hk1]
    norm_num
  obtain ⟨n, j, a, b, u, ha, hb, hjk, hfirst, hstart, hstop, hu, h⟩ :=
    C118_envelope rnd hr attack ⟨0, 0, 0, 0, 0, 0, 0, 0, 0.002, 1 / 44100, hash, ()⟩ (by norm_num) hrate
      (fun k => by dsimp only; split_ifs <;> norm_num) w k
  change a = point rnd hash 0.002 n at ha
  change b = point rnd hash 0.002 (n + 1) at hb
  have hlt : clock (fun k => if k = 0 then (44100 : ℝ) else 88200) k < L := by rw [hclock]; linarith
  have hmono : ∀ i, L ≤ point rnd hash 0.002 (i + 1) := by
    intro i
    induction i with
    | zero => rw [hL]
    | succ i ih => have := (C54_jitter rnd hr hash 0.002 (by norm_num) (i + 1)).2.1; linarith
  have hn : n = 0 := by
    cases n with
    | zero => rfl
    | succ i =>
      have := hmono i
      have := clock_mono hrate hjk
      rw [ha] at hstart
      linarith
  subst hn
  rw [h0] at ha
  have hj : j = 0 := by
    by_contra hc
    have := hfirst 0 (by omega)
    rw [ha] at this
    simp [clock] at this
  subst hj
  rw [← hL] at hb
  subst ha
  rw [hb] at hu h
  clear hb
  have hz : clock (fun k => if k = 0 then (44100 : ℝ) else 88200) 0 = 0 := by simp [clock]
  rw [hz] at hu
  simp only [Nat.sub_zero, if_true, zero_add, sub_zero] at hu
  have hval := h 0
  change heard (envelope rnd attack) envRate (newSt attack 0.002 44100 hash) (fun k => if k = 0 then 44100 else 88200) w k 0 = _ at hval
  rw [hval]
  have a0 : attack 0 0 = 0 := if_pos le_rfl
  have aL : attack L 0 = 1 := if_neg (by rw [not_le]; linarith)
  rw [a0, aL, hu, mul_zero, mul_one, zero_add, div_div, lt_div_iff₀ (by linarith)]
  nlinarith

/-- The partial theorem is not empty: an envelope of 2 ms at 44.1 kHz for 1000 samples, then at 48 kHz; at sample 1200 it is back on its function. -/
example (rnd : BitVec 64 → ℝ) (hr : ∀ h, 0 ≤ rnd h ∧ rnd h ≤ 1) (w : Nat → Frame ℝ 0) :
    ∃ a b u : ℝ, a ≤ clock (fun k => if k < 1000 then (44100 : ℝ) else 48000) 1200 ∧ clock (fun k => if k < 1000 then (44100 : ℝ) else 48000) 1200 < b ∧ b - a ≤ 0.0025 ∧
      u = (clock (fun k => if k < 1000 then (44100 : ℝ) else 48000) 1200 - a) / (b - a) ∧
      ∀ c, heard (envelope rnd attack) envRate (newSt attack 0.002 44100 7) (fun k => if k < 1000 then 44100 else 48000) w 1200 c = (1 - u) * attack a c + u * attack b c := by
  have := C118_envelope_partial rnd hr attack ⟨0, 0, 0, 0, 0, 0, 0, 0, 0.002, 1 / 44100, 7, ()⟩ (by norm_num) (rate := fun k => if k < 1000 then 44100 else 48000)
    (fun k => by split_ifs <;> norm_num) (fun k => by split_ifs <;> norm_num) w (m := 1000) (k := 1200)
    (fun i h1 _ => by simp; omega)
    (by
      rw [clock_const (j := 1000) (k := 1200) (by norm_num) fun m h1 h2 => by simp; omega]
      norm_num)
  obtain ⟨a, b, u, h1, h2, h3, h4, h5⟩ := this
  exact ⟨a, b, u, h1, h2, h3.trans (by norm_num), h4, h5⟩

/-! ## Limiters -/

/-- **C118, limiters.** A limiter starts over when its rate is set, with its lookahead in seconds at the new rate, to the nearest sample and at least one sample, whatever rate it had before. -/
theorem C118_limiter {n L : Nat} (hL : 1 ≤ L) {a0 r0 : ℝ} (y : Nat → Frame ℝ n) (k : Nat) {s : Dyn.LimSt n} (hs : Dyn.limRun (Dyn.limNew n L a0 r0) y k = some s)
    (lookahead a r sr : ℝ) (x : Nat → Frame ℝ n) :
    ∃ gain, Dyn.LimitsBy (max 1 ⌊sr * lookahead + 1 / 2⌋₊) x (Dyn.limOut (limSetRate lookahead a r s sr) x) gain := by
  have h1 : 1 ≤ Dyn.limLength sr lookahead := le_max_left _ _
  obtain ⟨t, ht, hok⟩ := Dyn.limRun_ok hL (Dyn.limNew_ok hL a0 r0 y) k
  obtain rfl : s = t := Option.some.inj (hs.symm.trans ht)
  have hok' : Dyn.LimOK (Dyn.limLength sr lookahead) x 0 (limSetRate lookahead a r s sr) := by
    by_cases h : Dyn.limLength sr lookahead = s.red.length
    · have e : (limSetRate lookahead a r s sr).red = (Dyn.limReset s).red := by
        show Dyn.rbClear 0 (if Dyn.limLength sr lookahead ≠ s.red.length then _ else s.red) = Dyn.rbClear 0 s.red
        rw [if_neg (not_not.2 h)]
      obtain ⟨q1, q2, q3, q4, q5⟩ := (Dyn.limReset_ok (x := x) hL hs).1
      have hl : Dyn.limLength sr lookahead = L := h.trans hok.len
      rw [hl]
      exact ⟨by rw [e]; exact q1, q2, q3, q4, by rw [e]; exact q5⟩
    · have e : (limSetRate lookahead a r s sr).red = (Dyn.limReset (Dyn.limNew n (Dyn.limLength sr lookahead) a r)).red := by
        show Dyn.rbClear 0 (if Dyn.limLength sr lookahead ≠ s.red.length then _ else s.red) = Dyn.rbClear 0 _
        rw [if_pos h]
        rfl
      obtain ⟨q1, q2, q3, q4, q5⟩ := (Dyn.limReset_ok (x := x) (y := x) (k := 0) (a := a) (r := r) h1 rfl).1
      exact ⟨by rw [e]; exact q1, q2, q3, q4, by rw [e]; exact q5⟩
  obtain ⟨peak, hpk⟩ := Dyn.exists_peak h1 x
  change ∃ gain, Dyn.LimitsBy (Dyn.limLength sr lookahead) _ _ gain
  refine ⟨Dyn.gainStream (Dyn.folSet (limSetRate lookahead a r s sr).fol (peak (Dyn.limLength sr lookahead - 1))) peak (Dyn.limLength sr lookahead), fun k => ?_⟩
  rw [Dyn.lim_out h1 hok' hpk]
  simp only [div_eq_mul_inv, one_mul]

/-- A lookahead of 10 ms, made at 44.1 kHz and set to 48 kHz: the delay is 480 samples. -/
example (s : Dyn.LimSt 1) (hs : Dyn.limRun (Dyn.limNew 1 441 (1 / 2) (1 / 2)) (fun _ _ => 1) 1000 = some s) (x : Nat → Frame ℝ 1) :
    ∃ gain, Dyn.LimitsBy 480 x (Dyn.limOut (limSetRate 0.01 (1 / 2) (1 / 2) s 48000) x) gain := by
  have := C118_limiter (by norm_num) _ _ hs 0.01 (1 / 2) (1 / 2) 48000 x
  have e : ⌊(48000 : ℝ) * 0.01 + 1 / 2⌋₊ = 480 := by rw [Nat.floor_eq_iff (by norm_num)]; norm_num
  rw [e] at this
  exact this

/-! ## Sequencers -/

section Sequencer
open Fundsp.Seq
variable {n : Nat}

/-- The middle of sample `k` in time. -/
def middle (rate : Nat → ℝ) (k : Nat) : ℝ := clock rate k + 1 / rate k / 2

/-- The rate in effect before sample `k` when the sequencer was made at rate `sr`. -/
def before (sr : ℝ) (rate : Nat → ℝ) : Nat → ℝ
  | 0 => sr
  | k + 1 => rate k

/-- A unit of the sequencer is told the rate when it changes. -/
def tell {U : Type} (setRate : ℝ → U → U) (old new : ℝ) (u : U) : U := if old = new then u else setRate new u

open Classical in
/-- The state in which sample `k` finds the unit of an event: it is told the rates, and takes a step in each sample in which the event sounds. -/
noncomputable def unitAt (X : Node ℝ 0 n) (setRate : ℝ → X.σ → X.σ) (sr : ℝ) (rate : Nat → ℝ) (e : Ev ℝ X.σ) : Nat → X.σ
  | 0 => setRate sr e.unit
  | k + 1 =>
    let u := tell setRate (before sr rate k) (rate k) (unitAt X setRate sr rate e k)
    if e.start < middle rate k ∧ ∀ s, e.stop = some s → middle rate k < s then (X.tick u Fin.elim0).1 else u

open Classical in
/-- What an event contributes to sample `k`: it sounds when the middle of the sample is between its start and its end, with the gain of its fades at the time of the sample. -/
noncomputable def share (X : Node ℝ 0 n) (ease : Fade → ℝ → ℝ) (setRate : ℝ → X.σ → X.σ) (sr : ℝ) (rate : Nat → ℝ) (k : Nat) (c : Fin n) (e : Ev ℝ X.σ) : ℝ :=
  if e.start < middle rate k ∧ ∀ s, e.stop = some s → middle rate k < s then
    gain ease e (clock rate k) * (X.tick (tell setRate (before sr rate k) (rate k) (unitAt X setRate sr rate e k)) Fin.elim0).2 c
  else 0

/-- Calls: all events are pushed, then every sample is preceded by a call to `set_sample_rate`. -/
def changing {U : Type} (es : List (Ev ℝ U)) (rate : Nat → ℝ) (m : Nat) : List (ROp ℝ U n) :=
  es.map (fun e => .op (.push e)) ++ (List.range m).flatMap fun k => [.rate (rate k), .op .tick]

/-- The list of events before sample `k`. -/
noncomputable def specAt (X : Node ℝ 0 n) (setRate : ℝ → X.σ → X.σ) (sr : ℝ) (rate : Nat → ℝ) (es : List (Ev ℝ X.σ)) (k : Nat) : Sp ℝ X.σ :=
  ⟨es.map fun e => { e with unit := unitAt X setRate sr rate e k }, (es.map (·.id)).reverse, clock rate k, before sr rate k, 1 / before sr rate k, true⟩

theorem spec_rate (X : Node ℝ 0 n) (setRate : ℝ → X.σ → X.σ) (sr : ℝ) (rate : Nat → ℝ) (es : List (Ev ℝ X.σ)) (k : Nat) :
    (specAt X setRate sr rate es k).setRate setRate (rate k) =
      ⟨es.map fun e => { e with unit := tell setRate (before sr rate k) (rate k) (unitAt X setRate sr rate e k) }, (es.map (·.id)).reverse, clock rate k, rate k, 1 / rate k, true⟩ := by
  unfold Sp.setRate specAt
  by_cases h : before sr rate k = rate k
  · rw [if_pos h]
    simp only [tell, if_pos h]
    rw [h]
  · rw [if_neg h]
    simp only [tell, if_neg h, List.map_map]
    rfl

theorem spec_tick (X : Node ℝ 0 n) (ease : Fade → ℝ → ℝ) (setRate : ℝ → X.σ → X.σ) (sr : ℝ) (rate : Nat → ℝ) (es : List (Ev ℝ X.σ)) (k : Nat) :
    ((specAt X setRate sr rate es k).setRate setRate (rate k)).tick (ut X) ease =
      (specAt X setRate sr rate es (k + 1), fun c => (es.map (share X ease setRate sr rate k c)).sum) := by
  rw [spec_rate]
  unfold Sp.tick
  refine Prod.ext ?_ ?_
  · show Sp.mk _ _ _ _ _ _ = Sp.mk _ _ _ _ _ _
    rw [clock_succ, List.map_map]
    congr 1
    apply List.map_congr_left
    intro e _
    by_cases h : e.start < clock rate k + 1 / rate k / 2 ∧ ∀ s, e.stop = some s → clock rate k + 1 / rate k / 2 < s
    · refine (if_pos h).trans ?_
      have : unitAt X setRate sr rate e (k + 1) = _ := if_pos h
      rw [this]
      rfl
    · refine (if_neg h).trans ?_
      have : unitAt X setRate sr rate e (k + 1) = _ := if_neg h
      rw [this]
  · funext c
    dsimp only
    rw [List.map_map]
    congr 1
    apply List.map_congr_left
    intro e _
    by_cases h : e.start < clock rate k + 1 / rate k / 2 ∧ ∀ s, e.stop = some s → clock rate k + 1 / rate k / 2 < s
    · exact (if_pos h).trans (if_pos (c := e.start < middle rate k ∧ ∀ s, e.stop = some s → middle rate k < s) h).symm
    · exact (if_neg h).trans (if_neg (c := e.start < middle rate k ∧ ∀ s, e.stop = some s → middle rate k < s) h).symm

theorem spec_run (X : Node ℝ 0 n) (ease : Fade → ℝ → ℝ) (setRate : ℝ → X.σ → X.σ) (sr : ℝ) {rate : Nat → ℝ} (hrate : ∀ k, 0 < rate k) (es : List (Ev ℝ X.σ)) (m : Nat) :
    Sp.rrun (ut X) X.reset ease setRate ((List.range m).flatMap fun k => [ROp.rate (rate k), .op .tick]) (specAt X setRate sr rate es 0) =
      (specAt X setRate sr rate es m, (List.range m).map fun k c => (es.map (share X ease setRate sr rate k c)).sum) ∧
    ROks (ut X) X.reset ease setRate ((List.range m).flatMap fun k => [ROp.rate (rate k), .op .tick]) (specAt X setRate sr rate es 0) := by
  induction m with
  | zero => exact ⟨rfl, trivial⟩
  | succ m ih =>
    obtain ⟨h1, h2⟩ := ih
    have ht : Sp.rrun (ut X) X.reset ease setRate [ROp.rate (rate m), .op .tick] (specAt X setRate sr rate es m) =
        (specAt X setRate sr rate es (m + 1), [fun c => (es.map (share X ease setRate sr rate m c)).sum]) := by
      simp only [Sp.rrun, Sp.rstep, Sp.step, Sp.ticks, spec_tick, List.nil_append, List.append_nil]
    rw [List.range_succ, List.flatMap_append, List.flatMap_singleton]
    constructor
    · rw [Sp.rrun_append, h1, ht, List.map_append]
      rfl
    · refine ROks_append _ _ _ _ _ _ _ h2 ?_
      rw [h1]
      refine ⟨⟨hrate m, Or.inl rfl⟩, ⟨trivial, rfl⟩, trivial⟩

theorem changing_oks (X : Node ℝ 0 n) (ease : Fade → ℝ → ℝ) (setRate : ℝ → X.σ → X.σ) {sr : ℝ} {rate : Nat → ℝ} (hrate : ∀ k, 0 < rate k)
    (es : List (Ev ℝ X.σ)) (hn : (es.map (·.id)).Nodup) (m : Nat) : ROks (ut X) X.reset ease setRate (changing es rate m) (Sp.new true sr) := by
  have e1 : (es.map (fun e => .op (.push e)) : List (ROp ℝ X.σ n)) = (es.map (Op.push : Ev ℝ X.σ → Op ℝ X.σ n)).map .op := by
    simp [List.map_map, Function.comp_def]
  have hp : Sp.run (ut X) X.reset ease setRate (es.map (Op.push : Ev ℝ X.σ → Op ℝ X.σ n)) (Sp.new true sr) = (specAt X setRate sr rate es 0, []) := by
    rw [Sp.run_pushes]
    simp [Sp.new, specAt, unitAt, clock, before, Ev.rated, Ev.map]
  rw [changing, e1]
  refine ROks_append _ _ _ _ _ _ _ ?_ ?_
  · refine ROks_op _ _ _ _ _ ?_ _ (Oks_pushes _ _ _ _ es _ hn (by simp [Sp.new]))
    intro o ho
    obtain ⟨e, _, rfl⟩ := List.mem_map.1 ho; rfl
  · rw [Sp.rrun_op, hp]
    exact (spec_run X ease setRate sr hrate es m).2

/-- **C118, sequencers.** Through all changes of the sample rate, every event of a sequencer that replays events sounds in exactly the samples whose middle is between its start and its end in
seconds, its fades take their time in seconds, and its unit misses nothing and repeats nothing. -/
theorem C118_sequencer (X : Node ℝ 0 n) (H : Heap ℝ X.σ) (ease : Fade → ℝ → ℝ) (setRate : ℝ → X.σ → X.σ) {sr : ℝ} (hsr : 0 < sr) {rate : Nat → ℝ} (hrate : ∀ k, 0 < rate k)
    (es : List (Ev ℝ X.σ)) (hn : (es.map (·.id)).Nodup) (m : Nat) :
    (Sq.rrun X H ease setRate (changing es rate m) (Sq.new true sr)).2 = (List.range m).map fun k c => (es.map (share X ease setRate sr rate k c)).sum := by
  obtain ⟨h1, -⟩ := spec_run X ease setRate sr hrate es m
  have e1 : (es.map (fun e => .op (.push e)) : List (ROp ℝ X.σ n)) = (es.map (Op.push : Ev ℝ X.σ → Op ℝ X.σ n)).map .op := by
    simp [List.map_map, Function.comp_def]
  have hp : Sp.run (ut X) X.reset ease setRate (es.map (Op.push : Ev ℝ X.σ → Op ℝ X.σ n)) (Sp.new true sr) = (specAt X setRate sr rate es 0, []) := by
    rw [Sp.run_pushes]
    simp [Sp.new, specAt, unitAt, clock, before, Ev.rated, Ev.map]
  rw [C88_seq_refines X H ease setRate true sr hsr]
  · rw [changing, e1, Sp.rrun_append, Sp.rrun_op, hp]
    dsimp only
    rw [h1]
    rfl
  · exact changing_oks X ease setRate hrate es hn m

/-- An event from 1 to 2 ms whose unit tells its rate: 8 samples at 8 kHz, then 16 kHz. -/
def tone : Ev ℝ rateUnit.σ := ⟨(0 : ℝ), 0.001, some 0.002, .smooth, 0, 0, 0⟩

/-- It begins with sample 8 and sounds at the new rate. -/
example : share rateUnit (fun _ x => x) (fun r _ => r) 8000 (fun k => if k < 8 then 8000 else 16000) 8 0 tone = 16000 := by
  have hc : clock (fun k => if k < 8 then (8000 : ℝ) else 16000) 8 = 0.001 := by
    rw [clock_const (j := 0) (by norm_num) fun m h1 h2 => by simp [h2]]
    norm_num [clock]
  have hm : middle (fun k => if k < 8 then (8000 : ℝ) else 16000) 8 = 0.001 + 1 / 32000 := by
    unfold middle; rw [hc]; norm_num
  unfold share
  rw [hm, if_pos ⟨by norm_num [tone], fun s hs => by
    have : (0.002 : ℝ) = s := Option.some.inj hs
    rw [← this]; norm_num⟩, hc]
  have hg : gain (fun _ x => x) tone (0.001 : ℝ) = 1 := by
    unfold gain gainIn gainOut tone
    norm_num
  rw [hg, one_mul]
  show tell (fun r _ => r) (8000 : ℝ) (if (8 : Nat) < 8 then 8000 else 16000) _ = _
  rw [if_neg (lt_irrefl 8)]
  exact if_neg (by norm_num)

end Sequencer

end Fundsp.Rate.Keep
