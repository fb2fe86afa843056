import Verif.Sound.Model
import Verif.Core.ExprProps
import Verif.Env.Props
import Verif.Osc.Props
import Verif.Pan.Props
import Verif.Dyn.Props
import Verif.Math.MusicProps
import Mathlib.Topology.Algebra.Order.Floor
import Mathlib.Analysis.SpecialFunctions.Pow.Continuity
import Mathlib.Algebra.BigOperators.Fin

/-! **C100**: ready-made sounds. -/

noncomputable section
namespace Fundsp.Sound
open Fundsp Fundsp.Math

/-! ## Specification -/

/-- The partials of an endless glissando: `x` is the place of a partial between the lowest and the highest octave (0 to 1). The places of the 40 partials at time `t` seconds:
equally spaced, all moving by one tenth of an octave per second and starting over at the end. -/
def places (t : ℝ) : Multiset ℝ := (Multiset.range 40).map fun i : Nat => Int.fract (t / 100 + (i : ℝ) / 40)

/-- `y` at sample `k` is the linear interpolation of the function `f` between two times at most 2.5 ms apart that surround the time of the sample. -/
def Interpolates (f : ℝ → ℝ) (sr : ℝ) (k : Nat) (y : ℝ) : Prop :=
  ∃ a b u, 0 ≤ a ∧ a ≤ k / sr ∧ k / sr < b ∧ b ≤ a + 0.0025 ∧ u = (k / sr - a) / (b - a) ∧ y = (1 - u) * f a + u * f b

/-! ## Lemmas -/

theorem captured_stream {A : Type} {α : Type} {i o : Nat} (X : A → Node α i o) (a : A) (s : (X a).σ) (w : Nat → Frame α i) :
    (captured X).stream ⟨a, s⟩ w = (X a).stream s w := by
  have h : ∀ k, (captured X).ticks.st (⟨a, s⟩ : Σ a, (X a).σ) w k = (⟨a, (X a).ticks.st s w k⟩ : Σ a, (X a).σ) := by
    intro k
    induction k with
    | zero => rfl
    | succ k ih =>
      have e : (captured X).ticks.st (⟨a, s⟩ : Σ a, (X a).σ) w (k + 1) = ((captured X).tick ((captured X).ticks.st (⟨a, s⟩ : Σ a, (X a).σ) w k) (w k)).1 := rfl
      rw [e, ih]; rfl
  funext k
  have e : (captured X).stream (⟨a, s⟩ : Σ a, (X a).σ) w k = ((captured X).tick ((captured X).ticks.st (⟨a, s⟩ : Σ a, (X a).σ) w k) (w k)).2 := rfl
  rw [e, h]; rfl

section
variable (rnd : BitVec 64 → ℝ) (hr : ∀ h, 0 ≤ rnd h ∧ rnd h ≤ 1) {sr : ℝ} (hsr : 0 < sr) (hrate : 1 / sr ≤ 0.0015)
include hr hsr hrate

/-- A new `lfo` interpolates its control function, all channels alike. -/
theorem lfo_interpolates {o : Nat} (env : ℝ → Frame ℝ o) (hash : BitVec 64) (w : Nat → Frame ℝ 0) (k : Nat) :
    ∃ a b u, 0 ≤ a ∧ a ≤ k / sr ∧ k / sr < b ∧ b ≤ a + 0.0025 ∧ u = (k / sr - a) / (b - a) ∧
      ∀ c, (Env.envelope rnd env).stream (Env.newSt env 0.002 sr hash) w k c = (1 - u) * env a c + u * env b c := by
  obtain ⟨n, h1, h2, h3⟩ := Env.C54_interpolation_partial rnd hr env (⟨0, 0, 0, 0, 0, 0, 0, 0, 0.002, 1 / sr, hash, ()⟩ : Env.EnvSt o Unit) (by positivity)
    (by show 1 / sr ≤ 0.75 * 0.002; linarith) w k
  simp only [mul_one_div] at h1 h2 h3
  have mono : ∀ n, 0 ≤ Env.point rnd hash 0.002 n := by
    intro n
    induction n with
    | zero => exact (Env.C54_jitter rnd hr hash 0.002 (by norm_num) 0).1.ge
    | succ n ih => have := (Env.C54_jitter rnd hr hash 0.002 (by norm_num) n).2.1; linarith
  refine ⟨Env.point rnd hash 0.002 n, Env.point rnd hash 0.002 (n + 1), _, mono n, h1, h2, ?_, rfl, h3⟩
  have := (Env.C54_jitter rnd hr hash 0.002 (by norm_num) n).2.2
  linarith

end

theorem weight_range {a b x u : ℝ} (h1 : a ≤ x) (h2 : x < b) (hu : u = (x - a) / (b - a)) : 0 ≤ u ∧ u ≤ 1 := by
  have h : 0 < b - a := by linarith
  rw [hu]
  exact ⟨div_nonneg (by linarith) h.le, by rw [div_le_one h]; linarith⟩

/-! ## Bass drum -/

/-- **C100, bass drum.** For every sharpness in 0...1, all positive pitches, every initial phase and sample rate: sample `k` is a sine with frequency sweep, times an
exponential decay, times a fade in. The sound starts at zero without a click, its fade in lasts from 2 ms to 0.02 ms with growing sharpness, it is never louder than
the decay and so dies away, and its pitch is the base pitch, falling by 10 Hz per second, from 22.5 ms on. -/
theorem C100_bassdrum (rnd : BitVec 64 → ℝ) (hr : ∀ h, 0 ≤ rnd h ∧ rnd h ≤ 1) {sr : ℝ} (hsr : 0 < sr) (hrate : 1 / sr ≤ 0.0015)
    (sharpness pitch0 pitch1 : ℝ) (hs0 : 0 ≤ sharpness) (hs1 : sharpness ≤ 1) (hp0 : 0 < pitch0) (hp1 : 0 < pitch1)
    (hash : Fin 3 → BitVec 64) (phase : ℝ) (w : Nat → Frame ℝ 0) :
    ∃ (f v fade : Nat → ℝ) (d : ℝ),
      (∀ k, (bassdrum rnd pitch0 pitch1).stream (bassdrumNew rnd sharpness pitch0 pitch1 sr hash phase) w k 0 =
        Real.sin (2 * Real.pi * (phase + ∑ j ∈ Finset.range k, f j / sr)) * v k * fade k) ∧
      (∀ k, Interpolates (fun t => pitch0 ^ (1 - clamp01 (t * 50)) * pitch1 ^ clamp01 (t * 50) - 10 * t) sr k (f k)) ∧
      (∀ k : Nat, 0.0225 ≤ k / sr → f k = pitch1 - 10 * (k / sr)) ∧
      (∀ k, Interpolates (fun t => Real.exp (-9 * t)) sr k (v k)) ∧
      (∀ k, 0 ≤ v k ∧ v k ≤ Real.exp (-9 * (k / sr - 0.0025))) ∧
      d = 0.002 ^ (1 - sharpness) * 0.00002 ^ sharpness ∧ fade = Dyn.fadeGain d (1 / sr) ∧ 0.00002 ≤ d ∧ d ≤ 0.002 ∧
      fade 0 = 0 ∧ Monotone fade ∧ (∀ k, 0 ≤ fade k ∧ fade k ≤ 1) ∧ (∀ k : Nat, d ≤ k / sr → fade k = 1) := by
  have hx : ∀ a b t : ℝ, 0 < a → 0 < b → xerp a b t = a ^ (1 - t) * b ^ t := by
    intro a b t ha hb
    rw [Real.rpow_def_of_pos ha, Real.rpow_def_of_pos hb, ← Real.exp_add]
    rfl
  have hd := C31_xerp 0.002 0.00002 (by norm_num) (by norm_num)
  have hd1 := hd.2.2.2.2.1 sharpness ⟨hs0, hs1⟩
  have hdp := hd.2.2.2.1 sharpness
  rw [min_eq_right (by norm_num), max_eq_left (by norm_num)] at hd1
  have hsd : 0 < 1 / sr := by positivity
  obtain ⟨m1, m2, m3, m4⟩ := Dyn.C47_fade hdp hsd
  have hpitch : ∀ k, Interpolates (bassPitch pitch0 pitch1) sr k
      ((Env.envelope rnd (fun t => (fun _ => bassPitch pitch0 pitch1 t : Frame ℝ 1))).stream (Env.newSt (fun t => (fun _ => bassPitch pitch0 pitch1 t)) 0.002 sr (hash 0)) w k 0) := by
    intro k
    obtain ⟨a, b, u, h1, h2, h3, h4, h5, h6⟩ := lfo_interpolates rnd hr hsr hrate (fun t => (fun _ => bassPitch pitch0 pitch1 t : Frame ℝ 1)) (hash 0) w k
    exact ⟨a, b, u, h1, h2, h3, h4, h5, h6 0⟩
  have hvol : ∀ k, Interpolates (fun t => Real.exp (-t * 9)) sr k
      ((Env.envelope rnd (fun t => (fun _ => Real.exp (-t * 9) : Frame ℝ 1))).stream (Env.newSt (fun t => (fun _ => Real.exp (-t * 9))) 0.002 sr (hash 2)) w k 0) := by
    intro k
    obtain ⟨a, b, u, h1, h2, h3, h4, h5, h6⟩ := lfo_interpolates rnd hr hsr hrate (fun t => (fun _ => Real.exp (-t * 9) : Frame ℝ 1)) (hash 2) w k
    exact ⟨a, b, u, h1, h2, h3, h4, h5, h6 0⟩
  have e9 : (fun t : ℝ => Real.exp (-t * 9)) = fun t => Real.exp (-9 * t) := by funext t; congr 1; ring
  refine ⟨fun k => (Env.envelope rnd (fun t => (fun _ => bassPitch pitch0 pitch1 t : Frame ℝ 1))).stream (Env.newSt (fun t => (fun _ => bassPitch pitch0 pitch1 t)) 0.002 sr (hash 0)) w k 0,
    fun k => (Env.envelope rnd (fun t => (fun _ => Real.exp (-t * 9) : Frame ℝ 1))).stream (Env.newSt (fun t => (fun _ => Real.exp (-t * 9))) 0.002 sr (hash 2)) w k 0,
    Dyn.fadeGain (xerp 0.002 0.00002 sharpness) (1 / sr), xerp 0.002 0.00002 sharpness, fun k => ?_, ?_, fun k hk => ?_, ?_, fun k => ?_,
    hx _ _ _ (by norm_num) (by norm_num), rfl, hd1.1, hd1.2, m2, m1, m3, fun k hk => (m4 k).1 ?_⟩
  · have e1 := congrFun (congrFun (C15_pipe (binop (i := 0) (j := 0) (fun a b => a * b)
      (pipe (Env.envelope rnd (fun t => (fun _ => bassPitch pitch0 pitch1 t : Frame ℝ 1))) (Osc.sine rnd))
      (Env.envelope rnd (fun t => (fun _ => Real.exp (-t * 9) : Frame ℝ 1)))) Dyn.declick
      (bassdrumNew rnd sharpness pitch0 pitch1 sr hash phase).1 (bassdrumNew rnd sharpness pitch0 pitch1 sr hash phase).2 w) k) 0
    have e2 := Dyn.C47_output (duration := xerp 0.002 0.00002 sharpness) hsd (Node.stream (binop (i := 0) (j := 0) (fun a b => a * b)
      (pipe (Env.envelope rnd (fun t => (fun _ => bassPitch pitch0 pitch1 t : Frame ℝ 1))) (Osc.sine rnd))
      (Env.envelope rnd (fun t => (fun _ => Real.exp (-t * 9) : Frame ℝ 1)))) (bassdrumNew rnd sharpness pitch0 pitch1 sr hash phase).1 w) k
    have e3 := C15_binop (i := 0) (j := 0) (fun a b : ℝ => a * b)
      (pipe (Env.envelope rnd (fun t => (fun _ => bassPitch pitch0 pitch1 t : Frame ℝ 1))) (Osc.sine rnd))
      (Env.envelope rnd (fun t => (fun _ => Real.exp (-t * 9) : Frame ℝ 1)))
      (bassdrumNew rnd sharpness pitch0 pitch1 sr hash phase).1.1 (bassdrumNew rnd sharpness pitch0 pitch1 sr hash phase).1.2 w k 0
    have e4 := congrFun (congrFun (C15_pipe (Env.envelope rnd (fun t => (fun _ => bassPitch pitch0 pitch1 t : Frame ℝ 1))) (Osc.sine rnd)
      (bassdrumNew rnd sharpness pitch0 pitch1 sr hash phase).1.1.1 (bassdrumNew rnd sharpness pitch0 pitch1 sr hash phase).1.1.2 w) k) 0
    have e5 := Osc.C52_sine rnd (⟨phase, 1 / sr, hash 1, none⟩ : Osc.OscSt)
      ((Env.envelope rnd (fun t => (fun _ => bassPitch pitch0 pitch1 t : Frame ℝ 1))).stream (bassdrumNew rnd sharpness pitch0 pitch1 sr hash phase).1.1.1 w) k
    have wz : ∀ v : Nat → Frame ℝ 0, v = w := fun v => by funext k c; exact c.elim0
    refine (e1.trans e2).trans ?_
    refine congrArg (· * Dyn.fadeGain (xerp 0.002 0.00002 sharpness) (1 / sr) k) ?_
    refine e3.trans ?_
    refine congrArg₂ (· * ·) ?_ (by rw [wz (fun k c => w k (Fin.natAdd 0 c))]; rfl)
    rw [wz (fun k c => w k (Fin.castAdd 0 c))]
    refine e4.trans (e5.trans ?_)
    simp only [mul_one_div]
    rfl
  · intro k
    have := hpitch k
    have e : bassPitch pitch0 pitch1 = fun t => pitch0 ^ (1 - clamp01 (t * 50)) * pitch1 ^ clamp01 (t * 50) - 10 * t := by
      funext t
      unfold bassPitch
      rw [hx _ _ _ hp0 hp1]
    rw [← e]
    exact this
  · obtain ⟨a, b, u, h1, h2, h3, h4, h5, h6⟩ := hpitch k
    refine h6.trans ?_
    have key : ∀ t : ℝ, 0.02 ≤ t → bassPitch pitch0 pitch1 t = pitch1 - 10 * t := by
      intro t ht
      unfold bassPitch
      have : clamp01 (t * 50) = 1 := by unfold clamp01; rw [max_eq_left (by linarith), min_eq_right (by linarith)]
      rw [this, (C31_xerp pitch0 pitch1 hp0 hp1).2.1]
    rw [key a (by linarith), key b (by linarith), h5]
    have : b - a ≠ 0 := by linarith
    field_simp
    ring
  · intro k
    rw [← e9]
    exact hvol k
  · obtain ⟨a, b, u, h1, h2, h3, h4, h5, h6⟩ := hvol k
    have hu := weight_range h2 h3 h5
    have pa := Real.exp_pos (-a * 9)
    have pb := Real.exp_pos (-b * 9)
    have hab : Real.exp (-b * 9) ≤ Real.exp (-a * 9) := Real.exp_le_exp.2 (by linarith)
    have hak : Real.exp (-a * 9) ≤ Real.exp (-9 * (k / sr - 0.0025)) := Real.exp_le_exp.2 (by linarith)
    have e : (Env.envelope rnd (fun t => (fun _ => Real.exp (-t * 9) : Frame ℝ 1))).stream (Env.newSt (fun t => (fun _ => Real.exp (-t * 9))) 0.002 sr (hash 2)) w k 0 =
      (1 - u) * Real.exp (-a * 9) + u * Real.exp (-b * 9) := h6
    constructor
    · refine le_trans ?_ (le_of_eq e.symm)
      have := mul_nonneg (sub_nonneg.2 hu.2) pa.le
      have := mul_nonneg hu.1 pb.le
      linarith
    · refine le_trans (le_of_eq e) (le_trans ?_ hak)
      nlinarith [mul_le_mul_of_nonneg_left hab hu.1]
  · rw [div_div_eq_mul_div, div_one, ← le_div_iff₀ hsr]
    exact hk

/-- The hypotheses are met at 44.1 kHz with the parameters suggested in the documentation. -/
example (hash : Fin 3 → BitVec 64) (w : Nat → Frame ℝ 0) :
    ∃ d : ℝ, d = 0.002 ^ (1 - (0.2 : ℝ)) * 0.00002 ^ (0.2 : ℝ) ∧ (bassdrum (fun _ => 1 / 2) 180 60).stream (bassdrumNew (fun _ => 1 / 2) 0.2 180 60 44100 hash 0) w 0 0 = 0 := by
  obtain ⟨f, v, fade, d, h1, -, -, -, -, h2, -, -, -, h3, -⟩ := C100_bassdrum (fun _ => 1 / 2) (fun _ => by norm_num) (show (0 : ℝ) < 44100 by norm_num) (by norm_num)
    0.2 180 60 (by norm_num) (by norm_num) (by norm_num) (by norm_num) hash 0 w
  exact ⟨d, h2, by rw [h1, h3, mul_zero]⟩

/-! ## Risset glissando -/

theorem rissetPhase_eq (i : Nat) (t : ℝ) : rissetPhase i t = Int.fract (t / 100 + i / 40) := by
  have e : (t * 0.1 + i * 10 / 40) / 10 = t / 100 + (i : ℝ) / 40 := by ring
  unfold rissetPhase remainder
  rw [e, Int.fract]
  ring

theorem aWeight_continuousOn : ContinuousOn aWeight (Set.Ioi 0) := by
  unfold aWeight
  simp only
  refine ContinuousOn.div (by fun_prop) (by fun_prop) fun f hf => ?_
  have : (0 : ℝ) < Real.sqrt ((f ^ 2 + 107.7 ^ 2) * (f ^ 2 + 737.9 ^ 2)) := Real.sqrt_pos.2 (by positivity)
  positivity

theorem risset_sweep (x : ℝ) : xerp 20 20480 x = 20 * 1024 ^ x ∧ xerp 20480 20 x = 20 * 1024 ^ (1 - x) := by
  have h : Real.log 20480 = Real.log 20 + Real.log 1024 := by
    rw [← Real.log_mul (by norm_num) (by norm_num)]; norm_num
  constructor
  · rw [Real.rpow_def_of_pos (by norm_num), ← Real.exp_log (show (0 : ℝ) < 20 by norm_num), ← Real.exp_add, Real.exp_log (by norm_num)]
    unfold xerp lerp
    rw [h]; congr 1; ring
  · rw [Real.rpow_def_of_pos (by norm_num), ← Real.exp_log (show (0 : ℝ) < 20 by norm_num), ← Real.exp_add, Real.exp_log (by norm_num)]
    unfold xerp lerp
    rw [h]; congr 1; ring

/-- Specification. Frequency of the partial at place `x`: ten octaves from 20 Hz, traversed upwards or downwards, detuned by `u` in 0...1. -/
def gliss (up : Bool) (u x : ℝ) : ℝ := 2 * u - 1 + 20 * 2 ^ (10 * if up then x else 1 - x)

theorem gliss_range {up : Bool} {u x : ℝ} (hu : 0 ≤ u ∧ u ≤ 1) (hx : 0 ≤ x ∧ x ≤ 1) : 19 ≤ gliss up u x ∧ gliss up u x ≤ 20481 := by
  have key : ∀ y : ℝ, 0 ≤ y → y ≤ 1 → (1 : ℝ) ≤ 2 ^ (10 * y) ∧ (2 : ℝ) ^ (10 * y) ≤ 1024 := by
    intro y h0 h1
    refine ⟨Real.one_le_rpow (by norm_num) (by linarith), ?_⟩
    calc (2 : ℝ) ^ (10 * y) ≤ 2 ^ (10 : ℝ) := Real.rpow_le_rpow_of_exponent_le (by norm_num) (by linarith)
      _ = 1024 := by norm_num
  unfold gliss
  cases up
  · have := key (1 - x) (by linarith) (by linarith)
    simp only [Bool.false_eq_true, if_false]
    constructor <;> linarith
  · have := key x hx.1 hx.2
    simp only [if_true]
    constructor <;> linarith

theorem gliss_continuous (up : Bool) (u : ℝ) : Continuous (gliss up u) := by
  unfold gliss
  cases up <;> simp only [if_true, Bool.false_eq_true, if_false] <;>
    exact continuous_const.add (continuous_const.mul (Continuous.rpow continuous_const (by fun_prop) fun x => Or.inl (by norm_num)))

theorem risset_control (rnd : BitVec 64 → ℝ) (up : Bool) (i : Nat) (t : ℝ) :
    rissetControl rnd up i t 1 = gliss up (rnd (BitVec.ofNat 64 i)) (Int.fract (t / 100 + i / 40)) ∧
    rissetControl rnd up i t 0 = smooth3 (Real.sin (Real.pi * Int.fract (t / 100 + i / 40))) / aWeight (rissetControl rnd up i t 1) := by
  have h1024 : ∀ y : ℝ, (1024 : ℝ) ^ y = 2 ^ (10 * y) := by
    intro y; rw [Real.rpow_mul (by norm_num)]; norm_num
  have hs : ∀ x, sinHz 0.5 x = Real.sin (Real.pi * x) := fun x => by unfold sinHz; congr 1; ring
  constructor
  · show lerp (-1) 1 _ + xerp _ _ (rissetPhase i t) = _
    rw [rissetPhase_eq]
    unfold gliss
    cases up
    · simp only [Bool.false_eq_true, if_false]
      rw [(risset_sweep _).2, h1024]
      unfold lerp; ring
    · simp only [if_true]
      rw [(risset_sweep _).1, h1024]
      unfold lerp; ring
  · show smooth3 (sinHz 0.5 (rissetPhase i t)) / aWeight _ = _
    rw [hs]
    have e : rissetControl rnd up i t 1 = lerp (-1) 1 (rnd (BitVec.ofNat 64 i)) +
      xerp (if up then ((20 : ℝ), (20480 : ℝ)) else (20480, 20)).1 (if up then ((20 : ℝ), (20480 : ℝ)) else (20480, 20)).2 (rissetPhase i t) := rfl
    rw [e, rissetPhase_eq]

/-- **C100, glissando.** Both channels at every sample: forty sines, panned from half left to half right. The amplitude and frequency of each interpolate, at the same points, the control
described in `C100_risset_control`. -/
theorem C100_risset (rnd : BitVec 64 → ℝ) (hr : ∀ h, 0 ≤ rnd h ∧ rnd h ≤ 1) {sr : ℝ} (hsr : 0 < sr) (hrate : 1 / sr ≤ 0.0015)
    (up : Bool) (hash : Nat → BitVec 64) (phase : Nat → ℝ) (w : Nat → Frame ℝ (0 * 40)) :
    ∃ amp freq : Nat → Nat → ℝ,
      (∀ k, (risset rnd up).stream (rissetNew rnd up sr hash phase) w k 0 =
        (∑ i : Fin 40, Real.cos ((i.1 / 39 + 1 / 2) * (Real.pi / 4)) * (amp i k * Real.sin (2 * Real.pi * (phase i + ∑ j ∈ Finset.range k, freq i j / sr)))) * 0.1) ∧
      (∀ k, (risset rnd up).stream (rissetNew rnd up sr hash phase) w k 1 =
        (∑ i : Fin 40, Real.sin ((i.1 / 39 + 1 / 2) * (Real.pi / 4)) * (amp i k * Real.sin (2 * Real.pi * (phase i + ∑ j ∈ Finset.range k, freq i j / sr)))) * 0.1) ∧
      ∀ i k : Nat, ∃ a b u, 0 ≤ a ∧ a ≤ k / sr ∧ k / sr < b ∧ b ≤ a + 0.0025 ∧ u = (k / sr - a) / (b - a) ∧
        amp i k = (1 - u) * rissetControl rnd up i a 0 + u * rissetControl rnd up i b 0 ∧
        freq i k = (1 - u) * rissetControl rnd up i a 1 + u * rissetControl rnd up i b 1 := by
  obtain ⟨z, hz⟩ : ∃ z : Nat → Frame ℝ 0, z = fun _ c => c.elim0 := ⟨_, rfl⟩
  have wz : ∀ v v' : Nat → Frame ℝ 0, v = v' := fun v v' => by funext k c; exact c.elim0
  obtain ⟨E, hE⟩ : ∃ E : Nat → Nat → Frame ℝ 2, E = fun i => (Env.envelope rnd (rissetControl rnd up i)).stream (Env.newSt (rissetControl rnd up i) 0.002 sr (hash i)) z := ⟨_, rfl⟩
  have hvoice : ∀ (i : Nat) (k : Nat), (rissetVoice rnd up i).stream
      ((Env.newSt (rissetControl rnd up i) 0.002 sr (hash i), ((), (⟨phase i, 1 / sr, hash i, none⟩ : Osc.OscSt))) : (rissetVoice rnd up i).σ) z k 0 =
      E i k 0 * Real.sin (2 * Real.pi * (phase i + ∑ j ∈ Finset.range k, E i j 1 / sr)) := by
    intro i k
    have e1 := congrFun (congrFun (C15_pipe (Env.envelope rnd (rissetControl rnd up i)) (binop (i := 1) (j := 1) (fun a b => a * b) (multiPass 1) (Osc.sine rnd))
      (Env.newSt (rissetControl rnd up i) 0.002 sr (hash i)) ((), (⟨phase i, 1 / sr, hash i, none⟩ : Osc.OscSt)) z) k) 0
    have e2 := C15_binop (i := 1) (j := 1) (fun a b : ℝ => a * b) (multiPass 1) (Osc.sine rnd) () (⟨phase i, 1 / sr, hash i, none⟩ : Osc.OscSt) (E i) k 0
    have e3 := Osc.C52_sine rnd (⟨phase i, 1 / sr, hash i, none⟩ : Osc.OscSt) (fun k c => E i k (Fin.natAdd 1 c)) k
    refine e1.trans ?_
    have e4 : (Env.envelope rnd (rissetControl rnd up i)).stream (Env.newSt (rissetControl rnd up i) 0.002 sr (hash i)) z = E i := by rw [hE]
    rw [e4]
    refine e2.trans ?_
    refine congrArg₂ (· * ·) rfl (e3.trans ?_)
    simp only [mul_one_div]
    rfl
  obtain ⟨V, hV⟩ : ∃ V : Fin 40 → Nat → Frame ℝ 1, V = fun (i : Fin 40) k _ => E i k 0 * Real.sin (2 * Real.pi * (phase i + ∑ j ∈ Finset.range k, E i j 1 / sr)) := ⟨_, rfl⟩
  have hstack : ∀ (q : Fin 40) k (d : Fin 1) (e : Fin (1 * 40)), e.1 = q.1 * 1 + d.1 →
      V q k d = (multiStack 40 (captured (rissetVoice rnd up))).stream (rissetNew rnd up sr hash phase).1 w k e := by
    intro q k d e he
    have h := Expr.C91_stack 40 (captured (rissetVoice rnd up)) (rissetNew rnd up sr hash phase).1 w q z (fun k d => d.elim0) k d e he
    rw [h]
    have h2 := congrFun (congrFun (captured_stream (rissetVoice rnd up) q.1
      ((Env.newSt (rissetControl rnd up q.1) 0.002 sr (hash q.1), ((), (⟨phase q.1, 1 / sr, hash q.1, none⟩ : Osc.OscSt))) : (rissetVoice rnd up q.1).σ) z) k) d
    refine Eq.trans ?_ h2.symm
    match d with
    | 0 => rw [hvoice q.1 k, hV]
  have hang : ∀ q : Fin 40, clamp11 (lerp (-0.5) 0.5 ((Expr.frac 40 q.1 : Rat) : ℝ)) = (q.1 : ℝ) / 39 - 1 / 2 := by
    intro q
    have e : ((Expr.frac 40 q.1 : Rat) : ℝ) = (q.1 : ℝ) / 39 := by
      unfold Expr.frac
      norm_num
    have hq : (q.1 : ℝ) ≤ 39 := by exact_mod_cast Nat.le_of_lt_succ q.2
    have hq0 : (0 : ℝ) ≤ q.1 := Nat.cast_nonneg _
    have e2 : lerp (-0.5) 0.5 ((q.1 : ℝ) / 39) = (q.1 : ℝ) / 39 - 1 / 2 := by unfold lerp; ring
    have b1 : (q.1 : ℝ) / 39 ≤ 1 := by rw [div_le_one (by norm_num)]; exact hq
    have b0 : 0 ≤ (q.1 : ℝ) / 39 := by positivity
    rw [e, e2]
    unfold clamp11
    rw [max_eq_left (by linarith), min_eq_left (by linarith)]
  have hsum : ∀ k (c : Fin 2), (risset rnd up).stream (rissetNew rnd up sr hash phase) w k c =
      (∑ q : Fin 40, (![(Pan.panWeights (lerp (-0.5) 0.5 ((Expr.frac 40 q.1 : Rat) : ℝ))).1 * V q k 0,
        (Pan.panWeights (lerp (-0.5) 0.5 ((Expr.frac 40 q.1 : Rat) : ℝ))).2 * V q k 0] : Frame ℝ 2) c) * 0.1 := by
    intro k c
    have e1 := congrFun (congrFun (C15_pipe (multiStack 40 (captured (rissetVoice rnd up))) (Expr.mulScalar (reduce (i := 1) (fun a b => a + b) 39 Pan.panner1) 0.1)
      (rissetNew rnd up sr hash phase).1 (rissetNew rnd up sr hash phase).2 w) k) c
    have e2 := (Expr.C91_scalar (fun a b => add_comm a b) (fun a b => mul_comm a b) (fun a b => (sub_eq_add_neg a b).symm)
      (reduce (i := 1) (fun a b : ℝ => a + b) 39 Pan.panner1) (rissetNew rnd up sr hash phase).2
      ((multiStack 40 (captured (rissetVoice rnd up))).stream (rissetNew rnd up sr hash phase).1 w) 0.1 k c).2.2.1
    have e3 := Expr.C91_sum 39 Pan.panner1 (rissetNew rnd up sr hash phase).2
      ((multiStack 40 (captured (rissetVoice rnd up))).stream (rissetNew rnd up sr hash phase).1 w) V hstack k c
    refine (e1.trans e2).trans (congrArg (· * (0.1 : ℝ)) (e3.trans ?_))
    refine Finset.sum_congr rfl fun q _ => ?_
    exact congrFun (Pan.C51_panner_fixed _ (V q) k) c
  refine ⟨fun i k => E i k 0, fun i k => E i k 1, fun k => ?_, fun k => ?_, fun i k => ?_⟩
  · rw [hsum]
    refine congrArg (· * (0.1 : ℝ)) (Finset.sum_congr rfl fun q _ => ?_)
    show Real.cos ((clamp11 _ + 1) * (Real.pi * 0.25)) * V q k 0 = _
    rw [hang, hV]
    congr 2; ring
  · rw [hsum]
    refine congrArg (· * (0.1 : ℝ)) (Finset.sum_congr rfl fun q _ => ?_)
    show Real.sin ((clamp11 _ + 1) * (Real.pi * 0.25)) * V q k 0 = _
    rw [hang, hV]
    congr 2; ring
  · obtain ⟨a, b, u, h1, h2, h3, h4, h5, h6⟩ := lfo_interpolates rnd hr hsr hrate (rissetControl rnd up i) (hash i) z k
    refine ⟨a, b, u, h1, h2, h3, h4, h5, ?_, ?_⟩
    · rw [hE]; exact h6 0
    · rw [hE]; exact h6 1

/-- **C100, endless.** Partial `i` is at place `fract(t / 100 + i / 40)` at time `t`; its frequency is the one of that place, its amplitude is `smooth3(sin(π x))`, evened out by A-weighting.
The forty places are the same at all times 2.5 s apart, so the sound as a whole goes nowhere; meanwhile every partial keeps moving in the named direction, at one octave per ten seconds, from
one end to the other. The amplitude of a partial changes continuously, also where it starts over: it is silent there. All frequencies lie between 19 and 20481 Hz. -/
theorem C100_risset_control (rnd : BitVec 64 → ℝ) (hr : ∀ h, 0 ≤ rnd h ∧ rnd h ≤ 1) (up : Bool) :
    (∀ (i : Nat) (t : ℝ), rissetControl rnd up i t 1 = gliss up (rnd (BitVec.ofNat 64 i)) (Int.fract (t / 100 + i / 40)) ∧
      rissetControl rnd up i t 0 = smooth3 (Real.sin (Real.pi * Int.fract (t / 100 + i / 40))) / aWeight (rissetControl rnd up i t 1)) ∧
    (∀ t, places (t + 2.5) = places t) ∧
    (∀ (i : Nat) (s t : ℝ), s < t → (∀ r, s < r → r ≤ t → ∀ n : ℤ, r / 100 + i / 40 ≠ n) →
      if up then rissetControl rnd up i s 1 < rissetControl rnd up i t 1 else rissetControl rnd up i t 1 < rissetControl rnd up i s 1) ∧
    (∀ i, Continuous fun t => rissetControl rnd up i t 0) ∧
    (∀ (i : Nat) (t : ℝ), (∃ n : ℤ, t / 100 + i / 40 = n) → rissetControl rnd up i t 0 = 0) ∧
    (∀ i t, 0 ≤ rissetControl rnd up i t 0) ∧
    ∀ i t, 19 ≤ rissetControl rnd up i t 1 ∧ rissetControl rnd up i t 1 ≤ 20481 := by
  have hrange : ∀ i t, 19 ≤ rissetControl rnd up i t 1 ∧ rissetControl rnd up i t 1 ≤ 20481 := by
    intro i t
    rw [(risset_control rnd up i t).1]
    exact gliss_range (hr _) ⟨Int.fract_nonneg _, (Int.fract_lt_one _).le⟩
  refine ⟨fun i t => risset_control rnd up i t, fun t => ?_, fun i s t hst hno => ?_, fun i => ?_, fun i t => ?_, fun i t => ?_, hrange⟩
  · have h : places (t + 2.5) = (Multiset.range 40).map fun i : Nat => Int.fract (t / 100 + ((i + 1 : Nat) : ℝ) / 40) := by
      unfold places
      refine Multiset.map_congr rfl fun i _ => ?_
      congr 1; push_cast; ring
    rw [h]
    unfold places
    have e1 : Multiset.map (fun i : Nat => Int.fract (t / 100 + ((i + 1 : Nat) : ℝ) / 40)) (Multiset.range 40) =
        ((List.range 40).map (Nat.succ)).map (fun i : Nat => Int.fract (t / 100 + (i : ℝ) / 40)) := by
      rw [List.map_map]; rfl
    have e2 : Multiset.map (fun i : Nat => Int.fract (t / 100 + (i : ℝ) / 40)) (Multiset.range 40) =
        (0 :: (List.range 39).map Nat.succ).map (fun i : Nat => Int.fract (t / 100 + (i : ℝ) / 40)) := by
      rw [← List.range_succ_eq_map]; rfl
    rw [e1, e2, List.range_succ, List.map_append, List.map_append, List.map_cons]
    have e3 : Int.fract (t / 100 + ((Nat.succ 39 : Nat) : ℝ) / 40) = Int.fract (t / 100 + ((0 : Nat) : ℝ) / 40) := by
      have : t / 100 + ((Nat.succ 39 : Nat) : ℝ) / 40 = t / 100 + ((0 : Nat) : ℝ) / 40 + 1 := by push_cast; ring
      rw [this, Int.fract_add_one]
    rw [Multiset.coe_eq_coe]
    simp only [List.map_cons, List.map_nil, e3]
    exact List.perm_append_comm
  · have key : Int.fract (s / 100 + (i : ℝ) / 40) < Int.fract (t / 100 + (i : ℝ) / 40) := by
      have hf : ⌊t / 100 + (i : ℝ) / 40⌋ = ⌊s / 100 + (i : ℝ) / 40⌋ := by
        rw [Int.floor_eq_iff]
        refine ⟨le_trans (Int.floor_le _) (by linarith), ?_⟩
        by_contra hc
        have hc := not_lt.1 hc
        refine hno (100 * ((⌊s / 100 + (i : ℝ) / 40⌋ : ℝ) + 1 - i / 40)) ?_ ?_ (⌊s / 100 + (i : ℝ) / 40⌋ + 1) (by push_cast; ring)
        · have := Int.lt_floor_add_one (s / 100 + (i : ℝ) / 40); linarith
        · linarith
      rw [Int.fract, Int.fract, hf]
      linarith
    rw [(risset_control rnd up i s).1, (risset_control rnd up i t).1]
    unfold gliss
    cases up
    · simp only [Bool.false_eq_true, if_false]
      have := Real.rpow_lt_rpow_of_exponent_lt (show (1 : ℝ) < 2 by norm_num) (show 10 * (1 - Int.fract (t / 100 + (i : ℝ) / 40)) < 10 * (1 - Int.fract (s / 100 + (i : ℝ) / 40)) by linarith)
      linarith
    · simp only [if_true]
      have := Real.rpow_lt_rpow_of_exponent_lt (show (1 : ℝ) < 2 by norm_num) (show 10 * Int.fract (s / 100 + (i : ℝ) / 40) < 10 * Int.fract (t / 100 + (i : ℝ) / 40) by linarith)
      linarith
  · obtain ⟨g, hg⟩ : ∃ g : ℝ → ℝ, g = fun x => smooth3 (Real.sin (Real.pi * x)) / aWeight (gliss up (rnd (BitVec.ofNat 64 i)) x) := ⟨_, rfl⟩
    have hc : ContinuousOn g (Set.Icc 0 1) := by
      rw [hg]
      refine ContinuousOn.div (by unfold smooth3; fun_prop) ?_ ?_
      · exact aWeight_continuousOn.comp (gliss_continuous up _).continuousOn fun x hx => lt_of_lt_of_le (by norm_num) (gliss_range (hr _) hx).1
      · exact fun x hx => (C89_a_weight.2.2.2.1 _ (lt_of_lt_of_le (by norm_num) (gliss_range (hr _) hx).1).ne').ne'
    have h01 : g 0 = g 1 := by rw [hg]; simp [smooth3]
    have := (hc.comp_fract'' h01).comp (show Continuous fun t : ℝ => t / 100 + (i : ℝ) / 40 by fun_prop)
    refine this.congr fun t => ?_
    rw [(risset_control rnd up i t).2, (risset_control rnd up i t).1, hg]
    rfl
  · rintro ⟨n, hn⟩
    rw [(risset_control rnd up i t).2, hn]
    simp [smooth3]
  · rw [(risset_control rnd up i t).2]
    have h0 := Int.fract_nonneg (t / 100 + (i : ℝ) / 40)
    have h1 := (Int.fract_lt_one (t / 100 + (i : ℝ) / 40)).le
    have hs : 0 ≤ Real.sin (Real.pi * Int.fract (t / 100 + (i : ℝ) / 40)) :=
      Real.sin_nonneg_of_nonneg_of_le_pi (by positivity) (by nlinarith [Real.pi_pos])
    have hs1 := Real.sin_le_one (Real.pi * Int.fract (t / 100 + (i : ℝ) / 40))
    refine div_nonneg ?_ (C89_a_weight.2.2.2.1 _ (by linarith [(hrange i t).1])).le
    unfold smooth3
    exact mul_nonneg (mul_nonneg (by linarith) hs) hs

example (rnd : BitVec 64 → ℝ) (hr : ∀ h, 0 ≤ rnd h ∧ rnd h ≤ 1) : rissetControl rnd true 0 50 1 = gliss true (rnd 0) (1 / 2) := by
  rw [((C100_risset_control rnd hr true).1 0 50).1]
  norm_num [Int.fract]
  rfl

/-! ## Snare drum and cymbal -/

/-- **C100, filter sweeps.** The cutoff of the snare drum falls from 15 kHz and the one of the cymbal from 20 to 2 kHz. So the lowpass of the snare drum is used within its range (C99) at sample
rates above 30 kHz, the one of the cymbal above 40 kHz, but not below: see `Filter.C99_example` for what a lowpass at 15 kHz does at a sample rate of 22050 Hz. -/
theorem C100_cutoffs_partial (rnd : BitVec 64 → ℝ) (hr : ∀ h, 0 ≤ rnd h ∧ rnd h ≤ 1) {sr : ℝ} (hsr : 0 < sr) (hrate : 1 / sr ≤ 0.0015)
    (hash : BitVec 64) (w : Nat → Frame ℝ 0) (k : Nat) :
    (0 < (Env.envelope rnd snareCutoff).stream (Env.newSt snareCutoff 0.002 sr hash) w k 0 ∧
      (Env.envelope rnd snareCutoff).stream (Env.newSt snareCutoff 0.002 sr hash) w k 0 ≤ 15000) ∧
    (2000 ≤ (Env.envelope rnd cymbalCutoff).stream (Env.newSt cymbalCutoff 0.002 sr hash) w k 0 ∧
      (Env.envelope rnd cymbalCutoff).stream (Env.newSt cymbalCutoff 0.002 sr hash) w k 0 ≤ 20000) ∧
    (Env.envelope rnd snareCutoff).stream (Env.newSt snareCutoff 0.002 sr hash) w 0 0 = 15000 ∧
    (Env.envelope rnd cymbalCutoff).stream (Env.newSt cymbalCutoff 0.002 sr hash) w 0 0 = 20000 := by
  have conv : ∀ x y u : ℝ, 0 ≤ u → u ≤ 1 → min x y ≤ (1 - u) * x + u * y ∧ (1 - u) * x + u * y ≤ max x y := by
    intro x y u h0 h1
    constructor
    · nlinarith [mul_le_mul_of_nonneg_left (min_le_left x y) (sub_nonneg.2 h1), mul_le_mul_of_nonneg_left (min_le_right x y) h0]
    · nlinarith [mul_le_mul_of_nonneg_left (le_max_left x y) (sub_nonneg.2 h1), mul_le_mul_of_nonneg_left (le_max_right x y) h0]
  have hsn : ∀ t : ℝ, 0 ≤ t → 0 < snareCutoff t 0 ∧ snareCutoff t 0 ≤ 15000 := by
    intro t ht
    refine ⟨Real.exp_pos _, ?_⟩
    have : Real.exp (lerp (Real.log 15000) (Real.log 1000) t) ≤ Real.exp (Real.log 15000) := by
      refine Real.exp_le_exp.2 ?_
      have := Real.log_le_log (show (0 : ℝ) < 1000 by norm_num) (show (1000 : ℝ) ≤ 15000 by norm_num)
      unfold lerp
      nlinarith
    rwa [Real.exp_log (by norm_num)] at this
  have hcy : ∀ t : ℝ, 2000 ≤ cymbalCutoff t 0 ∧ cymbalCutoff t 0 ≤ 20000 := by
    intro t
    have := (C31_xerp 20000 2000 (by norm_num) (by norm_num)).2.2.2.2.1 (clamp01 t) ⟨le_min (le_max_right _ _) (by norm_num), min_le_right _ _⟩
    rw [min_eq_right (by norm_num), max_eq_left (by norm_num)] at this
    exact this
  have start : ∀ env : ℝ → Frame ℝ 1, (Env.envelope rnd env).stream (Env.newSt env 0.002 sr hash) w 0 0 = env 0 0 := by
    intro env
    obtain ⟨a, b, u, h1, h2, h3, h4, h5, h6⟩ := lfo_interpolates rnd hr hsr hrate env hash w 0
    simp only [Nat.cast_zero, zero_div] at h2 h5
    have ha : a = 0 := le_antisymm h2 h1
    rw [ha] at h5 h6
    rw [h6, h5]; simp
  refine ⟨?_, ?_, ?_, ?_⟩
  · obtain ⟨a, b, u, h1, h2, h3, h4, h5, h6⟩ := lfo_interpolates rnd hr hsr hrate snareCutoff hash w k
    have hu := weight_range h2 h3 h5
    have := conv (snareCutoff a 0) (snareCutoff b 0) u hu.1 hu.2
    have ha := hsn a h1
    have hb := hsn b (by linarith)
    rw [h6]
    exact ⟨lt_of_lt_of_le (lt_min ha.1 hb.1) this.1, this.2.trans (max_le ha.2 hb.2)⟩
  · obtain ⟨a, b, u, h1, h2, h3, h4, h5, h6⟩ := lfo_interpolates rnd hr hsr hrate cymbalCutoff hash w k
    have hu := weight_range h2 h3 h5
    have := conv (cymbalCutoff a 0) (cymbalCutoff b 0) u hu.1 hu.2
    rw [h6]
    exact ⟨(le_min (hcy a).1 (hcy b).1).trans this.1, this.2.trans (max_le (hcy a).2 (hcy b).2)⟩
  · rw [start]; exact (C31_xerp 15000 1000 (by norm_num) (by norm_num)).1
  · rw [start]
    show xerp 20000 2000 (clamp01 0) = _
    have : clamp01 0 = 0 := by norm_num [clamp01]
    rw [this]; exact (C31_xerp 20000 2000 (by norm_num) (by norm_num)).1

/-! ## Pebbles -/

/-- Distance to the nearest integer, at least one. -/
theorem pebble_goal {r : ℝ} (h : 1 ≤ r) : |r - max 1 (round r : ℝ)| ≤ 1 / 2 := by
  have h1 : (1 : ℤ) ≤ round r := by
    rw [round_eq]
    exact Int.le_floor.2 (by push_cast; linarith)
  have : max 1 (round r : ℝ) = (round r : ℝ) := max_eq_right (by exact_mod_cast h1)
  rw [this]
  exact abs_sub_round r

/-- One pair keeps all frequencies positive. It multiplies the two by `1 - e` and `1 + e`, so their product falls, for an `e` from 0.1 to 0.6 times `c`; the others stay as they are. -/
theorem pebblePair_eq {c : ℝ} (d : Nat → ℝ) (hd : ∀ i, 0 < d i) (i j : Nat) (hij : d j ≤ d i) :
    ∃ e, 0.1 ≤ |e| ∧ |e| ≤ 0.6 ∧ (∀ k, k ≠ i → k ≠ j → pebblePair c d i j k = d k) ∧
      (i ≠ j → pebblePair c d i j i = d i * (1 + c * e) ∧ pebblePair c d i j j = d j * (1 - c * e)) ∧
      (i = j → pebblePair c d i j i = d i * (1 + c * e) * (1 - c * e)) ∧ (d i / d j ≤ max 1 (round (d i / d j) : ℝ) → 0 < e) := by
  have h1 : 1 ≤ d i / d j := by rw [le_div_iff₀ (hd j)]; linarith
  have hg := abs_le.1 (pebble_goal h1)
  unfold pebblePair
  rw [if_neg (not_lt.2 hij)]
  simp only
  split_ifs with hneg
  · refine ⟨-(0.1 + d i / d j - max 1 (round (d i / d j) : ℝ)), ?_, ?_, fun k hi hj => ?_, fun hne => ⟨?_, ?_⟩, fun he => ?_, fun hp => by linarith⟩
    · rw [abs_neg, abs_of_pos (by linarith)]; linarith
    · rw [abs_neg, abs_of_pos (by linarith)]; linarith
    · rw [Function.update_of_ne hj, Function.update_of_ne hi]
    · rw [Function.update_of_ne hne, Function.update_self]; ring
    · rw [Function.update_self, Function.update_of_ne hne.symm]; ring
    · subst he
      rw [Function.update_self, Function.update_self]; ring
  · refine ⟨0.1 + max 1 (round (d i / d j) : ℝ) - d i / d j, ?_, ?_, fun k hi hj => ?_, fun hne => ⟨?_, ?_⟩, fun he => ?_, fun hp => by linarith⟩
    · rw [abs_of_pos (by linarith)]; linarith
    · rw [abs_of_pos (by linarith)]; linarith
    · rw [Function.update_of_ne hj, Function.update_of_ne hi]
    · rw [Function.update_of_ne hne, Function.update_self]; ring
    · rw [Function.update_self, Function.update_of_ne hne.symm]; ring
    · subst he
      rw [Function.update_self, Function.update_self]; ring

/-- **C100, pebbles.** What the update does to a pair of partials, the higher at `f` and the lower at `g`: it moves their ratio towards the nearest integer `m`. Both move by the same
fraction `c * (0.1 + distance)`, in opposite directions, the lower one down if the ratio is to grow, and the other partials stay. -/
theorem C100_pebbles_pull {c : ℝ} (hc0 : 0 < c) (hc : c * 0.6 < 1) (d : Nat → ℝ) (hd : ∀ i, 0 < d i) (i j : Nat) (hne : i ≠ j) (hij : d j ≤ d i) :
    ∃ (m : ℤ) (e : ℝ), 1 ≤ m ∧ |d i / d j - m| ≤ 1 / 2 ∧ |e| = 0.1 + |d i / d j - m| ∧
      pebblePair c d i j i = d i * (1 + c * e) ∧ pebblePair c d i j j = d j * (1 - c * e) ∧ (∀ k, k ≠ i → k ≠ j → pebblePair c d i j k = d k) ∧
      (d i / d j ≤ m → d i / d j < pebblePair c d i j i / pebblePair c d i j j) ∧
      (m < d i / d j → pebblePair c d i j i / pebblePair c d i j j < d i / d j) := by
  have h1 : 1 ≤ d i / d j := by rw [le_div_iff₀ (hd j)]; linarith
  have hm : (1 : ℤ) ≤ round (d i / d j) := by
    rw [round_eq]
    exact Int.le_floor.2 (by push_cast; linarith)
  have hmax : max 1 (round (d i / d j) : ℝ) = (round (d i / d j) : ℝ) := max_eq_right (by exact_mod_cast hm)
  have hg := abs_sub_round (d i / d j)
  have hg' := abs_le.1 hg
  have key : ∃ e : ℝ, |e| = 0.1 + |d i / d j - round (d i / d j)| ∧ pebblePair c d i j i = d i * (1 + c * e) ∧ pebblePair c d i j j = d j * (1 - c * e) ∧
      (∀ k, k ≠ i → k ≠ j → pebblePair c d i j k = d k) ∧ (d i / d j ≤ round (d i / d j) → 0 < e) ∧ ((round (d i / d j) : ℝ) < d i / d j → e < 0) := by
    unfold pebblePair
    rw [if_neg (not_lt.2 hij)]
    simp only [hmax]
    split_ifs with hneg
    · refine ⟨-(0.1 + d i / d j - round (d i / d j)), ?_, ?_, ?_, fun k hi hj => ?_, fun h => by linarith, fun h => by linarith⟩
      · rw [abs_neg, abs_of_pos (by linarith), abs_of_pos (by linarith)]; ring
      · rw [Function.update_of_ne hne, Function.update_self]; ring
      · rw [Function.update_self, Function.update_of_ne hne.symm]; ring
      · rw [Function.update_of_ne hj, Function.update_of_ne hi]
    · refine ⟨0.1 + round (d i / d j) - d i / d j, ?_, ?_, ?_, fun k hi hj => ?_, fun h => by linarith, fun h => by linarith⟩
      · rw [abs_of_pos (by linarith), abs_of_nonpos (by linarith)]; ring
      · rw [Function.update_of_ne hne, Function.update_self]; ring
      · rw [Function.update_self, Function.update_of_ne hne.symm]; ring
      · rw [Function.update_of_ne hj, Function.update_of_ne hi]
  obtain ⟨e, e1, e2, e3, e4, e5, e6⟩ := key
  have he := abs_le.1 (show |e| ≤ 0.6 by rw [e1]; linarith)
  have p1 : 0 < 1 + c * e := by nlinarith
  have p2 : 0 < 1 - c * e := by nlinarith
  have hi := hd i
  have hj := hd j
  refine ⟨round (d i / d j), e, hm, hg, e1, e2, e3, e4, fun h => ?_, fun h => ?_⟩
  · have := mul_pos hc0 (e5 h)
    rw [e2, e3, div_lt_div_iff₀ hj (mul_pos hj p2)]
    have := mul_pos (mul_pos hi hj) this
    nlinarith
  · have := mul_pos hc0 (neg_pos.2 (e6 h))
    rw [e2, e3, div_lt_div_iff₀ (mul_pos hj p2) hj]
    have := mul_pos (mul_pos hi hj) this
    nlinarith

/-- Two partials at 210 and 100 Hz: the ratio 2.1 falls. -/
example : pebblePair 0.01 (fun i => if i = 0 then 210 else 100) 0 1 0 = 209.58 ∧ pebblePair 0.01 (fun i => if i = 0 then 210 else 100) 0 1 1 = 100.2 := by
  unfold pebblePair
  norm_num

theorem pebblePair_pos {c : ℝ} (hc0 : 0 ≤ c) (hc : c * 0.6 < 1) (d : Nat → ℝ) (hd : ∀ i, 0 < d i) (i j : Nat) : ∀ k, 0 < pebblePair c d i j k := by
  intro k
  rcases lt_or_ge (d i) (d j) with h | h
  · unfold pebblePair; rw [if_pos h]; exact hd k
  · obtain ⟨e, -, he, h1, h2, h3, -⟩ := pebblePair_eq (c := c) d hd i j h
    have he := abs_le.1 he
    have p1 : 0 < 1 + c * e := by nlinarith
    have p2 : 0 < 1 - c * e := by nlinarith
    by_cases hi : k = i
    · subst hi
      by_cases hj : k = j
      · rw [h3 hj]; exact mul_pos (mul_pos (hd _) p1) p2
      · rw [(h2 hj).1]; exact mul_pos (hd _) p1
    · by_cases hj : k = j
      · subst hj; rw [(h2 (Ne.symm hi)).2]; exact mul_pos (hd _) p2
      · rw [h1 k hi hj]; exact hd k

theorem foldl_keeps {A B : Type} (P : A → Prop) (f : A → B → A) (hf : ∀ a b, P a → P (f a b)) : ∀ (l : List B) a, P a → P (l.foldl f a)
  | [], _, h => h
  | b :: l, a, h => foldl_keeps P f hf l (f a b) (hf a b h)

theorem pebbles_first (n : Nat) (c : Nat → ℝ) (d0 : Nat → ℝ) (k : Nat) : (pebbles n c d0 k).1 0 = 110 := by
  have h : ∀ c d, (pebbleUpdate n c d).1 0 = 110 := fun c d => by simp [pebbleUpdate]
  cases k <;> exact h _ _

/-- **C100, pebbles.** As long as the rate of motion is moderate, `c * 0.6 < 1` with `c = dt * speed * 0.001`, which is a speed below 160000 at the usual time of 10 ms between updates, every frequency ever
written to an oscillator is positive, and the first one is always 110 Hz. -/
theorem C100_pebbles_partial (n : Nat) (c : Nat → ℝ) (hc0 : ∀ k, 0 ≤ c k) (hc : ∀ k, c k * 0.6 < 1) (d0 : Nat → ℝ) (hd : ∀ i, 0 < d0 i) (k : Nat) :
    (pebbles n c d0 k).1 0 = 110 ∧ ∀ i, 0 < (pebbles n c d0 k).1 i := by
  have step : ∀ c d, 0 ≤ c → c * 0.6 < 1 → (∀ i, 0 < d i) → (∀ i, 0 < (pebbleUpdate n c d).1 i) ∧ ∀ i, 0 < (pebbleUpdate n c d).2 i := by
    intro c d h0 h1 hd
    have hw : ∀ i, 0 < Function.update d 0 110 i := by
      intro i
      by_cases h : i = 0
      · subst h; simp
      · rw [Function.update_of_ne h]; exact hd i
    refine ⟨hw, ?_⟩
    refine foldl_keeps (fun d : Nat → ℝ => ∀ i, 0 < d i) _ (fun d i hd => ?_) _ _ hw
    exact foldl_keeps (fun d : Nat → ℝ => ∀ i, 0 < d i) _ (fun d j hd => pebblePair_pos h0 h1 d hd i j) _ _ hd
  have all : ∀ k, (∀ i, 0 < (pebbles n c d0 k).1 i) ∧ ∀ i, 0 < (pebbles n c d0 k).2 i := by
    intro k
    induction k with
    | zero => exact step _ _ (hc0 0) (hc 0) hd
    | succ k ih => exact step _ _ (hc0 _) (hc _) ih.2
  refine ⟨?_, (all k).1⟩
  exact pebbles_first n c d0 k

example : (pebbles 100 (fun _ => 0.00001) (fun i => 50 + i) 1000).1 0 = 110 :=
  (C100_pebbles_partial 100 _ (fun _ => by norm_num) (fun _ => by norm_num) _ (fun i => by positivity) 1000).1

/-- **C100, pebbles.** The first update, made at time zero, writes the initial frequencies, apart from the first one. -/
theorem C100_pebbles_start (n : Nat) (c : Nat → ℝ) (d0 : Nat → ℝ) (i : Nat) (hi : i ≠ 0) : (pebbles n c d0 0).1 i = d0 i := Function.update_of_ne hi ..

/-- The frequencies after `k` pairs in the example below: all within `q^k` of the initial ones, and the product of all but the first below `P`. -/
def Drift (n : Nat) (q P : ℝ) (k : Nat) (d : Nat → ℝ) : Prop :=
  (∀ i, 1 ≤ i → 60 * q ^ k ≤ d i ∧ d i * q ^ k ≤ 60) ∧ (110 * q ^ k ≤ d 0 ∧ d 0 * q ^ k ≤ 110) ∧ ∏ i ∈ Finset.Ico 1 n, d i ≤ P

theorem pebble_factors {c : ℝ} (hc0 : 0 ≤ c) (hc : c ≤ 1) (d : Nat → ℝ) (hd : ∀ i, 0 < d i) (i j : Nat) :
    ∃ f : Nat → ℝ, (∀ m, pebblePair c d i j m = d m * f m) ∧ (∀ m, 1 - 0.6 * c ≤ f m ∧ f m * (1 - 0.6 * c) ≤ 1) ∧
      (∀ m, m ≠ i → m ≠ j → f m = 1) ∧ (i = j → f i ≤ 1) ∧ (i ≠ j → f i * f j ≤ 1) ∧ (d i < d j → ∀ m, f m = 1) ∧
      (0 < c → i ≠ j → d j ≤ d i → d i / d j ≤ max 1 (round (d i / d j) : ℝ) → f j < 1) := by
  rcases lt_or_ge (d i) (d j) with h | h
  · refine ⟨fun _ => 1, fun m => ?_, fun m => ⟨by linarith, by linarith⟩, fun _ _ _ => rfl, fun _ => le_rfl, fun _ => by norm_num, fun _ _ => rfl, fun _ _ h' => absurd h (not_lt.2 h')⟩
    unfold pebblePair; rw [if_pos h, mul_one]
  · obtain ⟨e, he0, he, h1, h2, h3, h4⟩ := pebblePair_eq (c := c) d hd i j h
    have he' := abs_le.1 he
    have hce : |c * e| ≤ 0.6 * c := by rw [abs_mul, abs_of_nonneg hc0]; nlinarith
    have hce' := abs_le.1 hce
    by_cases hij : i = j
    · subst hij
      refine ⟨fun m => if m = i then (1 + c * e) * (1 - c * e) else 1, fun m => ?_, fun m => ?_, fun m hm _ => if_neg hm, fun _ => ?_, fun hn => absurd rfl hn, fun hn => absurd hn (lt_irrefl _), fun _ hn => absurd rfl hn⟩
      · by_cases hm : m = i
        · subst hm; dsimp only; rw [h3 rfl, if_pos rfl]; ring
        · dsimp only; rw [h1 m hm hm, if_neg hm, mul_one]
      · dsimp only
        split_ifs
        · constructor <;> nlinarith [sq_nonneg (c * e)]
        · constructor <;> linarith
      · simp only [if_true]; nlinarith [sq_nonneg (c * e)]
    · refine ⟨fun m => if m = i then 1 + c * e else if m = j then 1 - c * e else 1, fun m => ?_, fun m => ?_, fun m hm hm' => ?_, fun hn => absurd hn hij, fun _ => ?_,
        fun hn => absurd hn (not_lt.2 h), fun hc _ _ hr => ?_⟩
      · by_cases hm : m = i
        · subst hm; dsimp only; rw [(h2 hij).1, if_pos rfl]
        · by_cases hm' : m = j
          · subst hm'; dsimp only; rw [(h2 hij).2, if_neg hm, if_pos rfl]
          · dsimp only; rw [h1 m hm hm', if_neg hm, if_neg hm', mul_one]
      · dsimp only
        split_ifs
        · constructor <;> nlinarith
        · constructor <;> nlinarith
        · constructor <;> linarith
      · dsimp only; rw [if_neg hm, if_neg hm']
      · dsimp only; rw [if_pos rfl, if_neg (Ne.symm hij), if_pos rfl]; nlinarith [sq_nonneg (c * e)]
      · dsimp only; rw [if_neg (Ne.symm hij), if_pos rfl]
        have := mul_pos hc (h4 hr)
        linarith

theorem drift_step {n N : Nat} {c : ℝ} (hc0 : 0 < c) (hcN : 1.2 * c * N ≤ 0.05) {k : Nat} (hk : k < N) {P : ℝ} {d : Nat → ℝ} (h : Drift n (1 - 0.6 * c) P k d) (i j : Nat) (hi : i < n) (hj : j < n) :
    Drift n (1 - 0.6 * c) P (k + 1) (pebblePair c d i j) ∧
      (i = 0 → 1 ≤ j → ∏ m ∈ Finset.Ico 1 n, pebblePair c d i j m < ∏ m ∈ Finset.Ico 1 n, d m) := by
  obtain ⟨q, hq⟩ : ∃ q, q = 1 - 0.6 * c := ⟨_, rfl⟩
  have hN : (1 : ℝ) ≤ N := by exact_mod_cast (by omega : 1 ≤ N)
  have hc1 : c ≤ 0.05 := by nlinarith
  have hq0 : 0 < q := by rw [hq]; linarith
  have hq1 : q ≤ 1 := by rw [hq]; linarith
  have hqk : 0.97 ≤ q ^ k := by
    have h1 := one_add_mul_le_pow (a := q - 1) (by rw [hq]; linarith) k
    have e : 1 + (q - 1) = q := by ring
    rw [e] at h1
    have hkN : (k : ℝ) ≤ N := by exact_mod_cast hk.le
    have : (k : ℝ) * (q - 1) = -(0.6 * c * k) := by rw [hq]; ring
    rw [this] at h1
    nlinarith
  have hqk1 : q ^ k ≤ 1 := pow_le_one₀ hq0.le hq1
  rw [← hq] at h ⊢
  obtain ⟨hA, hB, hP⟩ := h
  have hpos : ∀ m, 0 < d m := by
    intro m
    rcases Nat.eq_zero_or_pos m with h | h
    · rw [h]; linarith [hB.1]
    · linarith [(hA m h).1]
  have hlow : ∀ m, 1 ≤ m → 58 ≤ d m ∧ d m ≤ 62 := fun m hm => ⟨by linarith [(hA m hm).1], by nlinarith [(hA m hm).2, hpos m]⟩
  have hhigh : 106 ≤ d 0 ∧ d 0 ≤ 113.5 := ⟨by linarith [hB.1], by nlinarith [hB.2, hpos 0]⟩
  obtain ⟨f, f1, f2, f3, f4, f5, f6, f7⟩ := pebble_factors hc0.le (by linarith) d hpos i j
  rw [← hq] at f2
  have fpos : ∀ m, 0 < f m := fun m => lt_of_lt_of_le hq0 (f2 m).1
  have hD : 0 < ∏ m ∈ Finset.Ico 1 n, d m := Finset.prod_pos fun m _ => hpos m
  have hprod : ∏ m ∈ Finset.Ico 1 n, pebblePair c d i j m = (∏ m ∈ Finset.Ico 1 n, d m) * ∏ m ∈ Finset.Ico 1 n, f m := by
    rw [← Finset.prod_mul_distrib]
    exact Finset.prod_congr rfl fun m _ => f1 m
  have bound : ∀ m x, x * q ^ k ≤ d m → d m * q ^ k ≤ x → x * q ^ (k + 1) ≤ pebblePair c d i j m ∧ pebblePair c d i j m * q ^ (k + 1) ≤ x := by
    intro m x h1 h2
    rw [f1, pow_succ]
    constructor
    · calc x * (q ^ k * q) = (x * q ^ k) * q := by ring
        _ ≤ d m * q := mul_le_mul_of_nonneg_right h1 hq0.le
        _ ≤ d m * f m := mul_le_mul_of_nonneg_left (f2 m).1 (hpos m).le
    · calc d m * f m * (q ^ k * q) = (d m * q ^ k) * (f m * q) := by ring
        _ ≤ (d m * q ^ k) * 1 := mul_le_mul_of_nonneg_left (f2 m).2 (by have := hpos m; positivity)
        _ ≤ x := by linarith
  have hfall : i = 0 → 1 ≤ j → ∏ m ∈ Finset.Ico 1 n, f m < 1 := by
    rintro rfl hj1
    rw [Finset.prod_eq_single_of_mem j (Finset.mem_Ico.2 ⟨hj1, hj⟩) fun m hm hmj => f3 m (by have := (Finset.mem_Ico.1 hm).1; omega) hmj]
    have hl := hlow j hj1
    refine f7 hc0 (by omega) (by linarith) ?_
    have r1 : 1.6 < d 0 / d j := by rw [lt_div_iff₀ (hpos j)]; linarith
    have r2 : d 0 / d j < 2 := by rw [div_lt_iff₀ (hpos j)]; linarith
    have : round (d 0 / d j) = 2 := by
      rw [round_eq, Int.floor_eq_iff]
      constructor <;> push_cast <;> linarith
    rw [this]
    refine le_trans r2.le (le_max_of_le_right (by norm_num))
  have hle : ∏ m ∈ Finset.Ico 1 n, f m ≤ 1 := by
    rcases Nat.eq_zero_or_pos i with hi0 | hi0
    · rcases Nat.eq_zero_or_pos j with hj0 | hj0
      · refine le_of_eq (Finset.prod_eq_one fun m hm => f3 m ?_ ?_) <;> have := (Finset.mem_Ico.1 hm).1 <;> omega
      · exact (hfall hi0 hj0).le
    · rcases Nat.eq_zero_or_pos j with hj0 | hj0
      · have := (hlow i hi0).2
        refine le_of_eq (Finset.prod_eq_one fun m _ => f6 ?_ m)
        rw [hj0]; linarith
      · by_cases hij : i = j
        · subst hij
          rw [Finset.prod_eq_single_of_mem i (Finset.mem_Ico.2 ⟨hi0, hi⟩) fun m hm hmj => f3 m hmj hmj]
          exact f4 rfl
        · rw [Finset.prod_eq_mul_of_mem i j (Finset.mem_Ico.2 ⟨hi0, hi⟩) (Finset.mem_Ico.2 ⟨hj0, hj⟩) hij fun m hm hmj => f3 m hmj.1 hmj.2]
          exact f5 hij
  refine ⟨⟨fun m hm => bound m 60 (hA m hm).1 (hA m hm).2, bound 0 110 hB.1 hB.2, ?_⟩, fun h0 h1 => ?_⟩
  · rw [hprod]
    nlinarith
  · rw [hprod]
    have := hfall h0 h1
    nlinarith

theorem drift_fold {n N : Nat} {c : ℝ} (hc0 : 0 < c) (hcN : 1.2 * c * N ≤ 0.05) {P : ℝ} : ∀ (l : List (Nat × Nat)) (k : Nat) (d : Nat → ℝ), k + l.length ≤ N →
    (∀ p ∈ l, p.1 < n ∧ p.2 < n) → Drift n (1 - 0.6 * c) P k d → Drift n (1 - 0.6 * c) P (k + l.length) (l.foldl (fun d p => pebblePair c d p.1 p.2) d)
  | [], _, _, _, _, h => h
  | p :: l, k, d, hN, hl, h => by
    have h1 := (drift_step hc0 hcN (by simp at hN; omega) h p.1 p.2 (hl p (by simp)).1 (hl p (by simp)).2).1
    have := drift_fold hc0 hcN l (k + 1) _ (by simp at hN; omega) (fun p hp => hl p (by simp [hp])) h1
    simp only [List.length_cons, List.foldl_cons]
    rw [show k + (l.length + 1) = k + 1 + l.length by omega]
    exact this

theorem gravity_pairs (n : Nat) (c : ℝ) (d : Nat → ℝ) :
    gravity n c d = ((List.range n).flatMap fun i => (List.range n).map fun j => (i, j)).foldl (fun d p => pebblePair c d p.1 p.2) d := by
  unfold gravity
  rw [List.foldl_flatMap]
  congr 1
  funext d i
  rw [List.foldl_map]

theorem gravity_zero (n : Nat) (d : Nat → ℝ) (hd : ∀ i, 0 < d i) : gravity n 0 d = d := by
  have h : ∀ i j, pebblePair 0 d i j = d := by
    intro i j
    obtain ⟨f, f1, f2, -⟩ := pebble_factors (c := 0) le_rfl (by norm_num) d hd i j
    funext m
    have e : f m = 1 := le_antisymm (by simpa using (f2 m).2) (by simpa using (f2 m).1)
    rw [f1, e, mul_one]
  rw [gravity_pairs]
  exact foldl_keeps (fun d' : Nat → ℝ => d' = d) _ (fun a b ha => by rw [ha]; exact h _ _) _ _ rfl

/-- Partials at 60 Hz move. -/
theorem pebbles_move (m : Nat) (c : Nat → ℝ) (hc0 : c 0 = 0) (hc1 : 0 < c 1) (hc : 1.2 * c 1 * ((m + 2) * (m + 2) : Nat) ≤ 0.05) :
    (pebbles (m + 2) c (fun _ => 60) 2).1 ≠ (pebbles (m + 2) c (fun _ => 60) 0).1 := by
  obtain ⟨w, hw⟩ : ∃ w : Nat → ℝ, w = Function.update (fun _ => 60) 0 110 := ⟨_, rfl⟩
  have w0 : w 0 = 110 := by rw [hw]; simp
  have w1 : ∀ i, 1 ≤ i → w i = 60 := fun i hi => by rw [hw]; exact Function.update_of_ne (by omega) _ _
  have wpos : ∀ i, 0 < w i := by
    intro i
    rcases Nat.eq_zero_or_pos i with h | h
    · rw [h, w0]; norm_num
    · rw [w1 i h]; norm_num
  have e0 : pebbles (m + 2) c (fun _ => 60) 0 = (w, w) := by
    show (Function.update _ _ _, gravity _ _ _) = _
    rw [hc0, ← hw, gravity_zero _ _ wpos]
  have e1 : pebbles (m + 2) c (fun _ => 60) 1 = (w, gravity (m + 2) (c 1) w) := by
    show pebbleUpdate (m + 2) (c 1) (pebbles (m + 2) c (fun _ => 60) 0).2 = _
    rw [e0]
    show (Function.update w 0 110, gravity _ _ (Function.update w 0 110)) = _
    rw [Function.update_eq_self_iff.2 w0.symm]
  have e2 : (pebbles (m + 2) c (fun _ => 60) 2).1 = Function.update (gravity (m + 2) (c 1) w) 0 110 := by
    show (pebbleUpdate (m + 2) (c 2) (pebbles (m + 2) c (fun _ => 60) 1).2).1 = _
    rw [e1]; rfl
  rw [e2, e0]
  intro heq
  obtain ⟨l, hl⟩ : ∃ l, ((List.range (m + 2)).flatMap fun i => (List.range (m + 2)).map fun j => (i, j)) = (0, 0) :: (0, 1) :: l := by
    rw [show List.range (m + 2) = 0 :: 1 :: ((List.range m).map Nat.succ).map Nat.succ by
      rw [List.range_succ_eq_map, List.range_succ_eq_map]; rfl]
    exact ⟨_, rfl⟩
  have hlen : (((List.range (m + 2)).flatMap fun i => (List.range (m + 2)).map fun j => (i, j))).length = (m + 2) * (m + 2) := by
    simp [List.length_flatMap]
  have hmem : ∀ p ∈ ((List.range (m + 2)).flatMap fun i => (List.range (m + 2)).map fun j => (i, j)), p.1 < m + 2 ∧ p.2 < m + 2 := by
    intro p hp
    simp only [List.mem_flatMap, List.mem_map, List.mem_range] at hp
    obtain ⟨i, hi, j, hj, rfl⟩ := hp
    exact ⟨hi, hj⟩
  rw [hl] at hlen hmem
  simp only [List.length_cons] at hlen
  have d0 : Drift (m + 2) (1 - 0.6 * c 1) (∏ i ∈ Finset.Ico 1 (m + 2), w i) 0 w := by
    refine ⟨fun i hi => ?_, ?_, le_rfl⟩
    · rw [w1 i hi]; constructor <;> simp
    · rw [w0]; constructor <;> simp
  have s1 := (drift_step hc1 hc (by omega) d0 0 0 (by omega) (by omega)).1
  have s2 := drift_step hc1 hc (by omega) s1 0 1 (by omega) (by omega)
  have lt := lt_of_lt_of_le (s2.2 rfl le_rfl) s1.2.2
  have s3 : Drift (m + 2) (1 - 0.6 * c 1) _ (0 + 1 + 1) (pebblePair (c 1) (pebblePair (c 1) w 0 0) 0 1) := ⟨s2.1.1, s2.1.2.1, le_rfl⟩
  have s4 := (drift_fold hc1 hc l (0 + 1 + 1) _ (by omega) (fun p hp => hmem p (by simp [hp])) s3).2.2
  have hg : gravity (m + 2) (c 1) w = l.foldl (fun d p => pebblePair (c 1) d p.1 p.2) (pebblePair (c 1) (pebblePair (c 1) w 0 0) 0 1) := by
    rw [gravity_pairs, hl]; rfl
  rw [← hg] at s4
  have hsame : ∏ i ∈ Finset.Ico 1 (m + 2), gravity (m + 2) (c 1) w i = ∏ i ∈ Finset.Ico 1 (m + 2), w i := by
    refine Finset.prod_congr rfl fun i hi => ?_
    have := congrFun heq i
    rwa [Function.update_of_ne (by have := (Finset.mem_Ico.1 hi).1; omega)] at this
  linarith

/-- **C100, what is missing.** Resetting does not start over: the frequencies of the constants are kept, so the sound continues with the frequencies last written, and reset has the effect of
starting anew only if no partial has moved. They do move: for all partials at 60 Hz, say, at any speed up to 0.4 (with the usual 10 ms between updates), resetting after the third
update yields different frequencies than at first. -/
theorem C100_violation_pebbles_reset (c c' : Nat → ℝ) :
    (∀ n d0 k, (pebblesReset n c d0 k c' 0).1 = (pebbles n c d0 k).1) ∧
    (c 0 = 0 → 0 < c 1 → c 1 ≤ 0.000004 → (pebblesReset 100 c (fun _ => 60) 2 c' 0).1 ≠ (pebbles 100 c (fun _ => 60) 0).1) := by
  have h : ∀ n d0 k, (pebblesReset n c d0 k c' 0).1 = (pebbles n c d0 k).1 := by
    intro n d0 k
    show Function.update (pebbles n c d0 k).1 0 110 = _
    refine Function.update_eq_self_iff.2 ?_
    exact (pebbles_first n c d0 k).symm
  refine ⟨h, fun h0 h1 h2 => ?_⟩
  rw [h]
  exact pebbles_move 98 c h0 h1 (by push_cast; linarith)

example : ∃ c : Nat → ℝ, c 0 = 0 ∧ 0 < c 1 ∧ c 1 ≤ 0.000004 := ⟨fun k => if k = 0 then 0 else 0.000001, by norm_num⟩

end Fundsp.Sound
