import Verif.Osc.Model
import Mathlib.Tactic.Linarith
import Mathlib.Tactic.Positivity
import Mathlib.Tactic.FieldSimp
import Mathlib.Tactic.LinearCombination
import Mathlib.Algebra.Order.Floor.Ring
import Mathlib.Algebra.BigOperators.Group.Finset.Basic
import Mathlib.Analysis.SpecialFunctions.Pow.Real
import Mathlib.Algebra.Order.BigOperators.Group.Finset
import Mathlib.Topology.Algebra.Order.Floor

/-! # Oscillators: properties C52 and C53 -/

noncomputable section
namespace Fundsp.Osc

/-! ## C52: phase -/

/-- Accumulated phase: the initial phase plus the sum of the frequencies divided by the sample rate, modulo one. -/
def phaseSpec (phase dt : ℝ) (freq : Nat → ℝ) (k : Nat) : ℝ := Int.fract (phase + ∑ j ∈ Finset.range k, freq j * dt)

theorem advance_phase (s : OscSt) (d : ℝ) : (s.advance d).phase = Int.fract (s.phase + d) := rfl

/-- The four oscillators advance alike. -/
def Advances {i : Nat} (n : Node ℝ i 1) (toSt : n.σ → OscSt) (freq : Frame ℝ i → ℝ) : Prop :=
  ∀ s x, toSt (n.tick s x).1 = (toSt s).advance (freq x * (toSt s).sampleDuration)

theorem advances_st {i : Nat} {n : Node ℝ i 1} {toSt : n.σ → OscSt} {freq : Frame ℝ i → ℝ} (h : Advances n toSt freq) (s : n.σ) (w : Nat → Frame ℝ i) (k : Nat) :
    (toSt (n.ticks.st s w k)).sampleDuration = (toSt s).sampleDuration ∧
    (k ≠ 0 ∨ (0 ≤ (toSt s).phase ∧ (toSt s).phase < 1) →
      (toSt (n.ticks.st s w k)).phase = phaseSpec (toSt s).phase (toSt s).sampleDuration (fun j => freq (w j)) k) := by
  have key : ∀ k, (toSt (n.ticks.st s w k)).sampleDuration = (toSt s).sampleDuration ∧
      Int.fract (toSt (n.ticks.st s w k)).phase = phaseSpec (toSt s).phase (toSt s).sampleDuration (fun j => freq (w j)) k := by
    intro k
    induction k with
    | zero => exact ⟨rfl, by unfold phaseSpec; simp [Mealy.st]⟩
    | succ k ih =>
      obtain ⟨h1, h2⟩ := ih
      have hs : toSt (n.ticks.st s w (k + 1)) = (toSt (n.ticks.st s w k)).advance (freq (w k) * (toSt (n.ticks.st s w k)).sampleDuration) :=
        h (n.ticks.st s w k) (w k)
      rw [hs, h1]
      refine ⟨h1, ?_⟩
      rw [advance_phase, Int.fract_fract]
      unfold phaseSpec at h2 ⊢
      rw [Finset.sum_range_succ, ← add_assoc, Int.fract_eq_fract]
      obtain ⟨z, hz⟩ := Int.fract_eq_fract.1 h2
      exact ⟨z, by linarith⟩
  obtain ⟨h1, h2⟩ := key k
  refine ⟨h1, fun hk => ?_⟩
  rw [← h2]
  cases k with
  | zero =>
    rcases hk with hk | hk
    · exact absurd rfl hk
    · exact (Int.fract_eq_self.2 hk).symm
  | succ k =>
    have hs : toSt (n.ticks.st s w (k + 1)) = (toSt (n.ticks.st s w k)).advance (freq (w k) * (toSt (n.ticks.st s w k)).sampleDuration) :=
      h (n.ticks.st s w k) (w k)
    rw [hs, advance_phase, Int.fract_fract]

theorem ramp_advances (rnd : BitVec 64 → ℝ) : Advances (ramp rnd) id (fun x => x 0) := fun _ _ => rfl
theorem saw_advances (rnd : BitVec 64 → ℝ) : Advances (polySaw rnd) id (fun x => x 0) := fun _ _ => rfl
theorem square_advances (rnd : BitVec 64 → ℝ) : Advances (polySquare rnd) id (fun x => x 0) := fun _ _ => rfl
theorem pulse_advances (rnd : BitVec 64 → ℝ) : Advances (polyPulse rnd) id (fun x => x 0) := fun _ _ => rfl
theorem sine_advances (rnd : BitVec 64 → ℝ) : Advances (sine rnd) id (fun x => x 0) := fun _ _ => rfl

theorem phaseSpec_range (p dt : ℝ) (f : Nat → ℝ) (k : Nat) : 0 ≤ phaseSpec p dt f k ∧ phaseSpec p dt f k < 1 :=
  ⟨Int.fract_nonneg _, Int.fract_lt_one _⟩

/-- **C52, ramp.** From a phase in `[0, 1)` the ramp outputs the accumulated frequency modulo one, which stays in `[0, 1)`, for every frequency signal. -/
theorem C52_ramp (rnd : BitVec 64 → ℝ) (s : OscSt) (h0 : 0 ≤ s.phase) (h1 : s.phase < 1) (w : Nat → Frame ℝ 1) (k : Nat) :
    (ramp rnd).ticks.out s w k 0 = phaseSpec s.phase s.sampleDuration (fun j => w j 0) k ∧
    0 ≤ (ramp rnd).ticks.out s w k 0 ∧ (ramp rnd).ticks.out s w k 0 < 1 := by
  have h : (ramp rnd).ticks.out s w k 0 = phaseSpec s.phase s.sampleDuration (fun j => w j 0) k :=
    (advances_st (ramp_advances rnd) s w k).2 (Or.inr ⟨h0, h1⟩)
  rw [h]
  exact ⟨rfl, phaseSpec_range _ _ _ _⟩

/-- **C52, phase.** From a phase in `[0, 1)` all the polynomial oscillators keep the phase in `[0, 1)`, for every frequency signal. From any other phase they do from
the first sample on. -/
theorem C52_phase (rnd : BitVec 64 → ℝ) (s : OscSt) (w : Nat → Frame ℝ 1) (u : Nat → Frame ℝ 2) (k : Nat)
    (h : k ≠ 0 ∨ (0 ≤ s.phase ∧ s.phase < 1)) :
    (((polySaw rnd).ticks.st s w k : OscSt).phase = phaseSpec s.phase s.sampleDuration (fun j => w j 0) k) ∧
    (((polySquare rnd).ticks.st s w k : OscSt).phase = phaseSpec s.phase s.sampleDuration (fun j => w j 0) k) ∧
    (((polyPulse rnd).ticks.st s u k : OscSt).phase = phaseSpec s.phase s.sampleDuration (fun j => u j 0) k) ∧
    (((ramp rnd).ticks.st s w k : OscSt).phase = phaseSpec s.phase s.sampleDuration (fun j => w j 0) k) ∧
    ∀ f : Nat → ℝ, 0 ≤ phaseSpec s.phase s.sampleDuration f k ∧ phaseSpec s.phase s.sampleDuration f k < 1 :=
  ⟨(advances_st (saw_advances rnd) s w k).2 h, (advances_st (square_advances rnd) s w k).2 h, (advances_st (pulse_advances rnd) s u k).2 h,
    (advances_st (ramp_advances rnd) s w k).2 h, fun f => phaseSpec_range _ _ f k⟩

/-- **C52, construction.** A new oscillator starts at the pseudorandom phase of its hash, one made with a phase at that phase; a reset or a new
hash returns to the given phase, if there is one, and otherwise to the phase of the hash. With the initial phases in the documented range,
the phase is in `[0, 1)`. -/
theorem C52_initial (rnd : BitVec 64 → ℝ) :
    (OscSt.new rnd).phase = rnd 0 ∧ (∀ p, (OscSt.withPhase rnd p).phase = p) ∧
    (∀ s : OscSt, ∀ p, s.initialPhase = some p → (s.reset rnd).phase = p ∧ ∀ h, (s.setHash rnd h).phase = p) ∧
    (∀ s : OscSt, s.initialPhase = none → (s.reset rnd).phase = rnd s.hash ∧ ∀ h, (s.setHash rnd h).phase = rnd h) ∧
    ((∀ h, 0 ≤ rnd h ∧ rnd h < 1) →
      (∀ s : OscSt, (∀ p, s.initialPhase = some p → 0 ≤ p ∧ p < 1) → 0 ≤ (s.reset rnd).phase ∧ (s.reset rnd).phase < 1)) := by
  refine ⟨rfl, fun p => rfl, fun s p h => ?_, fun s h => ?_, fun hr s hs => ?_⟩
  · simp only [OscSt.reset, OscSt.setHash, h, Option.getD_some]
    exact ⟨trivial, fun _ => trivial⟩
  · simp only [OscSt.reset, OscSt.setHash, h, Option.getD_none]
    exact ⟨trivial, fun _ => trivial⟩
  unfold OscSt.reset
  cases h : s.initialPhase with
  | none => exact hr _
  | some p => exact hs p h

/-! ## C52: range of the polynomial oscillators -/

/-- Size of the correction below the step. -/
theorem blep_low {t d : ℝ} (h : t < d) (h0 : 0 ≤ t) : polyblep t d = -(1 - t / d) ^ 2 ∧ 0 ≤ 1 - t / d ∧ 1 - t / d ≤ 1 := by
  have hd : 0 < d := by linarith
  refine ⟨by unfold polyblep; rw [if_pos h]; ring, ?_, ?_⟩
  · rw [sub_nonneg, div_le_one hd]; exact h.le
  · have := div_nonneg h0 hd.le; linarith

theorem blep_high {t d : ℝ} (h : ¬ t < d) (h' : t > 1 - d) (h1 : t < 1) :
    polyblep t d = (1 - (1 - t) / d) ^ 2 ∧ 0 ≤ 1 - (1 - t) / d ∧ 1 - (1 - t) / d ≤ 1 := by
  have hd : 0 < d := by linarith
  refine ⟨?_, ?_, ?_⟩
  · unfold polyblep; rw [if_neg h, if_pos h']; ring
  · rw [sub_nonneg, div_le_one hd]; linarith
  · have := div_nonneg (by linarith : 0 ≤ 1 - t) hd.le; linarith

theorem blep_mid {t d : ℝ} (h : ¬ t < d) (h' : ¬ t > 1 - d) : polyblep t d = 0 := by
  unfold polyblep; rw [if_neg h, if_neg h']

theorem saw_range {p d : ℝ} (h0 : 0 ≤ p) (h1 : p < 1) (hd : d ≤ 1 / 2) : -1 ≤ 2 * p - 1 - polyblep p d ∧ 2 * p - 1 - polyblep p d ≤ 1 := by
  by_cases h : p < d
  · obtain ⟨e, a, b⟩ := blep_low h h0
    have hdp : 0 < d := by linarith
    have hp : p / d * d = p := div_mul_cancel₀ p hdp.ne'
    rw [e]
    generalize p / d = z at *
    constructor
    · nlinarith
    · nlinarith
  · by_cases h' : p > 1 - d
    · obtain ⟨e, a, b⟩ := blep_high h h' h1
      have hdp : 0 < d := by linarith
      have hp : (1 - p) / d * d = 1 - p := div_mul_cancel₀ _ hdp.ne'
      rw [e]
      generalize (1 - p) / d = z at *
      constructor
      · nlinarith
      · nlinarith
    · rw [blep_mid h h']
      constructor <;> linarith

theorem pulse_range {p d w : ℝ} (h0 : 0 ≤ p) (h1 : p < 1) (hd : d ≤ 1 / 2) (hw0 : 0 ≤ w) (hw1 : w ≤ 1) :
    -1 ≤ pulseValue p d w ∧ pulseValue p d w ≤ 1 := by
  unfold pulseValue
  by_cases hpw : p < w
  · have hfl : ⌊p - w⌋ = -1 := by
      rw [Int.floor_eq_iff]; push_cast; constructor <;> linarith
    rw [if_pos hpw, hfl]
    push_cast
    have hq : p - w - -1 = p - w + 1 := by ring
    rw [hq]
    have hq0 : p ≤ p - w + 1 := by linarith
    have hq1 : p - w + 1 < 1 := by linarith
    generalize p - w + 1 = q at *
    by_cases h : p < d
    · obtain ⟨e, a, b⟩ := blep_low h h0
      have hdp : 0 < d := by linarith
      by_cases g : q < d
      · obtain ⟨e', a', b'⟩ := blep_low g (by linarith)
        have : p / d ≤ q / d := div_le_div_of_nonneg_right hq0 hdp.le
        rw [e, e']
        constructor <;> nlinarith
      · by_cases g' : q > 1 - d
        · obtain ⟨e', a', b'⟩ := blep_high g g' hq1
          rw [e, e']
          constructor <;> nlinarith
        · rw [e, blep_mid g g']
          constructor <;> nlinarith
    · have g : ¬ q < d := by intro g; linarith
      by_cases h' : p > 1 - d
      · obtain ⟨e, a, b⟩ := blep_high h h' h1
        have hdp : 0 < d := by linarith
        obtain ⟨e', a', b'⟩ := blep_high g (by linarith) hq1
        have : (1 - q) / d ≤ (1 - p) / d := div_le_div_of_nonneg_right (by linarith) hdp.le
        rw [e, e']
        constructor <;> nlinarith
      · rw [blep_mid h h']
        by_cases g' : q > 1 - d
        · obtain ⟨e', a', b'⟩ := blep_high g g' hq1
          rw [e']
          constructor <;> nlinarith
        · rw [blep_mid g g']
          constructor <;> linarith
  · have hfl : ⌊p - w⌋ = 0 := by
      rw [Int.floor_eq_iff]; push_cast; constructor <;> linarith
    rw [if_neg hpw, hfl]
    push_cast
    rw [sub_zero]
    have hq0 : 0 ≤ p - w := by linarith
    have hqp : p - w ≤ p := by linarith
    generalize p - w = q at *
    by_cases h : p < d
    · obtain ⟨e, a, b⟩ := blep_low h h0
      have hdp : 0 < d := by linarith
      obtain ⟨e', a', b'⟩ := blep_low (by linarith : q < d) hq0
      have : q / d ≤ p / d := div_le_div_of_nonneg_right hqp hdp.le
      rw [e, e']
      constructor <;> nlinarith
    · by_cases h' : p > 1 - d
      · obtain ⟨e, a, b⟩ := blep_high h h' h1
        have hdp : 0 < d := by linarith
        by_cases g : q < d
        · obtain ⟨e', a', b'⟩ := blep_low g hq0
          rw [e, e']
          constructor <;> nlinarith
        · by_cases g' : q > 1 - d
          · obtain ⟨e', a', b'⟩ := blep_high g g' (by linarith)
            have : (1 - p) / d ≤ (1 - q) / d := div_le_div_of_nonneg_right (by linarith) hdp.le
            rw [e, e']
            constructor <;> nlinarith
          · rw [e, blep_mid g g']
            constructor <;> nlinarith
      · rw [blep_mid h h']
        by_cases g : q < d
        · obtain ⟨e', a', b'⟩ := blep_low g hq0
          rw [e']
          constructor <;> nlinarith
        · rw [blep_mid g (by linarith)]
          constructor <;> linarith

/-- **C52, range.** From a phase in `[0, 1)`, and while the frequency is at most half the sample rate, saw, square and pulse samples lie in `[-1, 1]`; for the pulse
the width input must be in `[0, 1]`. The past frequencies are arbitrary. -/
theorem C52_range (rnd : BitVec 64 → ℝ) (s : OscSt) (h0 : 0 ≤ s.phase) (h1 : s.phase < 1) (w : Nat → Frame ℝ 1) (u : Nat → Frame ℝ 2) (k : Nat)
    (hw : w k 0 * s.sampleDuration ≤ 1 / 2) (hu : u k 0 * s.sampleDuration ≤ 1 / 2) (hu0 : 0 ≤ u k 1) (hu1 : u k 1 ≤ 1) :
    (-1 ≤ (polySaw rnd).ticks.out s w k 0 ∧ (polySaw rnd).ticks.out s w k 0 ≤ 1) ∧
    (-1 ≤ (polySquare rnd).ticks.out s w k 0 ∧ (polySquare rnd).ticks.out s w k 0 ≤ 1) ∧
    (-1 ≤ (polyPulse rnd).ticks.out s u k 0 ∧ (polyPulse rnd).ticks.out s u k 0 ≤ 1) := by
  have hr := Or.inr (a := k ≠ 0) (And.intro h0 h1)
  refine ⟨?_, ?_, ?_⟩
  · obtain ⟨a, b⟩ := advances_st (saw_advances rnd) s w k
    have b := b hr
    obtain ⟨c, d⟩ := phaseSpec_range s.phase s.sampleDuration (fun j => w j 0) k
    show -1 ≤ 2 * ((polySaw rnd).ticks.st s w k : OscSt).phase - 1 - polyblep ((polySaw rnd).ticks.st s w k : OscSt).phase (w k 0 * ((polySaw rnd).ticks.st s w k : OscSt).sampleDuration) ∧
      2 * ((polySaw rnd).ticks.st s w k : OscSt).phase - 1 - polyblep ((polySaw rnd).ticks.st s w k : OscSt).phase (w k 0 * ((polySaw rnd).ticks.st s w k : OscSt).sampleDuration) ≤ 1
    simp only [id] at a b
    rw [a, b]
    exact saw_range c d hw
  · obtain ⟨a, b⟩ := advances_st (square_advances rnd) s w k
    have b := b hr
    obtain ⟨c, d⟩ := phaseSpec_range s.phase s.sampleDuration (fun j => w j 0) k
    show -1 ≤ pulseValue ((polySquare rnd).ticks.st s w k : OscSt).phase (w k 0 * ((polySquare rnd).ticks.st s w k : OscSt).sampleDuration) (1 / 2) ∧
      pulseValue ((polySquare rnd).ticks.st s w k : OscSt).phase (w k 0 * ((polySquare rnd).ticks.st s w k : OscSt).sampleDuration) (1 / 2) ≤ 1
    simp only [id] at a b
    rw [a, b]
    exact pulse_range c d hw (by norm_num) (by norm_num)
  · obtain ⟨a, b⟩ := advances_st (pulse_advances rnd) s u k
    have b := b hr
    obtain ⟨c, d⟩ := phaseSpec_range s.phase s.sampleDuration (fun j => u j 0) k
    show -1 ≤ pulseValue ((polyPulse rnd).ticks.st s u k : OscSt).phase (u k 0 * ((polyPulse rnd).ticks.st s u k : OscSt).sampleDuration) (u k 1) ∧
      pulseValue ((polyPulse rnd).ticks.st s u k : OscSt).phase (u k 0 * ((polyPulse rnd).ticks.st s u k : OscSt).sampleDuration) (u k 1) ≤ 1
    simp only [id] at a b
    rw [a, b]
    exact pulse_range c d hu hu0 hu1

/-- **C52, width.** The width restriction is needed: with a width outside `[0, 1]` a pulse sample can leave `[-1, 1]`. -/
theorem C52_pulse_width_needed : ∃ p d w : ℝ, 0 ≤ p ∧ p < 1 ∧ 0 < d ∧ d ≤ 1 / 2 ∧ 1 < pulseValue p d w := by
  refine ⟨9 / 10, 1 / 2, 3 / 2, by norm_num, by norm_num, by norm_num, by norm_num, ?_⟩
  have hfl : ⌊(9 / 10 - 3 / 2 : ℝ)⌋ = -1 := by rw [Int.floor_eq_iff]; norm_num
  unfold pulseValue
  rw [hfl]
  norm_num [polyblep]

/-- The saw wave at phase `p` with its step rounded off over `d` on both sides: a quadratic correction on each side of the step. -/
def sawWave (p d : ℝ) : ℝ := 2 * p - 1 + max 0 (1 - p / d) ^ 2 - max 0 (1 - (1 - p) / d) ^ 2

theorem blep_closed {t d : ℝ} (hd0 : 0 < d) (hd : d ≤ 1 / 2) : polyblep t d = max 0 (1 - (1 - t) / d) ^ 2 - max 0 (1 - t / d) ^ 2 := by
  unfold polyblep
  by_cases h : t < d
  · have e1 : 1 - (1 - t) / d ≤ 0 := by rw [sub_nonpos, le_div_iff₀ hd0]; linarith
    have e2 : 0 ≤ 1 - t / d := by rw [sub_nonneg, div_le_one hd0]; linarith
    rw [if_pos h, max_eq_left e1, max_eq_right e2]; ring
  · have e2 : 1 - t / d ≤ 0 := by rw [sub_nonpos, le_div_iff₀ hd0]; linarith
    rw [if_neg h, max_eq_left e2]
    by_cases h' : t > 1 - d
    · have e1 : 0 ≤ 1 - (1 - t) / d := by rw [sub_nonneg, div_le_one hd0]; linarith
      rw [if_pos h', max_eq_right e1]; ring
    · have e1 : 1 - (1 - t) / d ≤ 0 := by rw [sub_nonpos, le_div_iff₀ hd0]; linarith
      rw [if_neg h', max_eq_left e1]; ring

theorem saw_closed {p d : ℝ} (hd0 : 0 < d) (hd : d ≤ 1 / 2) : 2 * p - 1 - polyblep p d = sawWave p d := by
  rw [blep_closed hd0 hd]; unfold sawWave; ring

theorem pulse_closed {p d w : ℝ} (h0 : 0 ≤ p) (h1 : p < 1) (hd0 : 0 < d) (hd : d ≤ 1 / 2) (hw0 : 0 ≤ w) (hw1 : w ≤ 1) :
    pulseValue p d w = sawWave (Int.fract (p - w)) d - sawWave p d + (2 * w - 1) := by
  unfold pulseValue
  rw [Int.self_sub_floor, blep_closed hd0 hd, blep_closed hd0 hd]
  unfold sawWave
  by_cases hpw : p < w
  · have hf : Int.fract (p - w) = p - w + 1 := by
      rw [Int.fract_eq_iff]
      exact ⟨by linarith, by linarith, -1, by push_cast; ring⟩
    rw [if_pos hpw, hf]; ring
  · have hf : Int.fract (p - w) = p - w := Int.fract_eq_self.2 ⟨by linarith, by linarith⟩
    rw [if_neg hpw, hf]; ring

/-- **C52, waves.** While the frequency is positive and at most half the sample rate, the saw oscillator outputs the rounded saw wave of the accumulated phase, and the
square and pulse oscillators the difference of two such saws, shifted by the pulse width. -/
theorem C52_wave (rnd : BitVec 64 → ℝ) (s : OscSt) (h0 : 0 ≤ s.phase) (h1 : s.phase < 1) (w : Nat → Frame ℝ 1) (u : Nat → Frame ℝ 2) (k : Nat)
    (hw0 : 0 < w k 0 * s.sampleDuration) (hw : w k 0 * s.sampleDuration ≤ 1 / 2) (hu0 : 0 < u k 0 * s.sampleDuration) (hu : u k 0 * s.sampleDuration ≤ 1 / 2)
    (hp0 : 0 ≤ u k 1) (hp1 : u k 1 ≤ 1) (p q : ℝ) (hp : p = phaseSpec s.phase s.sampleDuration (fun j => w j 0) k) (hq : q = phaseSpec s.phase s.sampleDuration (fun j => u j 0) k) :
    (polySaw rnd).ticks.out s w k 0 = sawWave p (w k 0 * s.sampleDuration) ∧
    (polySquare rnd).ticks.out s w k 0 = sawWave (Int.fract (p - 1 / 2)) (w k 0 * s.sampleDuration) - sawWave p (w k 0 * s.sampleDuration) ∧
    (polyPulse rnd).ticks.out s u k 0 = sawWave (Int.fract (q - u k 1)) (u k 0 * s.sampleDuration) - sawWave q (u k 0 * s.sampleDuration) + (2 * u k 1 - 1) := by
  have hr := Or.inr (a := k ≠ 0) (And.intro h0 h1)
  refine ⟨?_, ?_, ?_⟩
  · obtain ⟨a, b⟩ := advances_st (saw_advances rnd) s w k
    have b := b hr
    simp only [id] at a b
    show 2 * ((polySaw rnd).ticks.st s w k : OscSt).phase - 1 - polyblep ((polySaw rnd).ticks.st s w k : OscSt).phase (w k 0 * ((polySaw rnd).ticks.st s w k : OscSt).sampleDuration) = _
    rw [a, b, hp]
    exact saw_closed hw0 hw
  · obtain ⟨a, b⟩ := advances_st (square_advances rnd) s w k
    have b := b hr
    simp only [id] at a b
    obtain ⟨c, d⟩ := phaseSpec_range s.phase s.sampleDuration (fun j => w j 0) k
    show pulseValue ((polySquare rnd).ticks.st s w k : OscSt).phase (w k 0 * ((polySquare rnd).ticks.st s w k : OscSt).sampleDuration) (1 / 2) = _
    rw [a, b, hp, pulse_closed c d hw0 hw (by norm_num) (by norm_num)]
    ring
  · obtain ⟨a, b⟩ := advances_st (pulse_advances rnd) s u k
    have b := b hr
    simp only [id] at a b
    obtain ⟨c, d⟩ := phaseSpec_range s.phase s.sampleDuration (fun j => u j 0) k
    show pulseValue ((polyPulse rnd).ticks.st s u k : OscSt).phase (u k 0 * ((polyPulse rnd).ticks.st s u k : OscSt).sampleDuration) (u k 1) = _
    rw [a, b, hq, pulse_closed c d hu0 hu hp0 hp1]

/-- A concrete case: a quarter of the sample rate, starting at phase 1/8. -/
example : sawWave (1 / 8) (1 / 4) = -1 / 2 ∧ (0 : ℝ) < 11025 * (1 / 44100) ∧ (11025 : ℝ) * (1 / 44100) ≤ 1 / 2 := by
  unfold sawWave
  norm_num

theorem sawWave_continuous (d : ℝ) (hd0 : 0 < d) (hd : d ≤ 1 / 2) : Continuous fun x => sawWave (Int.fract x) d := by
  refine ContinuousOn.comp_fract'' (f := fun p => sawWave p d) (Continuous.continuousOn ?_) ?_
  · unfold sawWave
    fun_prop
  · have h : 1 - 1 / d ≤ 0 := by rw [sub_nonpos, le_div_iff₀ hd0]; linarith
    simp only [sawWave, zero_div, sub_zero, sub_self, mul_zero, mul_one]
    rw [max_eq_left h]
    norm_num

/-- **C52, no steps.** The rounded waves have no jumps: at a fixed frequency, the sample output is a continuous function of the (circular) phase. -/
theorem C52_continuous (rnd : BitVec 64 → ℝ) (s : OscSt) (f v : ℝ) (hf0 : 0 < f * s.sampleDuration) (hf : f * s.sampleDuration ≤ 1 / 2) (hv0 : 0 ≤ v) (hv1 : v ≤ 1) :
    (Continuous fun x => ((polySaw rnd).tick ({ s with phase := Int.fract x } : OscSt) (fun _ => f)).2 0) ∧
    (Continuous fun x => ((polySquare rnd).tick ({ s with phase := Int.fract x } : OscSt) (fun _ => f)).2 0) ∧
    (Continuous fun x => ((polyPulse rnd).tick ({ s with phase := Int.fract x } : OscSt) ![f, v]).2 0) := by
  have hfr : ∀ x w : ℝ, Int.fract (Int.fract x - w) = Int.fract (x - w) := fun x w => by
    rw [Int.fract_eq_fract]; exact ⟨-⌊x⌋, by unfold Int.fract; push_cast; ring⟩
  have hpulse : ∀ w : ℝ, 0 ≤ w → w ≤ 1 → Continuous fun x => pulseValue (Int.fract x) (f * s.sampleDuration) w := by
    intro w hw0 hw1
    have e : (fun x => pulseValue (Int.fract x) (f * s.sampleDuration) w)
        = fun x => sawWave (Int.fract (x - w)) (f * s.sampleDuration) - sawWave (Int.fract x) (f * s.sampleDuration) + (2 * w - 1) := by
      funext x
      rw [pulse_closed (Int.fract_nonneg x) (Int.fract_lt_one x) hf0 hf hw0 hw1, hfr]
    rw [e]
    have h1 := sawWave_continuous _ hf0 hf
    exact ((h1.comp (continuous_id.sub continuous_const)).sub h1).add continuous_const
  refine ⟨?_, hpulse (1 / 2) (by norm_num) (by norm_num), hpulse v hv0 hv1⟩
  have e : (fun x => ((polySaw rnd).tick ({ s with phase := Int.fract x } : OscSt) (fun _ => f)).2 0) = fun x => sawWave (Int.fract x) (f * s.sampleDuration) := by
    funext x
    exact saw_closed hf0 hf
  rw [e]
  exact sawWave_continuous _ hf0 hf

/-- **C52, naive wave away from the steps.** Where the phase is at least one increment away from a step, the output is the ideal saw or pulse, at any frequency up to
half the sample rate, also negative ones. -/
theorem C52_ideal (rnd : BitVec 64 → ℝ) (s : OscSt) (h0 : 0 ≤ s.phase) (h1 : s.phase < 1) (u : Nat → Frame ℝ 2) (k : Nat) (p d : ℝ)
    (hp : p = phaseSpec s.phase s.sampleDuration (fun j => u j 0) k) (hd : d = u k 0 * s.sampleDuration) (h : d ≤ p) (h' : p ≤ 1 - d) :
    (polySaw rnd).ticks.out s (fun j _ => u j 0) k 0 = 2 * p - 1 ∧
    (d ≤ Int.fract (p - u k 1) → Int.fract (p - u k 1) ≤ 1 - d → (polyPulse rnd).ticks.out s u k 0 = if p < u k 1 then 1 else -1) := by
  have hr := Or.inr (a := k ≠ 0) (And.intro h0 h1)
  have e1 : polyblep p d = 0 := blep_mid (by linarith) (by linarith)
  constructor
  · obtain ⟨a, b⟩ := advances_st (saw_advances rnd) s (fun j _ => u j 0) k
    have b := b hr
    simp only [id] at a b
    show 2 * ((polySaw rnd).ticks.st s (fun j _ => u j 0) k : OscSt).phase - 1
      - polyblep ((polySaw rnd).ticks.st s (fun j _ => u j 0) k : OscSt).phase (u k 0 * ((polySaw rnd).ticks.st s (fun j _ => u j 0) k : OscSt).sampleDuration) = _
    rw [a, b, ← hp, ← hd, e1]; ring
  · intro q q'
    obtain ⟨a, b⟩ := advances_st (pulse_advances rnd) s u k
    have b := b hr
    simp only [id] at a b
    show pulseValue ((polyPulse rnd).ticks.st s u k : OscSt).phase (u k 0 * ((polyPulse rnd).ticks.st s u k : OscSt).sampleDuration) (u k 1) = _
    rw [a, b, ← hp, ← hd]
    have e2 : polyblep (p - u k 1 - ⌊p - u k 1⌋) d = 0 := blep_mid (by rw [Int.self_sub_floor]; linarith) (by rw [Int.self_sub_floor]; linarith)
    unfold pulseValue
    rw [e1, e2]; ring

/-! ## C52: sine -/

theorem sin_fract (x y : ℝ) (h : Int.fract x = Int.fract y) : Real.sin (x * (2 * Real.pi)) = Real.sin (y * (2 * Real.pi)) := by
  obtain ⟨z, hz⟩ := Int.fract_eq_fract.1 h
  have : x * (2 * Real.pi) = y * (2 * Real.pi) + z * (2 * Real.pi) := by linear_combination (2 * Real.pi) * hz
  rw [this, Real.sin_add_int_mul_two_pi]

/-- **C52, sine.** The sine oscillator outputs the sine of the accumulated phase. -/
theorem C52_sine (rnd : BitVec 64 → ℝ) (s : OscSt) (w : Nat → Frame ℝ 1) (k : Nat) :
    (sine rnd).ticks.out s w k 0 = Real.sin (2 * Real.pi * (s.phase + ∑ j ∈ Finset.range k, w j 0 * s.sampleDuration)) := by
  show Real.sin (((sine rnd).ticks.st s w k : OscSt).phase * (2 * Real.pi)) = _
  rw [mul_comm (2 * Real.pi)]
  refine sin_fract _ _ ?_
  cases k with
  | zero => simp [Mealy.st]
  | succ k =>
    have := (advances_st (sine_advances rnd) s w (k + 1)).2 (Or.inl (by omega))
    simp only [id] at this
    rw [this]
    exact Int.fract_fract _

theorem fold_lane (s : OscSt) (x : Nat → Frame ℝ 1) (k : Nat) :
    (List.range k).foldl (fun s j => sineLane s (x j)) s = (Mealy.mk OscSt (fun s (x : Frame ℝ 1) => (sineLane s x, fun (_ : Fin 1) => Real.sin (s.phase * (2 * Real.pi))))).st s x k := by
  induction k with
  | zero => rfl
  | succ k ih => rw [List.range_succ, List.foldl_append, ih]; rfl

/-- Same fields, phases equal modulo one. -/
def SameMod (s t : OscSt) : Prop :=
  Int.fract s.phase = Int.fract t.phase ∧ s.sampleDuration = t.sampleDuration ∧ s.hash = t.hash ∧ s.initialPhase = t.initialPhase

/-- **C52, sine in blocks.** Although blocks wrap the phase only once, every mix of blocks and ticks gives the samples of ticks (in exact arithmetic). -/
theorem C52_sine_block_equals_tick (rnd : BitVec 64 → ℝ) : BlockEqualsTick (sine rnd) := by
  rw [← tickBlock_iff]
  refine ⟨SameMod, fun s => ⟨rfl, rfl, rfl, rfl⟩, ?_, ?_, ?_⟩
  · rintro s t ⟨-, h2, h3, h4⟩
    refine ⟨?_, h2, h3, h4⟩
    show Int.fract (s.initialPhase.getD (rnd s.hash)) = Int.fract (t.initialPhase.getD (rnd t.hash))
    rw [h3, h4]
  · rintro s t x ⟨h1, h2, h3, h4⟩
    refine ⟨⟨?_, h2, h3, h4⟩, ?_⟩
    · show Int.fract (Int.fract (s.phase + x 0 * s.sampleDuration)) = Int.fract (Int.fract (t.phase + x 0 * t.sampleDuration))
      rw [Int.fract_fract, Int.fract_fract, h2, Int.fract_eq_fract]
      obtain ⟨z, hz⟩ := Int.fract_eq_fract.1 h1
      exact ⟨z, by linarith⟩
    · funext _
      exact sin_fract _ _ h1
  · intro g s m size inp out _ hR
    -- the unwrapped machine
    let L : Mealy ℝ 1 1 := Mealy.mk OscSt (fun s x => (sineLane s x, fun _ => Real.sin (s.phase * (2 * Real.pi))))
    have hitem : ItemExact sineItem L.step (fun _ => True) := by
      intro s x _
      refine ⟨fold_lane s x 8, fun k _ => ?_⟩
      funext _
      show Real.sin (((List.range k).foldl (fun s j => sineLane s (x j)) s).phase * (2 * Real.pi)) = Real.sin ((L.st s x k : OscSt).phase * (2 * Real.pi))
      rw [fold_lane s x k]
    have hsim : ∀ (w : Nat → Frame ℝ 1) (s m : OscSt), SameMod s m → ∀ k, SameMod (L.st s w k) ((sine rnd).ticks.st m w k) := by
      intro w s m h k
      induction k with
      | zero => exact h
      | succ k ih =>
        obtain ⟨h1, h2, h3, h4⟩ := ih
        refine ⟨?_, h2, h3, h4⟩
        show Int.fract ((L.st s w k : OscSt).phase + w k 0 * (L.st s w k : OscSt).sampleDuration) =
          Int.fract (Int.fract (((sine rnd).ticks.st m w k : OscSt).phase + w k 0 * ((sine rnd).ticks.st m w k : OscSt).sampleDuration))
        rw [Int.fract_fract, h2, Int.fract_eq_fract]
        obtain ⟨z, hz⟩ := Int.fract_eq_fract.1 h1
        exact ⟨z, by linarith⟩
    obtain ⟨a, b, c⟩ := itemLoop_spec (fun _ _ _ => trivial) hitem inp (fullSimdItems size) 0 s out trivial
    simp only [Nat.mul_zero, Nat.zero_add] at a b c
    have hf := eight_fullSimdItems_le size
    have hmid : SameMod { (itemLoop sineItem inp 0 (fullSimdItems size) s out).1 with
        phase := (itemLoop sineItem inp 0 (fullSimdItems size) s out).1.phase - ⌊(itemLoop sineItem inp 0 (fullSimdItems size) s out).1.phase⌋ }
        ((sine rnd).ticks.st m inp.frame (8 * fullSimdItems size)) := by
      rw [a]
      obtain ⟨h1, h2, h3, h4⟩ := hsim inp.frame s m hR (8 * fullSimdItems size)
      exact ⟨(Int.fract_fract _).trans h1, h2, h3, h4⟩
    obtain ⟨a', b', c'⟩ := tickLoop_spec sineTick (sine rnd).ticks SameMod (by
        rintro s t x ⟨h1, h2, h3, h4⟩
        refine ⟨⟨?_, h2, h3, h4⟩, ?_⟩
        · show Int.fract (Int.fract (s.phase + x 0 * s.sampleDuration)) = Int.fract (Int.fract (t.phase + x 0 * t.sampleDuration))
          rw [Int.fract_fract, Int.fract_fract, h2, Int.fract_eq_fract]
          obtain ⟨z, hz⟩ := Int.fract_eq_fract.1 h1
          exact ⟨z, by linarith⟩
        · funext _
          exact sin_fract _ _ h1) inp (size - 8 * fullSimdItems size) (8 * fullSimdItems size) _ _
      (itemLoop sineItem inp 0 (fullSimdItems size) s out).2 hmid
    refine ⟨?_, fun k hk => ?_⟩
    · rw [← Mealy.st_add, Nat.add_sub_cancel' hf] at a'
      exact a'
    · by_cases hk8 : k < 8 * fullSimdItems size
      · refine (c' k (Or.inl hk8)).trans ((b k hk8).trans ?_)
        funext _
        exact sin_fract _ _ (hsim inp.frame s m hR k).1
      · obtain ⟨d, rfl⟩ : ∃ d, k = 8 * fullSimdItems size + d := ⟨k - 8 * fullSimdItems size, by omega⟩
        refine (b' d (by omega)).trans ?_
        rw [← Mealy.out_add]

/-- **C52, blocks.** The other oscillators use the default block processing. -/
theorem C52_block_equals_tick (rnd : BitVec 64 → ℝ) :
    BlockEqualsTick (ramp rnd) ∧ BlockEqualsTick (polySaw rnd) ∧ BlockEqualsTick (polySquare rnd) ∧ BlockEqualsTick (polyPulse rnd) :=
  ⟨(tickBlock_iff _).1 (tickBlock_ofTick _ _), (tickBlock_iff _).1 (tickBlock_ofTick _ _), (tickBlock_iff _).1 (tickBlock_ofTick _ _),
    (tickBlock_iff _).1 (tickBlock_ofTick _ _)⟩

/-! ## C53: discrete summation -/

/-- **C53.** `dsf(f, d, r, n)` is the sum of `r^i sin(f + i d)` over `i` from 0 to `n`. -/
theorem C53_dsf (f d r : ℝ) (hr0 : 0 < r) (hr1 : r < 1) (n : Nat) : dsf f d r n = ∑ i ∈ Finset.range (n + 1), r ^ i * Real.sin (f + i * d) := by
  have hden : 0 < 1 + r * r - 2 * r * Real.cos d := by
    have h1 := Real.cos_le_one d
    nlinarith [sq_nonneg (1 - r), mul_pos hr0 (by linarith : 0 < 1 - r)]
  have hpow : ∀ k : Nat, r ^ ((k : ℝ) + 1) = r ^ (k + 1) := fun k => by rw [← Real.rpow_natCast]; push_cast; rfl
  have hsum : ∀ k : Nat, Real.sin (f + (k + 1) * d) + Real.sin (f + (k - 1) * d) = 2 * Real.cos d * Real.sin (f + k * d) := by
    intro k
    rw [show f + (k + 1) * d = (f + k * d) + d by ring, show f + (k - 1) * d = (f + k * d) - d by ring, Real.sin_add, Real.sin_sub]; ring
  unfold dsf
  rw [div_eq_iff hden.ne', hpow]
  induction n with
  | zero =>
    have := hsum 0
    simp only [Nat.cast_zero, zero_mul, add_zero, zero_add, zero_sub, one_mul, neg_mul] at this ⊢
    rw [Finset.sum_range_one]
    simp only [pow_zero, one_mul, Nat.cast_zero, zero_mul, add_zero, pow_one]
    rw [show f - d = f + -d by ring]
    linear_combination (-r) * this
  | succ n ih =>
    rw [Finset.sum_range_succ, add_mul (∑ i ∈ Finset.range (n + 1), r ^ i * Real.sin (f + i * d)), ← ih]
    have := hsum (n + 1)
    push_cast at this ⊢
    rw [show f + ((n : ℝ) + 1 - 1) * d = f + n * d by ring] at this
    rw [pow_succ r (n + 1)]
    linear_combination (-(r ^ (n + 1)) * r) * this

/-- State of the oscillator when the sample is made. -/
def dsfPhase (s : DsfSt) (f : ℝ) : ℝ := Int.fract (s.osc.phase + f * s.osc.sampleDuration)

theorem clampRough (r : ℝ) : 0 < Fundsp.Math.clamp 0.0001 0.9999 r ∧ Fundsp.Math.clamp 0.0001 0.9999 r < 1 := by
  unfold Fundsp.Math.clamp
  constructor
  · exact lt_min (lt_of_lt_of_le (by norm_num) (le_max_right _ _)) (by norm_num)
  · exact lt_of_le_of_lt (min_le_right _ _) (by norm_num)

/-- **C53, node.** For a positive frequency and spacing the oscillator outputs the sum of partials `i = 0 ..= n`, with frequencies `(1 + i * spacing)` times the
fundamental and amplitudes `roughness^i`, and `n = floor(22050 / frequency / spacing)`. The magnitude is below `1 / (1 - roughness)`. -/
theorem C53_node (s : DsfSt) (f : ℝ) (hf : 0 < f) (hs : 0 < s.spacing) (h0 : 0 < s.roughness) (h1 : s.roughness < 1) :
    (dsfTick s f).2 = ∑ i ∈ Finset.range (⌊22050 / f / s.spacing⌋₊ + 1), s.roughness ^ i * Real.sin (2 * Real.pi * dsfPhase s f * (1 + i * s.spacing)) ∧
    |(dsfTick s f).2| ≤ 1 / (1 - s.roughness) := by
  have hn : (⌊22050 / f / s.spacing⌋ : ℝ) = ((⌊22050 / f / s.spacing⌋₊ : Nat) : ℝ) :=
    (natCast_floor_eq_intCast_floor (by positivity)).symm
  have e : (dsfTick s f).2 = ∑ i ∈ Finset.range (⌊22050 / f / s.spacing⌋₊ + 1), s.roughness ^ i * Real.sin (2 * Real.pi * dsfPhase s f * (1 + i * s.spacing)) := by
    show dsf (dsfPhase s f * (2 * Real.pi)) (dsfPhase s f * (2 * Real.pi) * s.spacing) s.roughness (⌊22050 / f / s.spacing⌋ : ℝ) = _
    rw [hn, C53_dsf _ _ _ h0 h1]
    refine Finset.sum_congr rfl (fun i _ => ?_)
    congr 2
    ring
  refine ⟨e, ?_⟩
  rw [e]
  refine (Finset.abs_sum_le_sum_abs _ _).trans ?_
  have hb : ∀ i ∈ Finset.range (⌊22050 / f / s.spacing⌋₊ + 1), |s.roughness ^ i * Real.sin (2 * Real.pi * dsfPhase s f * (1 + i * s.spacing))| ≤ s.roughness ^ i := by
    intro i _
    rw [abs_mul, abs_of_nonneg (pow_nonneg h0.le i)]
    exact mul_le_of_le_one_right (pow_nonneg h0.le i) (Real.abs_sin_le_one _)
  refine (Finset.sum_le_sum hb).trans ?_
  have hg : ∀ n : Nat, (∑ i ∈ Finset.range n, s.roughness ^ i) * (1 - s.roughness) = 1 - s.roughness ^ n := by
    intro n
    induction n with
    | zero => simp
    | succ n ih => rw [Finset.sum_range_succ, add_mul, ih, pow_succ]; ring
  rw [le_div_iff₀ (by linarith), hg]
  have := pow_nonneg h0.le (⌊22050 / f / s.spacing⌋₊ + 1)
  linarith

/-- **C53, roughness.** Whatever roughness is asked for, by the constructor, a setting or the roughness input, the one used satisfies the hypotheses of `C53_node`. -/
theorem C53_roughness (rnd : BitVec 64 → ℝ) (s : DsfSt) (spacing r : ℝ) :
    (0 < (s.setRoughness r).roughness ∧ (s.setRoughness r).roughness < 1) ∧
    (0 < (DsfSt.new rnd spacing r).roughness ∧ (DsfSt.new rnd spacing r).roughness < 1) ∧ (DsfSt.new rnd spacing r).spacing = spacing :=
  ⟨clampRough r, clampRough r, rfl⟩

/-- **C53, stream.** In a run at positive frequencies, every sample of the one-input oscillator is the sum of partials at the accumulated phase. -/
theorem C53_stream (rnd : BitVec 64 → ℝ) (s : DsfSt) (hs : 0 < s.spacing) (h0 : 0 < s.roughness) (h1 : s.roughness < 1) (w : Nat → Frame ℝ 1)
    (k : Nat) (hf : 0 < w k 0) :
    (dsf1 rnd).ticks.out s w k 0 = ∑ i ∈ Finset.range (⌊22050 / w k 0 / s.spacing⌋₊ + 1),
      s.roughness ^ i * Real.sin (2 * Real.pi * phaseSpec s.osc.phase s.osc.sampleDuration (fun j => w j 0) (k + 1) * (1 + i * s.spacing)) := by
  have hadv : Advances (dsf1 rnd) (fun s : DsfSt => s.osc) (fun x => x 0) := fun _ _ => rfl
  have hpar : ∀ k, ((dsf1 rnd).ticks.st s w k : DsfSt).spacing = s.spacing ∧ ((dsf1 rnd).ticks.st s w k : DsfSt).roughness = s.roughness := by
    intro k
    induction k with
    | zero => exact ⟨rfl, rfl⟩
    | succ k ih => exact ih
  obtain ⟨p1, p2⟩ := hpar k
  have hph := (advances_st hadv s w (k + 1)).2 (Or.inl (by omega))
  have hn := (C53_node ((dsf1 rnd).ticks.st s w k) (w k 0) hf (by rw [p1]; exact hs) (by rw [p2]; exact h0) (by rw [p2]; exact h1)).1
  rw [p1, p2] at hn
  rw [← hph]
  exact hn

/-- **C53, stream with roughness input.** The roughness of each sample is that of its own roughness input, limited to 0.0001 ... 0.9999. -/
theorem C53_stream_rough (rnd : BitVec 64 → ℝ) (s : DsfSt) (hs : 0 < s.spacing) (w : Nat → Frame ℝ 2) (k : Nat) (hf : 0 < w k 0) :
    (dsf2 rnd).ticks.out s w k 0 = ∑ i ∈ Finset.range (⌊22050 / w k 0 / s.spacing⌋₊ + 1),
      (max 0.0001 (min 0.9999 (w k 1))) ^ i
        * Real.sin (2 * Real.pi * phaseSpec s.osc.phase s.osc.sampleDuration (fun j => w j 0) (k + 1) * (1 + i * s.spacing)) := by
  have hadv : Advances (dsf2 rnd) (fun s : DsfSt => s.osc) (fun x => x 0) := fun _ _ => rfl
  have hpar : ∀ k, ((dsf2 rnd).ticks.st s w k : DsfSt).spacing = s.spacing := by
    intro k
    induction k with
    | zero => rfl
    | succ k ih => exact ih
  have p1 := hpar k
  have hph := (advances_st hadv s w (k + 1)).2 (Or.inl (by omega))
  obtain ⟨h0, h1⟩ := clampRough (w k 1)
  have hn := (C53_node (DsfSt.setRoughness ((dsf2 rnd).ticks.st s w k) (w k 1)) (w k 0) hf (by exact p1.symm ▸ hs) h0 h1).1
  have hr : (DsfSt.setRoughness ((dsf2 rnd).ticks.st s w k) (w k 1)).roughness = max 0.0001 (min 0.9999 (w k 1)) := by
    show min (max (w k 1) 0.0001) 0.9999 = _
    rw [max_min_distrib_left, max_comm, min_comm, max_eq_right (show (0.0001 : ℝ) ≤ 0.9999 by norm_num)]
  have hsp : (DsfSt.setRoughness ((dsf2 rnd).ticks.st s w k) (w k 1)).spacing = s.spacing := p1
  rw [hr, hsp] at hn
  rw [← hph]
  exact hn

/-- **C53, documentation.** The comment on `dsf` gives the range as `0..n`, which in Rust excludes `n`; the formula includes it. -/
theorem C53_violation_doc : ∃ (f d r : ℝ) (n : Nat), 0 < r ∧ r < 1 ∧ dsf f d r n ≠ ∑ i ∈ Finset.range n, r ^ i * Real.sin (f + i * d) := by
  refine ⟨Real.pi / 2, 0, 1 / 2, 0, by norm_num, by norm_num, ?_⟩
  rw [C53_dsf _ _ _ (by norm_num) (by norm_num)]
  simp

/-- **C53, aliasing.** The last partial lies above 22050 Hz whenever the spacing is at most one, e.g. always for `dsf_saw`, so at the default sample rate it is aliased. -/
theorem C53_violation_alias (f spacing : ℝ) (hf : 0 < f) (hs : 0 < spacing) (h1 : spacing ≤ 1) :
    22050 < f * (1 + ⌊22050 / f / spacing⌋₊ * spacing) := by
  have h := Nat.lt_floor_add_one (22050 / f / spacing)
  rw [div_div, div_lt_iff₀ (by positivity)] at h
  rw [div_div]
  nlinarith

/-- A run with a varying frequency, crossing zero. -/
example : phaseSpec (1 / 4) (1 / 4) (fun j => if j = 0 then -2 else 1) 2 = 0 := by
  unfold phaseSpec
  simp [Finset.sum_range_succ]
  norm_num
example : dsf (Real.pi / 2) Real.pi (1 / 2) 1 = 1 / 2 := by
  have := C53_dsf (Real.pi / 2) Real.pi (1 / 2) (by norm_num) (by norm_num) 1
  rw [Nat.cast_one] at this
  rw [this]
  simp [Finset.sum_range_succ, Real.sin_add]
  norm_num

end Fundsp.Osc
