import Verif.Pan.Model
import Mathlib.Tactic.Linarith
import Mathlib.Tactic.Positivity
import Mathlib.Data.Fin.VecNotation
import Mathlib.Data.Matrix.Mul

/-! # Panning and mixing: property C51 -/

noncomputable section
namespace Fundsp.Pan

open Fundsp.Math (clamp11)

theorem clamp11_range (v : ℝ) : -1 ≤ clamp11 v ∧ clamp11 v ≤ 1 :=
  ⟨le_min (le_max_right _ _) (by norm_num), min_le_right _ _⟩

theorem clamp11_id {v : ℝ} (h1 : -1 ≤ v) (h2 : v ≤ 1) : clamp11 v = v := by
  unfold clamp11; rw [max_eq_left h1, min_eq_left h2]

theorem clamp11_neg (v : ℝ) : clamp11 (-v) = -clamp11 v := by
  unfold clamp11
  rcases le_total v (-1) with h | h
  · rw [max_eq_left (by linarith : (-1 : ℝ) ≤ -v), min_eq_right (by linarith : (1 : ℝ) ≤ -v), max_eq_right h, min_eq_left (by norm_num)]; norm_num
  · rcases le_total v 1 with h' | h'
    · rw [max_eq_left (by linarith : (-1 : ℝ) ≤ -v), min_eq_left (by linarith : -v ≤ (1 : ℝ)), max_eq_left h, min_eq_left h']
    · rw [max_eq_right (by linarith : -v ≤ (-1 : ℝ)), min_eq_left (by norm_num), max_eq_left h, min_eq_right h']

theorem angle_range (v : ℝ) : 0 ≤ (clamp11 v + 1) * (Real.pi * 0.25) ∧ (clamp11 v + 1) * (Real.pi * 0.25) ≤ Real.pi / 2 := by
  obtain ⟨h1, h2⟩ := clamp11_range v
  have := Real.pi_pos
  constructor
  · exact mul_nonneg (by linarith) (by positivity)
  · nlinarith

/-- **C51, equal power.** For every pan value the squares of the weights sum to one. -/
theorem C51_equal_power (v : ℝ) : (panWeights v).1 ^ 2 + (panWeights v).2 ^ 2 = 1 := Real.cos_sq_add_sin_sq _

/-- **C51, sign.** For every pan value both weights lie in `[0, 1]`. -/
theorem C51_range (v : ℝ) : 0 ≤ (panWeights v).1 ∧ (panWeights v).1 ≤ 1 ∧ 0 ≤ (panWeights v).2 ∧ (panWeights v).2 ≤ 1 := by
  obtain ⟨h1, h2⟩ := angle_range v
  have := Real.pi_pos
  exact ⟨Real.cos_nonneg_of_mem_Icc ⟨by linarith, h2⟩, Real.cos_le_one _, Real.sin_nonneg_of_nonneg_of_le_pi h1 (by linarith), Real.sin_le_one _⟩

/-- **C51, mirror.** Negating the pan value exchanges the channels. -/
theorem C51_mirror (v : ℝ) : panWeights (-v) = ((panWeights v).2, (panWeights v).1) := by
  have e : (clamp11 (-v) + 1) * (Real.pi * 0.25) = Real.pi / 2 - (clamp11 v + 1) * (Real.pi * 0.25) := by rw [clamp11_neg]; ring
  unfold panWeights
  simp only [e, Real.cos_pi_div_two_sub, Real.sin_pi_div_two_sub]

/-- **C51, clamping.** Values outside `[-1, 1]` act as the nearest end, which is fully left or right; zero is the centre. -/
theorem C51_ends : (∀ v, v ≤ -1 → panWeights v = (1, 0)) ∧ (∀ v, 1 ≤ v → panWeights v = (0, 1)) ∧ panWeights 0 = (Real.sqrt 2 / 2, Real.sqrt 2 / 2) := by
  have key : ∀ v, v ≤ -1 → panWeights v = (1, 0) := by
    intro v h
    have : clamp11 v = -1 := by unfold clamp11; rw [max_eq_right h, min_eq_left (by norm_num)]
    unfold panWeights
    simp [this]
  refine ⟨key, fun v h => ?_, ?_⟩
  · have := C51_mirror (-v)
    rw [neg_neg, key (-v) (by linarith)] at this
    exact this
  · have : clamp11 0 = 0 := clamp11_id (by norm_num) (by norm_num)
    unfold panWeights
    simp only [this]
    rw [show ((0 : ℝ) + 1) * (Real.pi * 0.25) = Real.pi / 4 by ring, Real.cos_pi_div_four, Real.sin_pi_div_four]

/-- **C51, order.** Within `[-1, 1]` panning to the right strictly lowers the left weight and raises the right one. -/
theorem C51_monotone (u v : ℝ) (h1 : -1 ≤ u) (h : u < v) (h2 : v ≤ 1) : (panWeights v).1 < (panWeights u).1 ∧ (panWeights u).2 < (panWeights v).2 := by
  have hu : clamp11 u = u := clamp11_id h1 (by linarith)
  have hv : clamp11 v = v := clamp11_id (by linarith) h2
  have hpi := Real.pi_pos
  obtain ⟨a1, a2⟩ := angle_range u
  obtain ⟨b1, b2⟩ := angle_range v
  have hlt : (clamp11 u + 1) * (Real.pi * 0.25) < (clamp11 v + 1) * (Real.pi * 0.25) := by
    rw [hu, hv]; exact mul_lt_mul_of_pos_right (by linarith) (by positivity)
  exact ⟨Real.cos_lt_cos_of_nonneg_of_le_pi_div_two a1 b2 hlt, Real.sin_lt_sin_of_lt_of_le_pi_div_two (by linarith) b2 hlt⟩

/-- **C51, panner.** The power of the stereo output is the power of the mono input, with a fixed pan value and with a pan input. -/
theorem C51_panner_power (v : ℝ) (s : PanSt) (w : Nat → Frame ℝ 1) (u : Nat → Frame ℝ 2) (k : Nat) :
    panner1.ticks.out (PanSt.ofPan v) w k 0 ^ 2 + panner1.ticks.out (PanSt.ofPan v) w k 1 ^ 2 = w k 0 ^ 2 ∧
    panner2.ticks.out s u k 0 ^ 2 + panner2.ticks.out s u k 1 ^ 2 = u k 0 ^ 2 := by
  have hst : ∀ k, panner1.ticks.st (PanSt.ofPan v) w k = PanSt.ofPan v := by
    intro k
    induction k with
    | zero => rfl
    | succ k ih => exact ih
  have ho : panner1.ticks.out (PanSt.ofPan v) w k = ![(panWeights v).1 * w k 0, (panWeights v).2 * w k 0] := by
    show (panner1.tick (panner1.ticks.st (PanSt.ofPan v) w k) (w k)).2 = _
    rw [hst]; rfl
  constructor
  · rw [ho]
    show ((panWeights v).1 * w k 0) ^ 2 + ((panWeights v).2 * w k 0) ^ 2 = _
    linear_combination (w k 0) ^ 2 * C51_equal_power v
  · show ((panWeights (u k 1)).1 * u k 0) ^ 2 + ((panWeights (u k 1)).2 * u k 0) ^ 2 = _
    linear_combination (u k 0) ^ 2 * C51_equal_power (u k 1)

/-- **C51, fixed pan.** With a fixed pan value the channels are the input times the weights of that value, left first. -/
theorem C51_panner_fixed (v : ℝ) (w : Nat → Frame ℝ 1) (k : Nat) :
    panner1.ticks.out (PanSt.ofPan v) w k = ![(panWeights v).1 * w k 0, (panWeights v).2 * w k 0] := by
  have h : ∀ k, (panner1.ticks.st (PanSt.ofPan v) w k : PanSt) = PanSt.ofPan v := by
    intro k
    induction k with
    | zero => rfl
    | succ k ih => exact ih
  show ![(panner1.ticks.st (PanSt.ofPan v) w k : PanSt).left * w k 0, (panner1.ticks.st (PanSt.ofPan v) w k : PanSt).right * w k 0] = _
  rw [h]
  rfl

/-- **C51, pan input.** With a pan input the weights are those of the pan value of the same sample. -/
theorem C51_panner_input (s : PanSt) (u : Nat → Frame ℝ 2) (k : Nat) :
    panner2.ticks.out s u k = ![(panWeights (u k 1)).1 * u k 0, (panWeights (u k 1)).2 * u k 0] := rfl

/-- **C51, blocks.** Panners and mixers may be used in any mix of blocks and ticks. -/
theorem C51_block_equals_tick (m n : Nat) : BlockEqualsTick panner1 ∧ BlockEqualsTick panner2 ∧ BlockEqualsTick (mixer m n) := by
  refine ⟨blockEqualsTick_of_exact ?_, blockEqualsTick_of_exact ?_, (tickBlock_iff _).1 (tickBlock_ofTick _ _)⟩
  · intro g s size inp out _ _
    have hst : ∀ k, panner1.ticks.st s inp.frame k = s := by
      intro k
      induction k with
      | zero => rfl
      | succ k ih => exact ih
    refine ⟨(hst size).symm, fun k hk => ?_⟩
    refine (setItems_frame _ out hk).trans ?_
    show _ = (panner1.tick (panner1.ticks.st s inp.frame k) (inp.frame k)).2
    rw [hst]
    funext c
    fin_cases c
    · exact mul_comm _ _
    · exact mul_comm _ _
  · intro g s size inp out _ _
    have := tickLoop_spec (fun (_ : PanSt) (x : Frame ℝ 2) => (PanSt.ofPan (x 1), ![x 0 * (PanSt.ofPan (x 1)).left, x 0 * (PanSt.ofPan (x 1)).right]))
      panner2.ticks Eq (by
        rintro s m x rfl
        refine ⟨rfl, ?_⟩
        show ![x 0 * (PanSt.ofPan (x 1)).left, x 0 * (PanSt.ofPan (x 1)).right] = ![(PanSt.ofPan (x 1)).left * x 0, (PanSt.ofPan (x 1)).right * x 0]
        rw [mul_comm (x 0), mul_comm (x 0)]) inp size 0 s s out rfl
    obtain ⟨a, b, -⟩ := this
    simp only [Nat.zero_add] at a b
    exact ⟨a, b⟩

theorem mixRow_eq {m : Nat} (row x : Frame ℝ m) : mixRow row x = ∑ j, row j * x j := by
  have key : ∀ (l : List (Fin m)) (a : ℝ), l.foldl (fun value j => value + x j * row j) a = a + (l.map (fun j => row j * x j)).sum := by
    intro l
    induction l with
    | nil => intro a; simp
    | cons j l ih => intro a; rw [List.foldl_cons, ih, List.map_cons, List.sum_cons]; ring
  rw [mixRow, key, zero_add, Fin.sum_univ_def]

/-- **C51, mixer.** The mixer applies its matrix to every frame. -/
theorem C51_mixer_matrix (m n : Nat) (M : Frame (Frame ℝ m) n) (w : Nat → Frame ℝ m) (k : Nat) :
    (mixer m n).ticks.out M w k = Matrix.mulVec (Matrix.of M) (w k) := by
  have hst : ∀ k, (mixer m n).ticks.st M w k = M := by
    intro k
    induction k with
    | zero => rfl
    | succ k ih => exact ih
  show ((mixer m n).tick ((mixer m n).ticks.st M w k) (w k)).2 = _
  rw [hst]
  funext i
  exact mixRow_eq (M i) (w k)

/-- **C51, linearity.** A mixer is linear: the output for a weighted sum of signals is the weighted sum of the outputs. -/
theorem C51_mixer_linear (m n : Nat) (M : Frame (Frame ℝ m) n) (u v : Nat → Frame ℝ m) (a b : ℝ) (k : Nat) :
    (mixer m n).ticks.out M (fun k => a • u k + b • v k) k = a • (mixer m n).ticks.out M u k + b • (mixer m n).ticks.out M v k := by
  rw [C51_mixer_matrix, C51_mixer_matrix, C51_mixer_matrix, Matrix.mulVec_add, Matrix.mulVec_smul, Matrix.mulVec_smul]

/-- **C51, cascade.** Feeding one mixer to another is mixing with the product of their matrices. -/
theorem C51_mixer_cascade (m n p : Nat) (M : Frame (Frame ℝ m) n) (N : Frame (Frame ℝ n) p) (w : Nat → Frame ℝ m) (k : Nat) :
    (mixer n p).ticks.out N ((mixer m n).ticks.out M w) k = Matrix.mulVec (Matrix.of N * Matrix.of M) (w k) := by
  rw [C51_mixer_matrix, C51_mixer_matrix, Matrix.mulVec_mulVec]

example : (panWeights (1 / 2)).1 < (panWeights 0).1 := (C51_monotone 0 (1 / 2) (by norm_num) (by norm_num) (by norm_num)).1
example : (mixer 2 1).ticks.out (fun _ => ![2, -1]) (fun _ => ![3, 4]) 0 0 = 2 := by
  rw [C51_mixer_matrix]; simp [Matrix.mulVec, dotProduct]; norm_num

end Fundsp.Pan
