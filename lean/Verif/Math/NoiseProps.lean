import Verif.Math.Props
import Verif.Math.Lipschitz
import Mathlib.Algebra.BigOperators.Fin
import Mathlib.Algebra.BigOperators.Field
import Mathlib.Topology.Order.IntermediateValue
import Mathlib.Topology.ContinuousOn

/-!
# C33: what the coherent noise functions compute

The noise functions follow their random lattice values exactly; they are continuous.
-/
namespace Fundsp.Math
noncomputable section

/-- **C33** value noise: between the integers `k` and `k + 1` the noise moves from the random value of `k` to that of `k + 1`, by the first easing function if the
second value is not lower and by the second easing function if it is. The random values lie in -1...1 and depend on the seed and `k` alone. -/
theorem C33_ease_exact (hash64a : BitVec 64 → BitVec 64) (rise fall : ℝ → ℝ) (seed : BitVec 64) : ∃ p : ℤ → ℝ,
    (∀ k, p k = ((hash64a ((seed.rotateLeft 5 ^^^ BitVec.ofInt 64 k) * 0x517cc1b727220a95#64)).toNat / 1024 : ℕ) / 2 ^ 53 - 1) ∧
    (∀ k, -1 ≤ p k ∧ p k < 1) ∧
    ∀ (k : ℤ) (d : ℝ), 0 ≤ d → d < 1 →
      (p k ≤ p (k + 1) → easeNoise hash64a rise fall seed (k + d) = p k + (p (k + 1) - p k) * rise d) ∧
      (p (k + 1) < p k → easeNoise hash64a rise fall seed (k + d) = p k + (p (k + 1) - p k) * fall d) := by
  refine ⟨getPoint hash64a seed, fun k => rfl, fun k => hash11_range _ _, fun k d h0 h1 => ?_⟩
  have hk : ⌊(k : ℝ) + d⌋ = k := by rw [Int.floor_eq_iff]; constructor <;> linarith
  have hd : (k : ℝ) + d - k = d := by ring
  constructor
  · intro h
    unfold easeNoise
    simp only [hk, hd]
    rw [if_pos h]; unfold lerp; ring
  · intro h
    unfold easeNoise
    simp only [hk, hd]
    rw [if_neg (not_le.2 h)]; unfold lerp; ring

/-- A function that is continuous on each interval between integers is continuous. -/
theorem continuous_of_cells {f : ℝ → ℝ} (h : ∀ k : ℤ, ContinuousOn f (Set.Icc (k : ℝ) (k + 1))) : Continuous f := by
  have hfin : LocallyFinite (fun k : ℤ => Set.Icc (k : ℝ) (k + 1)) := by
    intro x
    refine ⟨Set.Ioo (x - 1) (x + 1), Ioo_mem_nhds (by linarith) (by linarith), ?_⟩
    apply Set.Finite.subset (Set.finite_Icc (⌊x⌋ - 2) (⌊x⌋ + 2))
    rintro k ⟨y, hy1, hy2⟩
    have a := Int.floor_le x
    have b := Int.lt_floor_add_one x
    constructor
    · have : (⌊x⌋ : ℝ) - 2 < k := by linarith [hy1.2, hy2.1]
      have : ((⌊x⌋ - 2 : ℤ) : ℝ) < k := by push_cast; exact this
      exact le_of_lt (by exact_mod_cast this)
    · have : (k : ℝ) < ⌊x⌋ + 2 := by linarith [hy1.1, hy2.2]
      have : (k : ℝ) < ((⌊x⌋ + 2 : ℤ) : ℝ) := by push_cast; exact this
      exact le_of_lt (by exact_mod_cast this)
  refine hfin.continuous ?_ (fun k => isClosed_Icc) h
  ext x
  simp only [Set.mem_iUnion, Set.mem_univ, iff_true]
  exact ⟨⌊x⌋, Int.floor_le x, (Int.lt_floor_add_one x).le⟩

/-- **C33** value noise is continuous for continuous easing functions from 0 to 1, and takes its random values at the integers. -/
theorem C33_ease_continuous (hash64a : BitVec 64 → BitVec 64) (rise fall : ℝ → ℝ) (hr : ContinuousOn rise (Set.Icc 0 1)) (hf : ContinuousOn fall (Set.Icc 0 1))
    (r0 : rise 0 = 0) (r1 : rise 1 = 1) (f0 : fall 0 = 0) (f1 : fall 1 = 1) (seed : BitVec 64) : Continuous (easeNoise hash64a rise fall seed) := by
  obtain ⟨p, _, _, hp⟩ := C33_ease_exact hash64a rise fall seed
  apply continuous_of_cells
  intro k
  have hat : easeNoise hash64a rise fall seed (k + 1) = p (k + 1) := by
    obtain ⟨a, b⟩ := hp (k + 1) 0 le_rfl one_pos
    push_cast at a b
    rw [add_zero] at a b
    rcases le_or_gt (p (k + 1)) (p (k + 1 + 1)) with h | h
    · rw [a h, r0]; ring
    · rw [b h, f0]; ring
  have cell : ∀ e : ℝ → ℝ, ContinuousOn e (Set.Icc 0 1) → e 1 = 1 →
      (∀ d, 0 ≤ d → d < 1 → easeNoise hash64a rise fall seed (k + d) = p k + (p (k + 1) - p k) * e d) →
      ContinuousOn (easeNoise hash64a rise fall seed) (Set.Icc (k : ℝ) (k + 1)) := by
    intro e he e1 h
    have hg : ContinuousOn (fun x : ℝ => p k + (p (k + 1) - p k) * e (x - k)) (Set.Icc (k : ℝ) (k + 1)) := by
      apply continuousOn_const.add (continuousOn_const.mul (he.comp (continuousOn_id.sub continuousOn_const) ?_))
      intro x hx
      exact ⟨by simpa using hx.1, by have := hx.2; show x - k ≤ 1; linarith⟩
    refine hg.congr fun x hx => ?_
    rcases eq_or_lt_of_le hx.2 with h1 | h1
    · rw [h1, hat]
      simp only [add_sub_cancel_left, e1]; ring
    · have := h (x - k) (by linarith [hx.1]) (by linarith)
      rw [add_sub_cancel] at this
      exact this
  rcases le_or_gt (p k) (p (k + 1)) with h | h
  · exact cell rise hr r1 (fun d h0 h1 => (hp k d h0 h1).1 h)
  · exact cell fall hf f1 (fun d h0 h1 => (hp k d h0 h1).2 h)

/-- **C33** spline noise: with the pseudorandom offset `o` of the seed, the noise at `k - o` is four fifths of the random value of `k`, for every integer `k`, and
between these points it follows the cubic with slopes half the difference of the neighbouring values. -/
theorem C33_spline_exact (hash64a : BitVec 64 → BitVec 64) (rnd2 : BitVec 64 → ℝ) (seed : BitVec 64) : ∃ p : ℤ → ℝ,
    (∀ k, p k = ((hash64a ((seed.rotateLeft 5 ^^^ BitVec.ofInt 64 k) * 0x517cc1b727220a95#64)).toNat / 1024 : ℕ) / 2 ^ 53 - 1) ∧
    (∀ k, -1 ≤ p k ∧ p k < 1) ∧
    ∀ (k : ℤ) (d : ℝ), 0 ≤ d → d < 1 → splineNoise hash64a rnd2 seed (k + d - rnd2 seed) =
      4 / 5 * ((1 + 2 * d) * (1 - d) ^ 2 * p k + d ^ 2 * (3 - 2 * d) * p (k + 1) + d * (1 - d) ^ 2 * ((p (k + 1) - p (k - 1)) / 2) -
        d ^ 2 * (1 - d) * ((p (k + 2) - p k) / 2)) := by
  refine ⟨getPoint hash64a seed, fun k => rfl, fun k => hash11_range _ _, fun k d h0 h1 => ?_⟩
  have hx : (k : ℝ) + d - rnd2 seed + rnd2 seed = k + d := by ring
  have hk : ⌊(k : ℝ) + d⌋ = k := by rw [Int.floor_eq_iff]; constructor <;> linarith
  have hd : (k : ℝ) + d - k = d := by ring
  unfold splineNoise
  simp only [hx, hk, hd]
  unfold spline
  norm_num
  ring

/-- **C33** fractal noise is the mean of its octaves with weights `1, r, r², ...`; octave `i` runs at `2^i` times the frequency, with an offset and a seed of its own. -/
theorem C33_fractal_exact (octave : BitVec 64 → ℝ → ℝ) (n : ℕ) (offset : Fin n → ℝ) (seed : Fin n → BitVec 64) (r x : ℝ) :
    fractal octave (List.ofFn fun i => (offset i, seed i)) r x =
      (∑ i : Fin n, r ^ (i : ℕ) * octave (seed i) (x * 2 ^ (i : ℕ) + offset i)) / ∑ i : Fin n, r ^ (i : ℕ) := by
  have key : ∀ (n : ℕ) (offset : Fin n → ℝ) (seed : Fin n → BitVec 64) (w total freq result : ℝ),
      fractalLoop octave r x (List.ofFn fun i => (offset i, seed i)) w total freq result =
        (result + w * ∑ i : Fin n, r ^ (i : ℕ) * octave (seed i) (x * (freq * 2 ^ (i : ℕ)) + offset i), total + w * ∑ i : Fin n, r ^ (i : ℕ)) := by
    intro n
    induction n with
    | zero => intros; simp [fractalLoop]
    | succ n ih =>
      intro offset seed w total freq result
      rw [List.ofFn_succ]
      simp only [fractalLoop]
      rw [ih (fun i => offset i.succ) (fun i => seed i.succ), Fin.sum_univ_succ, Fin.sum_univ_succ]
      simp only [Fin.val_zero, pow_zero, one_mul, mul_one, Fin.val_succ]
      have e1 : ∀ i : Fin n, r ^ ((i : ℕ) + 1) * octave (seed i.succ) (x * (freq * 2 ^ ((i : ℕ) + 1)) + offset i.succ) =
          r * (r ^ (i : ℕ) * octave (seed i.succ) (x * (freq * 2 * 2 ^ (i : ℕ)) + offset i.succ)) := by
        intro i
        rw [show x * (freq * 2 ^ ((i : ℕ) + 1)) = x * (freq * 2 * 2 ^ (i : ℕ)) by ring]; ring
      have e2 : ∀ i : Fin n, r ^ ((i : ℕ) + 1) = r * r ^ (i : ℕ) := fun i => by ring
      simp only [e1]
      simp only [e2, ← Finset.mul_sum]
      refine Prod.ext ?_ ?_ <;> simp only <;> rw [mul_add, ← mul_assoc, ← add_assoc] <;> simp only [mul_one]
  unfold fractal
  rw [key]
  simp only [zero_add, one_mul]

/-- The easing functions of `C30` satisfy the requirements. -/
example (hash64a : BitVec 64 → BitVec 64) (seed : BitVec 64) : Continuous (easeNoise hash64a smooth3 (fun x => x) seed) := by
  refine C33_ease_continuous hash64a _ _ ?_ continuousOn_id C30_smooth3.zero C30_smooth3.one rfl rfl seed
  unfold smooth3; fun_prop

example (octave : BitVec 64 → ℝ → ℝ) : fractal octave [(0, 1), (1 / 2, 2)] (1 / 2) 3 = (octave 1 3 + 1 / 2 * octave 2 (13 / 2)) / (3 / 2) := by
  have := C33_fractal_exact octave 2 ![0, 1 / 2] ![1, 2] (1 / 2) 3
  simp [Fin.sum_univ_two, List.ofFn_succ] at this
  norm_num at this
  norm_num
  exact this

end
end Fundsp.Math
