import Verif.Osc.Chaos
import Verif.Core.ResetLeaf
import Mathlib.Tactic.Linarith
import Mathlib.Tactic.Positivity
import Mathlib.Tactic.NormNum
import Mathlib.Tactic.Ring

/-! C86: the Rössler and Lorenz oscillators. -/

namespace Fundsp.Osc

/-! ## Specification -/

/-- A path of a system of three differential equations, followed by Euler's method with steps `h k`. -/
structure EulerPath (dx dy dz : ℝ → ℝ → ℝ → ℝ) (h X Y Z : ℕ → ℝ) : Prop where
  x : ∀ k, X (k + 1) = X k + h k * dx (X k) (Y k) (Z k)
  y : ∀ k, Y (k + 1) = Y k + h k * dy (X k) (Y k) (Z k)
  z : ∀ k, Z (k + 1) = Z k + h k * dz (X k) (Y k) (Z k)

/-- The Rössler system with parameters 0.15, 0.2 and 10. -/
def RosslerPath : (h X Y Z : ℕ → ℝ) → Prop := EulerPath (fun _ y z => -y - z) (fun x y _ => x + 3 / 20 * y) (fun x _ z => 1 / 5 + z * (x - 10))

/-- The Lorenz system with parameters 10, 28 and 8/3. -/
def LorenzPath : (h X Y Z : ℕ → ℝ) → Prop := EulerPath (fun x y _ => 10 * (y - x)) (fun x y z => x * (28 - z) - y) (fun x y z => x * y - 8 / 3 * z)

/-! ## Paths -/

theorem rossler_sr (rnd : BitVec 64 → ℝ) (s : ChaosSt) (w : Nat → Frame ℝ 1) (k : Nat) : ((rossler rnd).ticks.st s w k : ChaosSt).sr = s.sr := by
  induction k with
  | zero => rfl
  | succ k ih => exact ih

theorem lorenz_sr (rnd : BitVec 64 → ℝ) (s : ChaosSt) (w : Nat → Frame ℝ 1) (k : Nat) : ((lorenz rnd).ticks.st s w k : ChaosSt).sr = s.sr := by
  induction k with
  | zero => rfl
  | succ k ih => exact ih

/-- **C86, Rössler.** From any state and for any frequency signal the output is 0.05757 times the first coordinate of the path of the Rössler system from
that state with Euler steps of 2.91 times frequency over sample rate. -/
theorem C86_rossler (rnd : BitVec 64 → ℝ) (s : ChaosSt) (w : Nat → Frame ℝ 1) : ∃ X Y Z : ℕ → ℝ, X 0 = s.x ∧ Y 0 = s.y ∧ Z 0 = s.z ∧
    RosslerPath (fun k => 291 / 100 * (w k 0 / s.sr)) X Y Z ∧ ∀ k, (rossler rnd).stream s w k 0 = 5757 / 100000 * X (k + 1) := by
  refine ⟨fun k => ((rossler rnd).ticks.st s w k : ChaosSt).x, fun k => ((rossler rnd).ticks.st s w k : ChaosSt).y,
    fun k => ((rossler rnd).ticks.st s w k : ChaosSt).z, rfl, rfl, rfl, ⟨fun k => ?_, fun k => ?_, fun k => ?_⟩, fun k => ?_⟩
  · have h := rossler_sr rnd s w k
    show (((rossler rnd).ticks.st s w k : ChaosSt).rossler (w k 0)).x = _
    simp only [ChaosSt.rossler, h]; ring
  · have h := rossler_sr rnd s w k
    show (((rossler rnd).ticks.st s w k : ChaosSt).rossler (w k 0)).y = _
    simp only [ChaosSt.rossler, h]; ring
  · have h := rossler_sr rnd s w k
    show (((rossler rnd).ticks.st s w k : ChaosSt).rossler (w k 0)).z = _
    simp only [ChaosSt.rossler, h]; ring
  · show (((rossler rnd).ticks.st s w k : ChaosSt).rossler (w k 0)).x * 0.05757 = 5757 / 100000 * (((rossler rnd).ticks.st s w k : ChaosSt).rossler (w k 0)).x
    ring

/-- **C86, Lorenz.** From any state and for any frequency signal the output is 0.05107 times the first coordinate of the path of the Lorenz system from that
state with Euler steps of frequency over sample rate. -/
theorem C86_lorenz (rnd : BitVec 64 → ℝ) (s : ChaosSt) (w : Nat → Frame ℝ 1) : ∃ X Y Z : ℕ → ℝ, X 0 = s.x ∧ Y 0 = s.y ∧ Z 0 = s.z ∧
    LorenzPath (fun k => w k 0 / s.sr) X Y Z ∧ ∀ k, (lorenz rnd).stream s w k 0 = 5107 / 100000 * X (k + 1) := by
  refine ⟨fun k => ((lorenz rnd).ticks.st s w k : ChaosSt).x, fun k => ((lorenz rnd).ticks.st s w k : ChaosSt).y,
    fun k => ((lorenz rnd).ticks.st s w k : ChaosSt).z, rfl, rfl, rfl, ⟨fun k => ?_, fun k => ?_, fun k => ?_⟩, fun k => ?_⟩
  · have h := lorenz_sr rnd s w k
    show (((lorenz rnd).ticks.st s w k : ChaosSt).lorenz (w k 0)).x = _
    simp only [ChaosSt.lorenz, h]; ring
  · have h := lorenz_sr rnd s w k
    show (((lorenz rnd).ticks.st s w k : ChaosSt).lorenz (w k 0)).y = _
    simp only [ChaosSt.lorenz, h]; ring
  · have h := lorenz_sr rnd s w k
    show (((lorenz rnd).ticks.st s w k : ChaosSt).lorenz (w k 0)).z = _
    simp only [ChaosSt.lorenz, h]; ring
  · show (((lorenz rnd).ticks.st s w k : ChaosSt).lorenz (w k 0)).x * 0.05107 = 5107 / 100000 * (((lorenz rnd).ticks.st s w k : ChaosSt).lorenz (w k 0)).x
    ring

theorem EulerPath.unique {dx dy dz : ℝ → ℝ → ℝ → ℝ} {h X Y Z X' Y' Z' : ℕ → ℝ} (p : EulerPath dx dy dz h X Y Z) (p' : EulerPath dx dy dz h X' Y' Z')
    (h0 : X 0 = X' 0 ∧ Y 0 = Y' 0 ∧ Z 0 = Z' 0) (k : ℕ) : X k = X' k ∧ Y k = Y' k ∧ Z k = Z' k := by
  induction k with
  | zero => exact h0
  | succ k ih =>
    obtain ⟨a, b, c⟩ := ih
    rw [p.x, p.y, p.z, p'.x, p'.y, p'.z, a, b, c]
    exact ⟨rfl, rfl, rfl⟩

/-- **C86, sample rate.** Only the ratio of frequency to sample rate matters: scaling both leaves the output as it is. -/
theorem C86_ratio (rnd : BitVec 64 → ℝ) (s : ChaosSt) (c : ℝ) (hc : c ≠ 0) (w : Nat → Frame ℝ 1) (k : Nat) :
    (rossler rnd).stream (s.setSampleRate (c * s.sr)) (fun j i => c * w j i) k 0 = (rossler rnd).stream s w k 0 ∧
    (lorenz rnd).stream (s.setSampleRate (c * s.sr)) (fun j i => c * w j i) k 0 = (lorenz rnd).stream s w k 0 := by
  have e : ∀ j : ℕ, c * w j 0 / (c * s.sr) = w j 0 / s.sr := fun j => mul_div_mul_left _ _ hc
  constructor
  · obtain ⟨X, Y, Z, a, b, d, p, o⟩ := C86_rossler rnd s w
    obtain ⟨X', Y', Z', a', b', d', p', o'⟩ := C86_rossler rnd (s.setSampleRate (c * s.sr)) (fun j i => c * w j i)
    simp only [ChaosSt.setSampleRate, e] at p'
    rw [o, o', (EulerPath.unique p' p ⟨a'.trans a.symm, b'.trans b.symm, d'.trans d.symm⟩ (k + 1)).1]
  · obtain ⟨X, Y, Z, a, b, d, p, o⟩ := C86_lorenz rnd s w
    obtain ⟨X', Y', Z', a', b', d', p', o'⟩ := C86_lorenz rnd (s.setSampleRate (c * s.sr)) (fun j i => c * w j i)
    simp only [ChaosSt.setSampleRate, e] at p'
    rw [o, o', (EulerPath.unique p' p ⟨a'.trans a.symm, b'.trans b.symm, d'.trans d.symm⟩ (k + 1)).1]

/-- **C86, frequency zero.** At frequency zero both oscillators stand still. -/
theorem C86_hold (rnd : BitVec 64 → ℝ) (s : ChaosSt) (k : Nat) :
    (rossler rnd).stream s (fun _ _ => 0) k 0 = 5757 / 100000 * s.x ∧ (lorenz rnd).stream s (fun _ _ => 0) k 0 = 5107 / 100000 * s.x := by
  have key : ∀ {dx dy dz : ℝ → ℝ → ℝ → ℝ} {h X Y Z : ℕ → ℝ}, EulerPath dx dy dz h X Y Z → (∀ k, h k = 0) → ∀ k, X k = X 0 := by
    intro dx dy dz h X Y Z p h0 k
    induction k with
    | zero => rfl
    | succ k ih => rw [p.x, h0, ih]; ring
  constructor
  · obtain ⟨X, Y, Z, a, -, -, p, o⟩ := C86_rossler rnd s (fun _ _ => 0)
    rw [o, key p (by intro k; simp), a]
  · obtain ⟨X, Y, Z, a, -, -, p, o⟩ := C86_lorenz rnd s (fun _ _ => 0)
    rw [o, key p (by intro k; simp), a]

/-! ## Boundedness -/

/-- Size of the derivative in the ball of radius 50 around (0, 0, 38), in terms of `w = z - 38`. -/
theorem lorenz_speed {x y w : ℝ} (hV : x ^ 2 + y ^ 2 + w ^ 2 ≤ 2500) :
    (10 * (y - x)) ^ 2 + (x * (28 - (w + 38)) - y) ^ 2 + (x * y - 8 / 3 * (w + 38)) ^ 2 ≤
      100 * (y - x) ^ 2 + 2500 * x ^ 2 + 20 * (50 * x ^ 2) + 10 / 3 * (25 * (5 / 2 * x ^ 2 + 2 / 5 * y ^ 2)) - 608 / 3 * (x * y) + (10 * x + y) ^ 2 +
        64 / 9 * (w + 38) ^ 2 := by
  have hw : w ^ 2 ≤ 50 ^ 2 := by linarith [sq_nonneg x, sq_nonneg y]
  obtain ⟨hw1, hw2⟩ := abs_le.1 (abs_le_of_sq_le_sq hw (by norm_num))
  have hquart : x ^ 2 * (y ^ 2 + w ^ 2) ≤ x ^ 2 * 2500 := mul_le_mul_of_nonneg_left (by linarith [sq_nonneg x]) (sq_nonneg x)
  have hxw : x ^ 2 * w ≤ x ^ 2 * 50 := mul_le_mul_of_nonneg_left hw2 (sq_nonneg x)
  have h1 := mul_nonneg (by linarith : 0 ≤ 50 - w) (sq_nonneg (5 * x - 2 * y))
  have h2 := mul_nonneg (by linarith : 0 ≤ 50 + w) (sq_nonneg (5 * x + 2 * y))
  have e1 : (50 - w) * (5 * x - 2 * y) ^ 2 + (50 + w) * (5 * x + 2 * y) ^ 2 = 100 * (25 * x ^ 2 + 4 * y ^ 2) + 40 * (x * y * w) := by ring
  have e2 : (10 * (y - x)) ^ 2 + (x * (28 - (w + 38)) - y) ^ 2 + (x * y - 8 / 3 * (w + 38)) ^ 2 =
      100 * (y - x) ^ 2 + x ^ 2 * (y ^ 2 + w ^ 2) + 20 * (x ^ 2 * w) - 10 / 3 * (x * y * w) - 608 / 3 * (x * y) + (10 * x + y) ^ 2 +
      64 / 9 * (w + 38) ^ 2 := by ring
  rw [e2]
  linarith

theorem lorenz_drift {x y w : ℝ} (hw1 : -50 ≤ w) :
    -20 * x ^ 2 - 2 * y ^ 2 - 16 / 3 * w ^ 2 - 608 / 3 * w +
      (100 * (y - x) ^ 2 + 2500 * x ^ 2 + 20 * (50 * x ^ 2) + 10 / 3 * (25 * (5 / 2 * x ^ 2 + 2 / 5 * y ^ 2)) - 608 / 3 * (x * y) + (10 * x + y) ^ 2 +
        64 / 9 * (w + 38) ^ 2) / 250 + (x ^ 2 + y ^ 2 + w ^ 2) ≤ 2500 := by
  linarith [show (5 * x + 2 * y) ^ 2 = 25 * x ^ 2 + 20 * (x * y) + 4 * y ^ 2 by ring, sq_nonneg (5 * x + 2 * y), sq_nonneg x, sq_nonneg y,
    show (y - x) ^ 2 = y ^ 2 - 2 * (x * y) + x ^ 2 by ring, show (10 * x + y) ^ 2 = 100 * x ^ 2 + 20 * (x * y) + y ^ 2 by ring,
    show (w + 23) ^ 2 = w ^ 2 + 46 * w + 529 by ring, sq_nonneg (w + 23), show (w + 38) ^ 2 = w ^ 2 + 76 * w + 1444 by ring]

theorem euler_step {h V L G K : ℝ} (h0 : 0 ≤ h) (h1 : 250 * h ≤ 1) (hG0 : 0 ≤ G) (hG : G ≤ K) (hL : L + K / 250 + V ≤ 2500) (hV : V ≤ 2500) :
    V + h * L + h ^ 2 * G ≤ 2500 := by
  have a : h * h ≤ h * (1 / 250) := mul_le_mul_of_nonneg_left (by linarith) h0
  have b := mul_le_mul_of_nonneg_right a hG0
  have c := mul_le_mul_of_nonneg_left (show L + G / 250 + V ≤ 2500 by linarith) h0
  have d : 0 ≤ (1 - h) * (2500 - V) := mul_nonneg (by linarith) (by linarith)
  linarith [show h * h * G = h ^ 2 * G by ring, show h * (1 / 250) * G = h * (G / 250) by ring,
    show h * (L + G / 250 + V) = h * L + h * (G / 250) + h * V by ring, show (1 - h) * (2500 - V) = 2500 - V - h * 2500 + h * V by ring]

/-- The ball of radius 50 around (0, 0, 38) is not left by Euler steps of at most 1/250. -/
theorem lorenz_step {h x y z : ℝ} (h0 : 0 ≤ h) (h1 : 250 * h ≤ 1) (hV : x ^ 2 + y ^ 2 + (z - 38) ^ 2 ≤ 2500) :
    (x + h * (10 * (y - x))) ^ 2 + (y + h * (x * (28 - z) - y)) ^ 2 + (z + h * (x * y - 8 / 3 * z) - 38) ^ 2 ≤ 2500 := by
  obtain ⟨w, rfl⟩ : ∃ w, z = w + 38 := ⟨z - 38, by ring⟩
  rw [show w + 38 - 38 = w by ring] at hV
  have hw : w ^ 2 ≤ 50 ^ 2 := by linarith [sq_nonneg x, sq_nonneg y]
  have hw1 := (abs_le.1 (abs_le_of_sq_le_sq hw (by norm_num))).1
  have := euler_step h0 h1 (by positivity) (lorenz_speed hV) (lorenz_drift hw1) hV
  refine le_trans (le_of_eq ?_) this
  ring

/-- **C86, boundedness of the Lorenz oscillator (partial).** A new or reset oscillator, with any hash and any frequency signal between zero and 1/250 of the
sample rate (176 Hz at 44.1 kHz), stays within -2.56 and 2.56. Missing: higher frequencies. -/
theorem C86_lorenz_bounded_partial (rnd : BitVec 64 → ℝ) (hrnd : ∀ h, 0 ≤ rnd h ∧ rnd h ≤ 1) (s : ChaosSt) (hsr : 0 < s.sr) (w : Nat → Frame ℝ 1)
    (hw : ∀ k, 0 ≤ w k 0 ∧ 250 * w k 0 ≤ s.sr) (k : Nat) : |(lorenz rnd).stream (s.reset rnd) w k 0| ≤ 256 / 100 := by
  obtain ⟨X, Y, Z, a, b, c, p, o⟩ := C86_lorenz rnd (s.reset rnd) w
  have key : ∀ k, X k ^ 2 + Y k ^ 2 + (Z k - 38) ^ 2 ≤ 2500 := by
    intro k
    induction k with
    | zero =>
      rw [a, b, c]
      show rnd s.hash ^ 2 + 1 ^ 2 + (1 - 38 : ℝ) ^ 2 ≤ 2500
      nlinarith [hrnd s.hash]
    | succ k ih =>
      rw [p.x, p.y, p.z]
      refine lorenz_step (div_nonneg (hw k).1 hsr.le) ?_ ih
      rw [mul_div_assoc']
      exact (div_le_one hsr).2 (hw k).2
  rw [o]
  have h := key (k + 1)
  have hx : X (k + 1) ^ 2 ≤ 50 ^ 2 := by nlinarith [sq_nonneg (Y (k + 1)), sq_nonneg (Z (k + 1) - 38)]
  have := abs_le_of_sq_le_sq hx (by norm_num)
  rw [abs_mul, abs_of_pos (by norm_num : (0 : ℝ) < 5107 / 100000)]
  linarith

/-! ## Divergence -/

/-- Once the state is large in this sense, it grows without bound. -/
structure Escaped (x y z : ℝ) : Prop where
  large : 100 ≤ |x|
  order : 10 * (|x| + |y|) ≤ |z|

theorem escaped_step {x y z : ℝ} (h : Escaped x y z) :
    Escaped (x + (-y - z)) (y + (x + 3 / 20 * y)) (z + (1 / 5 + z * (x - 10))) ∧ 2 * |x| ≤ |x + (-y - z)| := by
  obtain ⟨h1, h2⟩ := h
  have hy := abs_nonneg y
  have hx1 : |z| - |x| - |y| ≤ |x + (-y - z)| := by
    have := abs_sub_abs_le_abs_sub z (x - y)
    have h3 := abs_sub x y
    rw [abs_sub_comm z] at this
    rw [show x + (-y - z) = x - y - z by ring]
    linarith
  have hx2 : |x + (-y - z)| ≤ |z| + |x| + |y| := by
    have h3 := abs_sub (x - y) z
    have h4 := abs_sub x y
    rw [show x + (-y - z) = x - y - z by ring]
    linarith
  have hy2 : |y + (x + 3 / 20 * y)| ≤ |x| + 23 / 20 * |y| := by
    rw [show y + (x + 3 / 20 * y) = x + 23 / 20 * y by ring]
    refine (abs_add_le _ _).trans ?_
    rw [abs_mul, abs_of_pos (by norm_num : (0 : ℝ) < 23 / 20)]
  have hz2 : |z| * (|x| - 9) - 1 / 5 ≤ |z + (1 / 5 + z * (x - 10))| := by
    rw [show z + (1 / 5 + z * (x - 10)) = z * (x - 9) - (-(1 / 5)) by ring]
    have h5 := abs_sub_abs_le_abs_sub (z * (x - 9)) (-(1 / 5))
    have h6 := abs_sub_abs_le_abs_sub x 9
    rw [abs_mul, abs_neg, abs_of_pos (by norm_num : (0 : ℝ) < 1 / 5)] at h5
    rw [abs_of_pos (by norm_num : (0 : ℝ) < 9)] at h6
    have h7 := mul_le_mul_of_nonneg_left h6 (abs_nonneg z)
    linarith
  refine ⟨⟨by linarith, ?_⟩, by linarith⟩
  have hz3 : |z| * 91 ≤ |z| * (|x| - 9) := mul_le_mul_of_nonneg_left (by linarith) (abs_nonneg z)
  linarith

/-- **C86, divergence.** The full claim, that the output stays bounded for all frequencies below half the sample rate, is false of the code: at the constant
frequency of sample rate over 2.91 (15155 Hz at 44.1 kHz) the output of a new Rössler oscillator leaves every bound, whatever its hash. -/
theorem C86_violation_diverges (rnd : BitVec 64 → ℝ) (hrnd : ∀ h, 0 ≤ rnd h ∧ rnd h ≤ 1) (s : ChaosSt) (hsr : 0 < s.sr) (B : ℝ) :
    ∃ k, B ≤ |(rossler rnd).stream (s.reset rnd) (fun _ _ => s.sr / 2.91) k 0| := by
  obtain ⟨X, Y, Z, a, b, c, p, o⟩ := C86_rossler rnd (s.reset rnd) (fun _ _ => s.sr / 2.91)
  have hh : 291 / 100 * (s.sr / 2.91 / s.sr) = 1 := by
    have : s.sr ≠ 0 := hsr.ne'
    field_simp; norm_num
  change RosslerPath (fun _ => 291 / 100 * (s.sr / 2.91 / s.sr)) X Y Z at p
  rw [hh] at p
  have px : ∀ k, X (k + 1) = X k + (-Y k - Z k) := fun k => (p.x k).trans (by rw [one_mul])
  have py : ∀ k, Y (k + 1) = Y k + (X k + 3 / 20 * Y k) := fun k => (p.y k).trans (by rw [one_mul])
  have pz : ∀ k, Z (k + 1) = Z k + (1 / 5 + Z k * (X k - 10)) := fun k => (p.z k).trans (by rw [one_mul])
  have hx0 : X 0 = rnd s.hash := a
  have hy0 : Y 0 = 1 := b
  have hz0 : Z 0 = 1 := c
  obtain ⟨r0, r1⟩ := hrnd s.hash
  rw [← hx0] at r0 r1
  set r := X 0 with hr
  have x1 : X 1 = r - 2 := by rw [px 0, ← hr, hy0, hz0]; ring
  have y1 : Y 1 = r + 23 / 20 := by rw [py 0, ← hr, hy0]; ring
  have z1 : Z 1 = r - 44 / 5 := by rw [pz 0, ← hr, hz0]; ring
  have x2 : X 2 = 113 / 20 - r := by rw [px 1, x1, y1, z1]; ring
  have y2 : Y 2 = 43 / 20 * r - 271 / 400 := by rw [py 1, x1, y1]; ring
  have z2 : Z 2 = (r - 44 / 5) * (r - 11) + 1 / 5 := by rw [pz 1, x1, z1]; ring
  have hz2 : 78 ≤ Z 2 ∧ Z 2 ≤ 97 := by rw [z2]; constructor <;> nlinarith
  have x3 : X 3 = 113 / 20 - r - (43 / 20 * r - 271 / 400) - Z 2 := by rw [px 2, x2, y2]; ring
  have y3 : Y 3 = 113 / 20 - r + 23 / 20 * (43 / 20 * r - 271 / 400) := by rw [py 2, x2, y2]; ring
  have z3 : Z 3 = 1 / 5 - Z 2 * (67 / 20 + r) := by rw [pz 2, x2]; ring
  have hx3 : -96 ≤ X 3 ∧ X 3 ≤ -71 := by rw [x3]; constructor <;> linarith
  have hy3 : 4 ≤ Y 3 ∧ Y 3 ≤ 7 := by rw [y3]; constructor <;> linarith
  have hz3 : -423 ≤ Z 3 ∧ Z 3 ≤ -261 := by rw [z3]; constructor <;> nlinarith
  have x4 : X 4 = X 3 + (-Y 3 - Z 3) := px 3
  have y4 : Y 4 = X 3 + 23 / 20 * Y 3 := by rw [py 3]; ring
  have z4 : Z 4 = Z 3 * (X 3 - 9) + 1 / 5 := by rw [pz 3]; ring
  have hx4 : 158 ≤ X 4 ∧ X 4 ≤ 400 := by rw [x4]; constructor <;> linarith
  have hy4 : -100 ≤ Y 4 ∧ Y 4 ≤ 0 := by rw [y4]; constructor <;> linarith
  have hz4 : 20000 ≤ Z 4 := by rw [z4]; nlinarith
  have he : ∀ k, Escaped (X (k + 4)) (Y (k + 4)) (Z (k + 4)) := by
    intro k
    induction k with
    | zero =>
      show Escaped (X 4) (Y 4) (Z 4)
      refine ⟨?_, ?_⟩
      · rw [abs_of_nonneg (by linarith)]; linarith
      · rw [abs_of_nonneg (by linarith), abs_of_nonpos hy4.2, abs_of_nonneg (by linarith)]; linarith
    | succ k ih =>
      rw [show k + 1 + 4 = k + 4 + 1 by ring, px (k + 4), py (k + 4), pz (k + 4)]
      exact (escaped_step ih).1
  have hgrow : ∀ k, 100 * 2 ^ k ≤ |X (k + 4)| := by
    intro k
    induction k with
    | zero => simpa using (he 0).large
    | succ k ih =>
      rw [show k + 1 + 4 = k + 4 + 1 by ring, px (k + 4), pow_succ]
      have := (escaped_step (he k)).2
      linarith
  obtain ⟨k, hk⟩ := pow_unbounded_of_one_lt B (by norm_num : (1 : ℝ) < 2)
  refine ⟨k + 3, ?_⟩
  rw [o, abs_mul, abs_of_pos (by norm_num : (0 : ℝ) < 5757 / 100000)]
  have := hgrow k
  have h2 : (0 : ℝ) < 2 ^ k := by positivity
  show B ≤ 5757 / 100000 * |X (k + 3 + 1)|
  rw [show k + 3 + 1 = k + 4 by ring]
  linarith

/-! ## Blocks and reset -/

/-- **C86, blocks.** Rendered in blocks of any sizes, both oscillators output the samples of single ticks. -/
theorem C86_block_equals_tick (rnd : BitVec 64 → ℝ) : BlockEqualsTick (rossler rnd) ∧ BlockEqualsTick (lorenz rnd) :=
  ⟨(tickBlock_iff _).1 (tickBlock_ofTick _ _), (tickBlock_iff _).1 (tickBlock_ofTick _ _)⟩

/-- **C86, start.** A new oscillator, at the default sample rate, starts from a first coordinate given by its hash, and coordinates one. Setting the hash
starts it over with the new hash; setting the sample rate does not disturb it. -/
theorem C86_start (rnd : BitVec 64 → ℝ) (s : ChaosSt) (h : BitVec 64) (sr : ℝ) :
    ChaosSt.new rnd = ⟨rnd 0, 1, 1, 44100, 0⟩ ∧ s.setHash rnd h = ⟨rnd h, 1, 1, s.sr, h⟩ ∧ s.reset rnd = ⟨rnd s.hash, 1, 1, s.sr, s.hash⟩ ∧
    s.setSampleRate sr = ⟨s.x, s.y, s.z, sr, s.hash⟩ := ⟨rfl, rfl, rfl, rfl⟩

/-- **C86/C19, reset.** Both oscillators sound after a reset as they did when new, with the sample rate and hash they were given. -/
theorem C86_reset (rnd : BitVec 64 → ℝ) (init : ChaosSt) (hi : init.reset rnd = init) :
    ResetFresh (rossler rnd) init ∧ ResetFresh (lorenz rnd) init := by
  have key : ∀ s : ChaosSt, s.sr = init.sr ∧ s.hash = init.hash → s.reset rnd = init := by
    rintro ⟨x, y, z, sr, h⟩ ⟨h1, h2⟩
    simp only at h1 h2
    subst h1 h2
    exact hi
  exact ⟨resetFresh_ofTick_eq (fun s : ChaosSt => s.sr = init.sr ∧ s.hash = init.hash) ⟨rfl, rfl⟩ (fun _ _ h => h) key,
    resetFresh_ofTick_eq (fun s : ChaosSt => s.sr = init.sr ∧ s.hash = init.hash) ⟨rfl, rfl⟩ (fun _ _ h => h) key⟩

/-! ## Non-vacuity -/

/-- A new oscillator with the frequency of the example in the documentation, 110 Hz, meets the conditions. -/
example (k : Nat) : |(lorenz fun _ => 1 / 3).stream ((ChaosSt.new fun _ => 1 / 3).reset fun _ => 1 / 3) (fun _ _ => 110) k 0| ≤ 256 / 100 :=
  C86_lorenz_bounded_partial _ (fun _ => by norm_num) _ (by norm_num [ChaosSt.new, ChaosSt.setSampleRate]) _
    (fun _ => by norm_num [ChaosSt.new, ChaosSt.setSampleRate]) k

/-- The first sample of a Lorenz oscillator at 441 Hz. -/
example : (lorenz fun _ => 0).stream (ChaosSt.new fun _ => 0) (fun _ _ => 441) 0 0 = 5107 / 1000000 := by
  show ((ChaosSt.new fun _ => 0).lorenz 441).x * 0.05107 = _
  norm_num [ChaosSt.new, ChaosSt.reset, ChaosSt.setSampleRate, ChaosSt.lorenz]

example (rnd : BitVec 64 → ℝ) (h : BitVec 64) : ResetFresh (rossler rnd) ((ChaosSt.new rnd).setHash rnd h) := (C86_reset rnd _ rfl).1

end Fundsp.Osc
