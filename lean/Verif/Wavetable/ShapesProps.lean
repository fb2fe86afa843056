import Verif.Wavetable.Fourier
import Verif.Wavetable.SynthProps

/-!
# The ready-made waveforms: property C106; wavetables made from a wave: property C107
-/

noncomputable section
namespace Fundsp.Wt

/-- A ready-made table set: forty tables from 20 Hz to 20 kHz, which play the spectrum and reach from -1 or to 1 and not further. They are fit for the oscillators. -/
def Ready (make : Nat → Option Table) (s c : Nat → ℝ) : Prop :=
  ∃ t M, (∀ m, M ≤ m → make m = some t) ∧ t.length = 40 ∧ Valid t ∧ PlaysBanded 20 20000 4 t s c ∧ (∀ e ∈ t, ∀ x ∈ e.2, |x| ≤ 1) ∧ ∃ e ∈ t, ∃ x ∈ e.2, |x| = 1

theorem top_pitch : 11000 < 20 * (2 : ℝ) ^ ((39 : ℕ) / 4 : ℝ) := by
  have h : ((2 : ℝ) ^ ((39 : ℕ) / 4 : ℝ)) ^ 4 = 2 ^ 39 := by
    rw [← Real.rpow_natCast, ← Real.rpow_mul (by norm_num), ← Real.rpow_natCast]
    congr 1; push_cast; ring
  have hp : 0 < (2 : ℝ) ^ ((39 : ℕ) / 4 : ℝ) := by positivity
  generalize (2 : ℝ) ^ ((39 : ℕ) / 4 : ℝ) = y at h hp
  by_contra c
  have h1 : y ≤ 550 := by linarith
  have h2 : y ^ 4 ≤ 550 ^ 4 := pow_le_pow_left₀ hp.le h1 4
  rw [h] at h2
  norm_num at h2

theorem ready_of (phase : Nat → ℝ) (amp : ℝ → Nat → ℝ) (amp' : Nat → ℝ) (ha : ∀ p i, 1 ≤ i → amp p i = amp' i) (hn : ∀ i, 1 ≤ i → 0 ≤ amp' i)
    (s c : Nat → ℝ) (K : ℝ) (hK : 0 < K) (hs : ∀ i, 1 ≤ i → K * s i = amp' i * Real.cos (2 * Real.pi * phase i))
    (hc : ∀ i, 1 ≤ i → K * c i = amp' i * Real.sin (2 * Real.pi * phase i)) (h1 : s 1 ≠ 0) :
    Ready (fun m => new m 20 20000 4 phase amp) s c := by
  have hh : harmonics 20 < 8192 := by rw [harmonics_20]; norm_num
  obtain ⟨t, M, hM, hp⟩ := plays_of 20 20000 4 (by norm_num) hh (by norm_num) phase amp amp' ha hn s c K hK hs hc
  obtain ⟨z, hz, h2, h3⟩ := hp
  have hl : t.length = 40 := by
    have a := (h2 40).trans (pow_quarter 40)
    have b := (h2 39).trans (pow_quarter 39)
    omega
  obtain ⟨n1, n2⟩ := C62_normalized M 20 20000 4 phase amp t (hM M le_rfl)
  have hv : Valid t := C62_valid 20 20000 4 phase amp (by norm_num) hh (by norm_num) (by have := (pow_quarter 2).2 (by norm_num); exact_mod_cast this) M t (hM M le_rfl)
  refine ⟨t, M, hM, hl, hv, ⟨z, hz, h2, h3⟩, n1, n2.resolve_left fun hzero => ?_⟩
  obtain ⟨wave, hw, hwl, hwv⟩ := h3 39 (by omega)
  obtain ⟨r, _, hr⟩ := hv.pow2 39 _ hw
  have hr' : wave.length = 2 ^ r := hr
  have hr5 : 2 ≤ r := by
    by_contra h
    have : 2 ^ r ≤ 2 ^ 1 := Nat.pow_le_pow_right (by norm_num) (by omega)
    omega
  have h4 : 4 * (2 ^ r / 4) = 2 ^ r := Nat.mul_div_cancel' (by simpa using Nat.pow_dvd_pow 2 hr5)
  have e := hwv (wave.length / 4) (by omega)
  have hmem : wave.getD (wave.length / 4) 0 ∈ wave := by
    rw [List.getD_eq_getElem?_getD, List.getElem?_eq_getElem (by omega)]; exact List.getElem_mem _
  rw [hzero _ (List.mem_of_getElem? hw) _ hmem] at e
  have hfl : ⌊22000 / (20 * (2 : ℝ) ^ ((39 : ℕ) / 4 : ℝ))⌋₊ = 1 := by
    have a := top_pitch
    have b := (pow_quarter 39).2 (by norm_num)
    rw [Nat.floor_eq_iff (by positivity), le_div_iff₀ (by positivity), div_lt_iff₀ (by positivity)]
    push_cast at a b ⊢
    constructor <;> linarith
  unfold banded at e
  rw [hfl, Finset.Icc_self, Finset.sum_singleton] at e
  have hx : ((wave.length / 4 : ℕ) : ℝ) / wave.length = 1 / 4 := by
    rw [div_eq_div_iff (by rw [hr']; positivity) (by norm_num)]
    have : wave.length / 4 * 4 = 1 * wave.length := by rw [hr']; omega
    exact_mod_cast this
  rw [hx, show 2 * Real.pi * ((1 : ℕ) : ℝ) * (1 / 4) = Real.pi / 2 by push_cast; ring, Real.sin_pi_div_two, Real.cos_pi_div_two] at e
  have hk : keep (((1 : ℕ) : ℝ) * (20 * (2 : ℝ) ^ ((39 : ℕ) / 4 : ℝ))) = 1 := by
    unfold keep
    rw [if_pos]
    have b := (pow_quarter 39).2 (by norm_num)
    push_cast at b ⊢; linarith
  rw [hk] at e
  have : z * s 1 = 0 := by linarith
  rcases mul_eq_zero.1 this with h | h
  · exact hz.ne' h
  · exact h1 h

theorem and_one (i : Nat) : (i &&& 1 = 1) ↔ i % 2 = 1 := by rw [Nat.and_one_is_mod]
theorem and_three (i : Nat) : (i &&& 3 = 3) ↔ i % 4 = 3 := by
  rw [show i &&& 3 = i % 4 from Nat.and_two_pow_sub_one_eq_mod i 2]

theorem cos_half : Real.cos (2 * Real.pi * 0.5) = -1 := by rw [show 2 * Real.pi * 0.5 = Real.pi by ring, Real.cos_pi]
theorem sin_half : Real.sin (2 * Real.pi * 0.5) = 0 := by rw [show 2 * Real.pi * 0.5 = Real.pi by ring, Real.sin_pi]

theorem sin_none : Real.sin (2 * Real.pi * 0) = 0 := by rw [mul_zero, Real.sin_zero]
theorem cos_none : Real.cos (2 * Real.pi * 0) = 1 := by rw [mul_zero, Real.cos_zero]

/-- **C106, saw.** The saw table set plays the band-limited saw: every partial has the Fourier coefficients of the saw shape, in sine and cosine. -/
theorem C106_saw : Ready sawTable (sinCoef saw) (cosCoef saw) := by
  refine ready_of sawPhase sawAmp (fun i => 1 / i) (fun _ _ _ => rfl) (fun i _ => by positivity) _ _ (Real.pi / 2) (by positivity) ?_ ?_ ?_
  · intro i hi
    rw [saw_sin i hi]
    unfold sawPhase
    simp only [and_one]
    have : (i : ℝ) ≠ 0 := by positivity
    have hpi := Real.pi_ne_zero
    split
    · rename_i h
      rw [mul_zero, Real.cos_zero, Odd.neg_one_pow (Nat.odd_iff.2 h)]; field_simp
    · rename_i h
      rw [cos_half, Even.neg_one_pow (Nat.even_iff.2 (by omega))]; field_simp
  · intro i hi
    rw [saw_cos i hi]
    unfold sawPhase
    split
    · rw [sin_none]; ring
    · rw [sin_half]; ring
  · rw [saw_sin 1 le_rfl]; have := Real.pi_pos; norm_num

/-- **C106, square.** -/
theorem C106_square : Ready squareTable (sinCoef square) (cosCoef square) := by
  refine ready_of (fun _ => 0) squareAmp (fun i => if i % 2 = 1 then 1 / (i : ℝ) else 0) (fun _ i _ => by unfold squareAmp; simp only [and_one])
    (fun i _ => by split <;> positivity) _ _ (Real.pi / 4) (by positivity) ?_ ?_ ?_
  · intro i hi
    rw [square_sin i hi, mul_zero, Real.cos_zero, mul_one]
    have : (i : ℝ) ≠ 0 := by positivity
    have hpi := Real.pi_ne_zero
    split
    · rename_i h
      rw [Odd.neg_one_pow (Nat.odd_iff.2 h)]; field_simp; norm_num
    · rename_i h
      rw [Even.neg_one_pow (Nat.even_iff.2 (by omega))]; ring
  · intro i hi
    rw [square_cos i hi, sin_none]; ring
  · rw [square_sin 1 le_rfl]; have := Real.pi_pos; norm_num

theorem sin_quarter (q r : Nat) : Real.sin (Real.pi * (4 * q + r : ℕ) / 2) = Real.sin (r * (Real.pi / 2)) := by
  rw [show Real.pi * ((4 * q + r : ℕ) : ℝ) / 2 = r * (Real.pi / 2) + q * (2 * Real.pi) by push_cast; ring, Real.sin_add_nat_mul_two_pi]

/-- **C106, triangle.** -/
theorem C106_triangle : Ready triangleTable (sinCoef triangle) (cosCoef triangle) := by
  refine ready_of trianglePhase triangleAmp (fun i => if i % 2 = 1 then 1 / (i : ℝ) ^ 2 else 0) (fun _ i _ => by unfold triangleAmp; simp only [and_one]; push_cast; rw [sq])
    (fun i _ => by split <;> positivity) _ _ (Real.pi ^ 2 / 8) (by positivity) ?_ ?_ ?_
  · intro i hi
    rw [triangle_sin i hi]
    have hi0 : (i : ℝ) ≠ 0 := by positivity
    have hpi := Real.pi_ne_zero
    have key : Real.sin (Real.pi * i / 2) = if i % 2 = 1 then Real.cos (2 * Real.pi * trianglePhase i) else 0 := by
      have e := sin_quarter (i / 4) (i % 4)
      rw [Nat.div_add_mod] at e
      rw [e]
      unfold trianglePhase
      simp only [and_three]
      have hlt : i % 4 < 4 := Nat.mod_lt _ (by norm_num)
      interval_cases h : i % 4
      · rw [if_neg (by omega)]; simp
      · rw [if_pos (by omega), if_neg (by norm_num), mul_zero, Real.cos_zero]; push_cast; rw [one_mul, Real.sin_pi_div_two]
      · rw [if_neg (by omega)]; push_cast; rw [show 2 * (Real.pi / 2) = Real.pi by ring, Real.sin_pi]
      · rw [if_pos (by omega), if_pos rfl, cos_half]; push_cast
        rw [show 3 * (Real.pi / 2) = Real.pi / 2 + Real.pi by ring, Real.sin_add_pi, Real.sin_pi_div_two]
    rw [key]
    split
    · field_simp
    · ring
  · intro i hi
    rw [triangle_cos i hi]
    have : Real.sin (2 * Real.pi * trianglePhase i) = 0 := by
      unfold trianglePhase
      split
      · exact sin_half
      · exact sin_none
    rw [this]; ring
  · rw [triangle_sin 1 le_rfl]; have := Real.pi_pos
    rw [show Real.pi * ((1 : ℕ) : ℝ) / 2 = Real.pi / 2 by push_cast; ring, Real.sin_pi_div_two]
    norm_num

theorem soft_sin (i : Nat) : Real.sin (2 * Real.pi * softPhase i) = 0 := by
  unfold softPhase
  split
  · exact sin_half
  · split
    · exact sin_none
    · exact sin_half

theorem soft_cos (i : Nat) : Real.cos (2 * Real.pi * softPhase i) = if i % 4 = 1 then 1 else -1 := by
  unfold softPhase
  simp only [and_one, and_three]
  by_cases h3 : i % 4 = 3
  · rw [if_pos h3, if_neg (by omega), cos_half]
  · rw [if_neg h3]
    by_cases h1 : i % 2 = 1
    · rw [if_pos h1, if_pos (by omega), cos_none]
    · rw [if_neg h1, if_neg (by omega), cos_half]

/-- **C106, soft saw.** It has all partials, in sine phase, and they fall off like those of a triangle, with the square of their number. -/
theorem C106_soft_saw : Ready softSawTable (fun i => (if i % 4 = 1 then 1 else -1) / (i : ℝ) ^ 2) (fun _ => 0) := by
  refine ready_of softPhase softSawAmp (fun i => 1 / (i : ℝ) ^ 2) (fun _ i _ => by unfold softSawAmp; push_cast; rw [sq])
    (fun i _ => by positivity) _ _ 1 one_pos ?_ ?_ (by norm_num)
  · intro i _
    rw [soft_cos]; ring
  · intro i _
    rw [soft_sin]; ring

theorem tz_odd (z : Nat) : ∀ j, j % 2 = 1 → trailingZeros (2 ^ z * j) = z := by
  induction z with
  | zero => intro j hj; rw [pow_zero, one_mul]; unfold trailingZeros; rw [dif_neg (by omega), if_pos hj]
  | succ z ih =>
    intro j hj
    unfold trailingZeros
    have hp : 0 < 2 ^ z * j := Nat.mul_pos (by positivity) (by omega)
    have e : 2 ^ (z + 1) * j = 2 * (2 ^ z * j) := by ring
    rw [e, dif_neg (by omega), if_neg (by omega), show 2 * (2 ^ z * j) / 2 = 2 ^ z * j by omega, ih j hj]

theorem shift_odd (z j : Nat) : (2 ^ z * j) >>> z = j := by
  rw [Nat.shiftRight_eq_div_pow]; exact Nat.mul_div_cancel_left j (by positivity)

theorem organ_odd (p : ℝ) (z j : Nat) (hj : j % 2 = 1) : organAmp p (2 ^ z * j) = 1 / ((2 : ℝ) ^ z * j + (j : ℝ) ^ 3) := by
  unfold organAmp
  simp only [tz_odd z j hj, shift_odd]
  push_cast; congr 1; ring

theorem two_pow_odd (i : Nat) (hi : 1 ≤ i) : ∃ z j, j % 2 = 1 ∧ i = 2 ^ z * j := by
  obtain ⟨z, j, h, e⟩ := Nat.exists_eq_pow_mul_and_not_dvd (n := i) (by omega) 2 (by norm_num)
  exact ⟨z, j, by omega, e⟩

/-- **C106, organ.** It has all partials, in sine phase. Partial `i`, with odd part `j`, is as loud as `1 / (i + j ^ 3)`. So octaves, with `j = 1`, are emphasized: they are as loud as
`1 / (i + 1)`, all others at most as loud as `1 / (i + 27)`. -/
theorem C106_organ : ∃ s : Nat → ℝ, Ready organTable s (fun _ => 0) ∧
    (∀ z j : Nat, j % 2 = 1 → s (2 ^ z * j) = (if 2 ^ z * j % 4 = 1 then 1 else -1) / ((2 : ℝ) ^ z * j + (j : ℝ) ^ 3)) ∧
    (∀ z : Nat, |s (2 ^ z)| = 1 / ((2 : ℝ) ^ z + 1)) ∧ ∀ i : Nat, 1 ≤ i → (∀ z, i ≠ 2 ^ z) → |s i| ≤ 1 / ((i : ℝ) + 27) := by
  have hs : ∀ z j : Nat, j % 2 = 1 → (if 2 ^ z * j % 4 = 1 then (1 : ℝ) else -1) * organAmp 0 (2 ^ z * j) = (if 2 ^ z * j % 4 = 1 then 1 else -1) / ((2 : ℝ) ^ z * j + (j : ℝ) ^ 3) := by
    intro z j hj
    rw [organ_odd 0 z j hj]; ring
  have hpos : ∀ i, 0 ≤ organAmp 0 i := fun i => by unfold organAmp; positivity
  have habs : ∀ i : Nat, |(if i % 4 = 1 then (1 : ℝ) else -1) * organAmp 0 i| = organAmp 0 i := fun i => by
    rw [abs_mul, abs_of_nonneg (hpos i)]; split <;> norm_num
  refine ⟨fun i => (if i % 4 = 1 then 1 else -1) * organAmp 0 i, ?_, hs, fun z => ?_, fun i hi hz => ?_⟩
  · refine ready_of softPhase organAmp (organAmp 0) (fun _ _ _ => rfl) (fun i _ => hpos i) _ _ 1 one_pos ?_ ?_ ?_
    · intro i _
      rw [soft_cos]; ring
    · intro i _
      rw [soft_sin]; ring
    · have := hs 0 1 (by norm_num)
      rw [pow_zero, one_mul] at this
      rw [this]; norm_num
  · dsimp only
    rw [habs]
    have := organ_odd 0 z 1 (by norm_num)
    rw [mul_one] at this
    rw [this]; push_cast; norm_num
  · dsimp only
    rw [habs]
    obtain ⟨z, j, hj, e⟩ := two_pow_odd i hi
    have h3 : 3 ≤ j := by
      rcases Nat.lt_or_ge j 3 with h | h
      · exfalso
        have : j = 1 := by omega
        subst this
        exact hz z (by rw [e, mul_one])
      · exact h
    rw [e, organ_odd 0 z j hj]
    push_cast
    have h3' : (3 : ℝ) ≤ j := by exact_mod_cast h3
    have : (3 : ℝ) ^ 3 ≤ (j : ℝ) ^ 3 := pow_le_pow_left₀ (by norm_num) h3' 3
    norm_num at this
    apply one_div_le_one_div_of_le <;> [positivity; linarith]

theorem hammond_big (p : ℝ) (z j : Nat) (hj : j % 2 = 1) (h4 : 4 ≤ 2 ^ z * j) :
    hammondAmp p (2 ^ z * j) = (if j = 1 ∨ j = 3 then 1 else if j = 9 then 1 / 5 else 0) / ((z : ℝ) + 1) ^ 2 := by
  have hz := tz_odd z j hj
  have hs := shift_odd z j
  generalize 2 ^ z * j = i at h4 hz hs
  unfold hammondAmp
  simp only [hz, hs]
  split
  · omega
  · omega
  · omega
  · have e : ((((z + 1) * (z + 1) : ℕ)) : ℝ) = ((z : ℝ) + 1) ^ 2 := by push_cast; ring
    rw [e]
    split
    · rw [if_pos (Or.inl rfl)]
    · rw [if_pos (Or.inr rfl)]
    · rw [if_neg (by norm_num), if_pos rfl]; ring
    · rename_i a b c
      rw [if_neg (by tauto), if_neg c]; ring

/-- **C106, Hammond.** The first three partials, in sine phase, are the loudest: they have the same size, and no other is more than a quarter of it. Of the others, those of the form `2 ^ z`,
`3 * 2 ^ z` and `9 * 2 ^ z` are there. -/
theorem C106_hammond : ∃ s : Nat → ℝ, Ready hammondTable s (fun _ => 0) ∧ s 1 = 1 ∧ s 2 = 1 ∧ s 3 = 1 ∧
    (∀ z j : Nat, j % 2 = 1 → 4 ≤ 2 ^ z * j → s (2 ^ z * j) = (if j = 1 ∨ j = 3 then 1 else if j = 9 then 1 / 5 else 0) / ((z : ℝ) + 1) ^ 2) ∧
    ∀ i : Nat, 4 ≤ i → |s i| ≤ 1 / 4 := by
  have hq : ∀ i : Nat, 4 ≤ i → 0 ≤ hammondAmp 0 i ∧ hammondAmp 0 i ≤ 1 / 4 := by
    intro i hi
    obtain ⟨z, j, hj, e⟩ := two_pow_odd i (by omega)
    rw [e, hammond_big 0 z j hj (e ▸ hi)]
    have hz0 : (0 : ℝ) ≤ z := by positivity
    have hzz : j = 1 ∨ j = 3 → (1 : ℝ) ≤ z := by
      intro h
      rcases Nat.eq_zero_or_pos z with h0 | h0
      · subst h0; rw [pow_zero, one_mul] at e; omega
      · exact_mod_cast h0
    split
    · rename_i h
      have := hzz h
      refine ⟨by positivity, ?_⟩
      rw [div_le_div_iff₀ (by positivity) (by norm_num)]; nlinarith
    · split
      · refine ⟨by positivity, ?_⟩
        rw [div_le_div_iff₀ (by positivity) (by norm_num)]; nlinarith
      · norm_num
  refine ⟨hammondAmp 0, ?_, rfl, rfl, rfl, fun z j hj h4 => hammond_big 0 z j hj h4, fun i hi => by rw [abs_of_nonneg (hq i hi).1]; exact (hq i hi).2⟩
  refine ready_of (fun _ => 0) hammondAmp (hammondAmp 0) (fun _ _ _ => rfl) (fun i hi => ?_) _ _ 1 one_pos ?_ ?_ ?_
  · rcases Nat.lt_or_ge i 4 with h | h
    · interval_cases i
      · exact zero_le_one (α := ℝ)
      · exact zero_le_one (α := ℝ)
      · exact zero_le_one (α := ℝ)
    · exact (hq i h).1
  · intro i _
    rw [cos_none]; ring
  · intro i _
    rw [sin_none]; ring
  · exact one_ne_zero (α := ℝ)

/-- **C106.** In making these tables, no product or sum of partial numbers exceeds 32 bits. -/
theorem C106_no_overflow (k i : Nat) (hi : i ≤ harmonics (20 * (2 : ℝ) ^ ((k : ℝ) / 4))) :
    i * i < 2 ^ 32 ∧ i + (i >>> trailingZeros i) * (i >>> trailingZeros i) * (i >>> trailingZeros i) < 2 ^ 32 := by
  have h := hi.trans (harmonics_low (by norm_num : (0 : ℝ) < 20) 4 (by norm_num) k)
  rw [harmonics_20] at h
  have hj : i >>> trailingZeros i ≤ i := Nat.shiftRight_le _ _
  generalize i >>> trailingZeros i = j at hj
  have h1 : i * i ≤ 1100 * 1100 := Nat.mul_le_mul h h
  have h2 : j * j * j ≤ 1100 * 1100 * 1100 := Nat.mul_le_mul (Nat.mul_le_mul (hj.trans h) (hj.trans h)) (hj.trans h)
  omega

/-! ## Tables made from a wave -/

/-- Fourier sums of a wave: of cosine and of sine. Partial `i` of the wave, at phase `x`, is `(2 / N) (A cos 2πix + B sin 2πix)`. Partials from half the length on are left out. -/
def cosSum (wave : List ℝ) (i : Nat) : ℝ :=
  if i < wave.length / 2 then ∑ n ∈ Finset.range wave.length, wave.getD n 0 * Real.cos (2 * Real.pi * i * (n / wave.length)) else 0
def sinSum (wave : List ℝ) (i : Nat) : ℝ :=
  if i < wave.length / 2 then ∑ n ∈ Finset.range wave.length, wave.getD n 0 * Real.sin (2 * Real.pi * i * (n / wave.length)) else 0

theorem spectrum_eq (wave : List ℝ) (i : Nat) (h1 : 1 ≤ i) (hi : i < wave.length / 2) : spectrum wave i = ⟨cosSum wave i, -sinSum wave i⟩ := by
  unfold spectrum cosSum sinSum Rsy.realFft
  rw [if_pos hi, if_pos hi, if_neg (by omega), if_pos (by omega), if_pos (by omega), if_neg (by omega), if_pos (by omega), if_neg (by omega),
    show 2 * i / 2 = i by omega, show (2 * i + 1) / 2 = i by omega]
  have hc : ∀ y : ℝ, Rsy.cis y = ⟨Real.cos (2 * Real.pi * y), Real.sin (2 * Real.pi * y)⟩ := fun y => by
    unfold Rsy.cis
    apply Complex.ext
    · rw [Complex.exp_ofReal_mul_I_re]
    · rw [Complex.exp_ofReal_mul_I_im]
  unfold Rsy.dft
  apply Complex.ext
  · simp only [Complex.re_sum]
    refine Finset.sum_congr rfl fun n _ => ?_
    rw [hc, Complex.re_ofReal_mul]
    dsimp only
    rw [show 2 * Real.pi * -((i : ℝ) * n / wave.length) = -(2 * Real.pi * i * (n / wave.length)) by ring, Real.cos_neg]
  · simp only [Complex.im_sum, ← Finset.sum_neg_distrib]
    refine Finset.sum_congr rfl fun n _ => ?_
    rw [hc, Complex.im_ofReal_mul]
    dsimp only
    rw [show 2 * Real.pi * -((i : ℝ) * n / wave.length) = -(2 * Real.pi * i * (n / wave.length)) by ring, Real.sin_neg]
    ring

theorem fromWave_plays (wave : List ℝ) (low high d : ℝ) (hlow : 0 < low) (hh : harmonics low < 8192) (hd : 0 < d) :
    ∃ t M, (∀ m, M ≤ m → new m low high d (wavePhase wave) (waveAmp wave) = some t) ∧ PlaysBanded low high d t (cosSum wave) (fun i => -sinSum wave i) := by
  refine plays_of low high d hlow hh hd (wavePhase wave) (waveAmp wave) (waveAmp wave 0) (fun _ _ _ => rfl) (fun i _ => by unfold waveAmp; split <;> positivity) _ _ 1 one_pos ?_ ?_
  · intro i h1
    unfold wavePhase waveAmp
    by_cases hi : i < wave.length / 2
    · rw [if_pos hi, if_pos hi, mul_div_cancel₀ _ (by have := Real.pi_pos; positivity), Complex.norm_mul_cos_arg, spectrum_eq wave i h1 hi, one_mul]
    · rw [if_neg hi, if_neg hi]; unfold cosSum; rw [if_neg hi]; ring
  · intro i h1
    unfold wavePhase waveAmp
    by_cases hi : i < wave.length / 2
    · rw [if_pos hi, if_pos hi, mul_div_cancel₀ _ (by have := Real.pi_pos; positivity), Complex.norm_mul_sin_arg, spectrum_eq wave i h1 hi, one_mul]
    · rw [if_neg hi, if_neg hi]; unfold sinSum; rw [if_neg hi]; ring

/-- What a table set made from a wave should play: the wave, band-limited. -/
def PlaysWave (low high d : ℝ) (t : Table) (wave : List ℝ) : Prop := PlaysBanded low high d t (sinSum wave) (cosSum wave)

/-- **C107, as far as it is true.** A table set made from a single cycle wave has all partials of the wave below half its length, in their proportions, but each is late by a quarter of its own cycle: where
partial `i` of the wave is `A cos y + B sin y` with `y = 2 π i x`, that of the tables is `A cos (y - π / 2) + B sin (y - π / 2)`. -/
theorem C107_partial (wave : List ℝ) (e : Nat) (he : 1 ≤ e ∧ e ≤ 15) (hl : wave.length = 2 ^ e) (low high d : ℝ) (hlow : 0 < low) (hh : harmonics low < 8192) (hd : 0 < d) :
    ∃ (t : Table) (M : Nat) (z : ℝ), (∀ m, M ≤ m → fromWave m low high d wave = some t) ∧ 0 < z ∧ (∀ k : Nat, k < t.length ↔ low * (2 : ℝ) ^ ((k : ℝ) / d) ≤ high) ∧
      ∀ k : Nat, k < t.length → ∃ w : List ℝ, t[k]? = some (low * (2 : ℝ) ^ ((k : ℝ) / d), w) ∧ 32 ≤ w.length ∧ ∀ n : Nat, n < w.length →
        w.getD n 0 = z * ∑ i ∈ Finset.Icc 1 ⌊22000 / (low * (2 : ℝ) ^ ((k : ℝ) / d))⌋₊, keep (i * (low * (2 : ℝ) ^ ((k : ℝ) / d))) *
          (cosSum wave i * Real.cos (2 * Real.pi * i * (n / w.length) - Real.pi / 2) + sinSum wave i * Real.sin (2 * Real.pi * i * (n / w.length) - Real.pi / 2)) := by
  obtain ⟨t, M, hM, z, hz, h2, h3⟩ := fromWave_plays wave low high d hlow hh hd
  refine ⟨t, M, z, fun m hm => ?_, hz, h2, fun k hk => ?_⟩
  · unfold fromWave
    rw [if_pos, hM m hm]
    rw [hl]
    exact List.mem_map.2 ⟨e - 1, List.mem_range.2 (by omega), by rw [Nat.sub_add_cancel he.1]⟩
  · obtain ⟨w, a, b, c⟩ := h3 k hk
    refine ⟨w, a, b, fun n hn => ?_⟩
    rw [c n hn]
    unfold banded
    congr 1
    refine Finset.sum_congr rfl fun i _ => ?_
    rw [Real.cos_sub_pi_div_two, Real.sin_sub_pi_div_two]
    ring

/-- A cycle of a sine in four samples. -/
def sine4 : List ℝ := [0, 1, 0, -1]

theorem sine4_sums (i : Nat) (hi : 1 ≤ i) : cosSum sine4 i = 0 ∧ sinSum sine4 i = if i = 1 then 2 else 0 := by
  unfold cosSum sinSum
  have hl : sine4.length = 4 := rfl
  rw [hl]
  rcases Nat.lt_or_ge i 2 with h | h
  · obtain rfl : i = 1 := by omega
    rw [if_pos (by norm_num), if_pos (by norm_num), if_pos rfl]
    simp only [Finset.sum_range_succ, Finset.sum_range_zero]
    have e0 : sine4.getD 0 0 = 0 := rfl
    have e1 : sine4.getD 1 0 = 1 := rfl
    have e2 : sine4.getD 2 0 = 0 := rfl
    have e3 : sine4.getD 3 0 = -1 := rfl
    rw [e0, e1, e2, e3]
    push_cast
    rw [show 2 * Real.pi * 1 * (1 / 4) = Real.pi / 2 by ring, show 2 * Real.pi * 1 * (3 / 4) = Real.pi / 2 + Real.pi by ring, Real.cos_add_pi, Real.sin_add_pi,
      Real.cos_pi_div_two, Real.sin_pi_div_two]
    constructor <;> norm_num
  · rw [if_neg (by omega), if_neg (by omega), if_neg (by omega)]
    exact ⟨rfl, rfl⟩

/-- **C107, the negation.** A table set made from one cycle of a sine does not play the sine: it starts at its lowest point, where the sine is zero. -/
theorem C107_violation (m : Nat) (t : Table) (h : fromWave m 20 20000 4 sine4 = some t) :
    ¬ PlaysWave 20 20000 4 t sine4 ∧ ∀ k : Nat, k < t.length → ∃ w : List ℝ, t[k]? = some (20 * (2 : ℝ) ^ ((k : ℝ) / 4), w) ∧ w.getD 0 0 < 0 := by
  have hh : harmonics 20 < 8192 := by rw [harmonics_20]; norm_num
  obtain ⟨u, M, hM, z, hz, h2, h3⟩ := fromWave_plays sine4 20 20000 4 (by norm_num) hh (by norm_num)
  have htu : t = u := by
    have h1 := hM (m + M) (by omega)
    unfold fromWave at h
    split at h
    · unfold new at h h1
      obtain ⟨a, ha, rfl⟩ := Option.map_eq_some_iff.1 h
      rw [newLoop_mono _ _ _ _ m M _ _ _ ha] at h1
      exact Option.some.inj h1
    · cases h
  subst htu
  have hneg : ∀ k : Nat, k < t.length → ∃ w : List ℝ, t[k]? = some (20 * (2 : ℝ) ^ ((k : ℝ) / 4), w) ∧ w.getD 0 0 < 0 := by
    intro k hk
    obtain ⟨w, a, b, c⟩ := h3 k hk
    refine ⟨w, a, ?_⟩
    rw [c 0 (by omega)]
    have hp := (h2 k).1 hk
    have hp0 : 0 < 20 * (2 : ℝ) ^ ((k : ℝ) / 4) := by positivity
    generalize 20 * (2 : ℝ) ^ ((k : ℝ) / 4) = p at hp hp0
    have : banded (cosSum sine4) (fun i => -sinSum sine4 i) p (((0 : ℕ) : ℝ) / w.length) = -2 := by
      unfold banded
      have h1 : 1 ∈ Finset.Icc 1 ⌊22000 / p⌋₊ := Finset.mem_Icc.2 ⟨le_rfl, by rw [Nat.le_floor_iff (by positivity), le_div_iff₀ hp0]; push_cast; linarith⟩
      rw [Finset.sum_eq_single_of_mem 1 h1]
      · dsimp only
        rw [(sine4_sums 1 le_rfl).1, (sine4_sums 1 le_rfl).2, if_pos rfl]
        unfold keep
        rw [if_pos (by push_cast; linarith)]
        push_cast
        rw [zero_div, mul_zero, Real.cos_zero]; ring
      · intro i hi hne
        have := sine4_sums i (Finset.mem_Icc.1 hi).1
        dsimp only
        rw [this.1, this.2, if_neg hne]; ring
    rw [this]; linarith
  refine ⟨fun hw => ?_, hneg⟩
  obtain ⟨z', _, k2, k3⟩ := hw
  have h0 : 0 < t.length := (h2 0).2 (by norm_num)
  obtain ⟨w, a, hn⟩ := hneg 0 h0
  obtain ⟨w', a', b', c'⟩ := k3 0 h0
  rw [a] at a'
  obtain rfl : w = w' := by injection a' with a'; exact congrArg Prod.snd a'
  rw [c' 0 (by omega)] at hn
  have : banded (sinSum sine4) (cosSum sine4) (20 * (2 : ℝ) ^ (((0 : ℕ) : ℝ) / 4)) (((0 : ℕ) : ℝ) / w.length) = 0 := by
    unfold banded
    refine Finset.sum_eq_zero fun i hi => ?_
    rw [(sine4_sums i (Finset.mem_Icc.1 hi).1).1, Nat.cast_zero, zero_div (w.length : ℝ), mul_zero (2 * Real.pi * (i : ℝ)), Real.sin_zero]; ring
  rw [this, mul_zero] at hn
  exact lt_irrefl _ hn

/-- There is such a table set. -/
example : ∃ m t, fromWave m 20 20000 4 sine4 = some t := by
  obtain ⟨t, M, _, h, _⟩ := C107_partial sine4 2 (by norm_num) rfl 20 20000 4 (by norm_num) (by rw [harmonics_20]; norm_num) (by norm_num)
  exact ⟨M, t, h M le_rfl⟩

/-- The saw oscillator plays the saw tables: partial 2 of the saw has the coefficient `-1 / π`, in the table for 20 Hz there are 1100 partials. -/
example : sinCoef saw 2 = -(1 / Real.pi) ∧ harmonics 20 = 1100 := ⟨by rw [saw_sin 2 (by norm_num)]; ring, harmonics_20⟩

end Fundsp.Wt
