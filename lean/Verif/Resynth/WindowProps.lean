import Verif.Resynth.Window
import Verif.Resynth.Props

/-!
# What the window tells the processing function: property C108
-/

noncomputable section
namespace Fundsp.Rsy

variable {P : Type} {i o : Nat}

/-! ## Specification -/

/-- What is true of frame `m` with windows of `4 H` samples every `H` samples: its sample `n` is input sample `m H + n`. -/
def truth (H : Nat) (sr : ℝ) (m : Nat) : Told where
  latency := 4 * H / sr
  time := (m * H + 2 * H) / sr
  timeAt n := (m * H + n) / sr
  windowsPerSecond := 1 / (H / sr)
  deltaTime := H / sr
  bins := 2 * H + 1
  frequency k := k * (sr / (4 * H))

/-- The state of a processing function after it was called for `m` frames in order, each time with the truth about that frame and its spectrum. -/
def after (H : Nat) (sr : ℝ) (g : P → Told → (Fin i → Nat → ℂ) → P × (Fin o → Nat → ℂ)) (w : Nat → Frame ℝ i) (p : P) : Nat → P
  | 0 => p
  | m + 1 => (g (after H sr g w p m) (truth H sr m) (spectrum H w m)).1

theorem told_eq (H : Nat) (hH : 0 < H) (sr : ℝ) (m : Nat) : told (4 * H) sr (4 * H + m * H) = truth H sr m := by
  have hHr : (H : ℝ) ≠ 0 := by positivity
  unfold told truth latency time timeAt windowsPerSecond deltaTime bins frequency
  have h2 : (4 * H) >>> 1 = 2 * H := by rw [Nat.shiftRight_eq_div_pow]; omega
  rw [h2, show 4 * H + m * H - 2 * H = m * H + 2 * H by omega, show 4 * H + m * H - 4 * H = m * H by omega]
  push_cast
  congr 1
  · by_cases h : sr = 0
    · subst h; simp
    · field_simp
  · by_cases h : sr = 0
    · subst h; simp
    · field_simp
  · funext k
    by_cases h : sr = 0
    · subst h; simp
    · field_simp

theorem procState_asking (H : Nat) (hH : 0 < H) (sr : ℝ) (g : P → Told → (Fin i → Nat → ℂ) → P × (Fin o → Nat → ℂ)) (w : Nat → Frame ℝ i) (p : P) (m : Nat) :
    procState H (asking (4 * H) sr g) w p m = after H sr g w p m := by
  induction m with
  | zero => rfl
  | succ m ih =>
    show (asking (4 * H) sr g (procState H (asking (4 * H) sr g) w p m) (4 * H + m * H) (spectrum H w m)).1 = _
    rw [ih]
    show (g _ (told (4 * H) sr (4 * H + m * H)) _).1 = _
    rw [told_eq H hH]
    rfl

/-- **C108.** What the window tells is true. After any number of input samples, a processing function has been called exactly for the frames that are complete, in order, once each,
and every time the answers of the window were right: the times are those of the samples in the window at which the input was heard, from zero at the first sample, and frames follow each other by the time between windows. -/
theorem C108_told (H : Nat) (hp2 : ∃ e, H = 2 ^ e) (sr : ℝ) (g : P → Told → (Fin i → Nat → ℂ) → P × (Fin o → Nat → ℂ)) (w : Nat → Frame ℝ i) (p : P) (t : Nat) :
    ((resynth (4 * H) (asking (4 * H) sr g)).ticks.st (new (4 * H) p : St P i o) w t).proc = after H sr g w p (if t < 4 * H then 0 else (t - 4 * H) / H + 1) := by
  have hH : 0 < H := by obtain ⟨e, he⟩ := hp2; rw [he]; exact Nat.two_pow_pos e
  have hinv := inv_st H hp2 (asking (4 * H) sr g) w p t
  rw [new_eq]
  rw [← procState_asking H hH]
  exact hinv.proc

/-- **C108.** Successive frames are `delta_time` apart, there are `windows_per_second` of them in a second, and sample `n` of a frame is heard `latency` after it arrived. -/
theorem C108_spacing (H : Nat) (hH : 0 < H) (sr : ℝ) (hsr : 0 < sr) (m n : Nat) :
    (told (4 * H) sr (4 * H + (m + 1) * H)).timeAt n = (told (4 * H) sr (4 * H + m * H)).timeAt n + (told (4 * H) sr (4 * H + m * H)).deltaTime ∧
    (told (4 * H) sr (4 * H + m * H)).deltaTime * (told (4 * H) sr (4 * H + m * H)).windowsPerSecond = 1 ∧
    (told (4 * H) sr (4 * H + m * H)).timeAt n + (told (4 * H) sr (4 * H + m * H)).latency = ((m * H + 4 * H + n : ℕ) : ℝ) / sr := by
  have hHr : (H : ℝ) ≠ 0 := by positivity
  have hs := hsr.ne'
  rw [told_eq H hH, told_eq H hH]
  unfold truth
  dsimp only
  push_cast
  refine ⟨by field_simp; ring, by field_simp, by field_simp; ring⟩

theorem sum_cis_int (N : Nat) (hN : 0 < N) (r : ℤ) (hr : |r| < N) : ∑ n ∈ Finset.range N, cis ((r : ℝ) * n / N) = if r = 0 then (N : ℂ) else 0 := by
  rcases le_total 0 r with h | h
  · obtain ⟨d, rfl⟩ := Int.eq_ofNat_of_zero_le h
    have hd : d < N := by rw [abs_of_nonneg h] at hr; exact_mod_cast hr
    have := sum_cis N hN d 0 hd hN
    rw [if_congr (show ((d : ℤ) = 0 ↔ d = 0) by omega) rfl rfl, ← this]
    refine Finset.sum_congr rfl fun n _ => ?_
    rw [← cis_add]; congr 1; push_cast; ring
  · obtain ⟨d, hd'⟩ := Int.eq_ofNat_of_zero_le (show 0 ≤ -r by omega)
    obtain rfl : r = -(d : ℤ) := by omega
    have hd : d < N := by rw [abs_of_nonpos h] at hr; omega
    have := sum_cis N hN 0 d hN hd
    rw [if_congr (show (-(d : ℤ) = 0 ↔ 0 = d) by omega) rfl rfl, ← this]
    refine Finset.sum_congr rfl fun n _ => ?_
    rw [← cis_add]; congr 1; push_cast; ring

theorem sum_cis_from (N : Nat) (hN : 0 < N) (φ : ℝ) (r : ℤ) (hr : |r| < N) : ∑ n ∈ Finset.range N, cis (φ + (r : ℝ) * n / N) = if r = 0 then N * cis φ else 0 := by
  rw [Finset.sum_congr rfl (g := fun n : ℕ => cis φ * cis ((r : ℝ) * n / N)) (fun n _ => cis_add _ _), ← Finset.mul_sum, sum_cis_int N hN r hr]
  split <;> ring

theorem cis_cos (x : ℝ) : ((Real.cos (2 * Real.pi * x) : ℝ) : ℂ) = (cis x + cis (-x)) / 2 := by
  unfold cis
  rw [Complex.ofReal_cos, Complex.cos]
  push_cast
  congr 3
  ring

theorem hann_cis (H : Nat) (hH : 0 < H) (n : Nat) : ((hannWindow H n : ℝ) : ℂ) = 1 / 2 - (cis ((n : ℝ) / (4 * H : ℕ)) + cis (-((n : ℝ) / (4 * H : ℕ)))) / 4 := by
  have hHr : (H : ℝ) ≠ 0 := by positivity
  have e : hannWindow H n = 1 / 2 - Real.cos (2 * Real.pi * ((n : ℝ) / (4 * H : ℕ))) / 2 := by
    unfold hannWindow
    rw [show 2 * Real.pi * ((n : ℝ) / (4 * H : ℕ)) = 2 * (Real.pi * n / (4 * H)) by push_cast; ring, Real.cos_two_mul]
    have := Real.sin_sq_add_cos_sq (Real.pi * n / (4 * H))
    linarith
  rw [e, Complex.ofReal_sub, Complex.ofReal_div, Complex.ofReal_div, cis_cos]
  push_cast; ring

/-- **C108.** The frequency told for a bin is the frequency of that bin: of a steady tone `cos (2 π f t + 2 π φ)` at the frequency `f` of bin `k`, from the third bin to the third last, frame `m` has in bin `k` a
quarter of the window length with the phase of the tone at the start of the frame, in each neighbouring bin minus half of that, and nothing in any other bin. -/
theorem C108_frequency (H : Nat) (hH : 0 < H) (sr : ℝ) (hsr : 0 < sr) (φ : ℝ) (m k j : Nat) (hk : 2 ≤ k) (hk' : k + 2 ≤ 2 * H) (hj : j ≤ 2 * H) (w : Nat → Frame ℝ i) (c : Fin i)
    (hw : ∀ t : Nat, w t c = Real.cos (2 * Real.pi * (frequency (4 * H) sr k * (t / sr) + φ))) :
    spectrum H w m c j = if j = k then H * cis (frequency (4 * H) sr k * (m * H / sr) + φ)
      else if j = k + 1 ∨ j + 1 = k then -(H / 2) * cis (frequency (4 * H) sr k * (m * H / sr) + φ) else 0 := by
  have hHr : (H : ℝ) ≠ 0 := by positivity
  have hs := hsr.ne'
  have hN : 0 < 4 * H := by omega
  have hf : ∀ x : ℝ, frequency (4 * H) sr k * (x / sr) = k * x / (4 * H : ℕ) := fun x => by unfold frequency; push_cast; field_simp
  unfold spectrum dft
  rw [if_pos hj, hf]
  generalize hψ : (k : ℝ) * (m * H) / (4 * H : ℕ) + φ = ψ
  have term : ∀ n : ℕ, (((w (m * H + n) c * hannWindow H n : ℝ)) : ℂ) * cis (-((j : ℝ) * n / (4 * H : ℕ))) =
      1 / 4 * cis (ψ + (((k : ℤ) - j : ℤ) : ℝ) * n / (4 * H : ℕ)) - 1 / 8 * cis (ψ + (((k : ℤ) + 1 - j : ℤ) : ℝ) * n / (4 * H : ℕ)) - 1 / 8 * cis (ψ + (((k : ℤ) - 1 - j : ℤ) : ℝ) * n / (4 * H : ℕ)) +
      (1 / 4 * cis (-ψ + ((-(k : ℤ) - j : ℤ) : ℝ) * n / (4 * H : ℕ)) - 1 / 8 * cis (-ψ + ((-(k : ℤ) + 1 - j : ℤ) : ℝ) * n / (4 * H : ℕ)) - 1 / 8 * cis (-ψ + ((-(k : ℤ) - 1 - j : ℤ) : ℝ) * n / (4 * H : ℕ))) := by
    intro n
    have e1 : frequency (4 * H) sr k * ((m * H + n : ℕ) / sr) + φ = ψ + (k : ℝ) * n / (4 * H : ℕ) := by
      rw [hf, ← hψ]; push_cast; ring
    rw [Complex.ofReal_mul, hw, e1, cis_cos, hann_cis H hH]
    have a1 : cis (ψ + (((k : ℤ) - j : ℤ) : ℝ) * n / (4 * H : ℕ)) = cis (ψ + (k : ℝ) * n / (4 * H : ℕ)) * cis (-((j : ℝ) * n / (4 * H : ℕ))) := by
      rw [← cis_add]; congr 1; push_cast; ring
    have a2 : cis (ψ + (((k : ℤ) + 1 - j : ℤ) : ℝ) * n / (4 * H : ℕ)) = cis (ψ + (k : ℝ) * n / (4 * H : ℕ)) * cis (-((j : ℝ) * n / (4 * H : ℕ))) * cis ((n : ℝ) / (4 * H : ℕ)) := by
      rw [← cis_add, ← cis_add]; congr 1; push_cast; ring
    have a3 : cis (ψ + (((k : ℤ) - 1 - j : ℤ) : ℝ) * n / (4 * H : ℕ)) = cis (ψ + (k : ℝ) * n / (4 * H : ℕ)) * cis (-((j : ℝ) * n / (4 * H : ℕ))) * cis (-((n : ℝ) / (4 * H : ℕ))) := by
      rw [← cis_add, ← cis_add]; congr 1; push_cast; ring
    have a4 : cis (-ψ + ((-(k : ℤ) - j : ℤ) : ℝ) * n / (4 * H : ℕ)) = cis (-(ψ + (k : ℝ) * n / (4 * H : ℕ))) * cis (-((j : ℝ) * n / (4 * H : ℕ))) := by
      rw [← cis_add]; congr 1; push_cast; ring
    have a5 : cis (-ψ + ((-(k : ℤ) + 1 - j : ℤ) : ℝ) * n / (4 * H : ℕ)) = cis (-(ψ + (k : ℝ) * n / (4 * H : ℕ))) * cis (-((j : ℝ) * n / (4 * H : ℕ))) * cis ((n : ℝ) / (4 * H : ℕ)) := by
      rw [← cis_add, ← cis_add]; congr 1; push_cast; ring
    have a6 : cis (-ψ + ((-(k : ℤ) - 1 - j : ℤ) : ℝ) * n / (4 * H : ℕ)) = cis (-(ψ + (k : ℝ) * n / (4 * H : ℕ))) * cis (-((j : ℝ) * n / (4 * H : ℕ))) * cis (-((n : ℝ) / (4 * H : ℕ))) := by
      rw [← cis_add, ← cis_add]; congr 1; push_cast; ring
    rw [a1, a2, a3, a4, a5, a6]
    ring
  rw [Finset.sum_congr rfl (fun n _ => term n)]
  simp only [Finset.sum_add_distrib, Finset.sum_sub_distrib, ← Finset.mul_sum]
  rw [sum_cis_from _ hN _ _ (by rw [abs_lt]; omega), sum_cis_from _ hN _ _ (by rw [abs_lt]; omega), sum_cis_from _ hN _ _ (by rw [abs_lt]; omega),
    sum_cis_from _ hN _ _ (by rw [abs_lt]; omega), sum_cis_from _ hN _ _ (by rw [abs_lt]; omega), sum_cis_from _ hN _ _ (by rw [abs_lt]; omega)]
  rw [if_neg (show ¬ (-(k : ℤ) - j = 0) by omega), if_neg (show ¬ (-(k : ℤ) + 1 - j = 0) by omega), if_neg (show ¬ (-(k : ℤ) - 1 - j = 0) by omega)]
  by_cases h1 : j = k
  · rw [if_pos h1, if_pos (show (k : ℤ) - j = 0 by omega), if_neg (show ¬ ((k : ℤ) + 1 - j = 0) by omega), if_neg (show ¬ ((k : ℤ) - 1 - j = 0) by omega)]
    push_cast; ring
  · rw [if_neg h1, if_neg (show ¬ ((k : ℤ) - j = 0) by omega)]
    by_cases h2 : j = k + 1
    · rw [if_pos (Or.inl h2), if_pos (show (k : ℤ) + 1 - j = 0 by omega), if_neg (show ¬ ((k : ℤ) - 1 - j = 0) by omega)]
      push_cast; ring
    · by_cases h3 : j + 1 = k
      · rw [if_pos (Or.inr h3), if_neg (show ¬ ((k : ℤ) + 1 - j = 0) by omega), if_pos (show (k : ℤ) - 1 - j = 0 by omega)]
        push_cast; ring
      · rw [if_neg (show ¬ (j = k + 1 ∨ j + 1 = k) by omega), if_neg (show ¬ ((k : ℤ) + 1 - j = 0) by omega), if_neg (show ¬ ((k : ℤ) - 1 - j = 0) by omega)]
        ring

/-- A processing function that writes down the times it is told: with windows of 8 samples at 8 Hz, after 13 samples it has been called three times. -/
example (w : Nat → Frame ℝ 1) :
    ((resynth (4 * 2) (asking (4 * 2) 8 (fun (p : List ℝ) a (x : Fin 1 → Nat → ℂ) => (p ++ [a.time], x)))).ticks.st (new (4 * 2) [] : St (List ℝ) 1 1) w 13).proc = [4 / 8, 6 / 8, 8 / 8] := by
  rw [C108_told 2 ⟨1, rfl⟩]
  norm_num [after, truth]

/-- The hypotheses of `C108_frequency` can be met: bin 2 of windows of 16 samples. -/
example : ∃ w : Nat → Frame ℝ 1, ∀ t : Nat, w t 0 = Real.cos (2 * Real.pi * (frequency (4 * 4) 16 2 * (t / 16) + 0)) := ⟨fun t _ => _, fun _ => rfl⟩

end Fundsp.Rsy
