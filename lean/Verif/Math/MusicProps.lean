import Verif.Math.MusicLemmas
import Verif.Hash.Props

/-!
# C89: time functions, music and loudness conversions
-/
namespace Fundsp.Math
noncomputable section

/-! ## Oscillations in time -/

/-- **C89** `sin_hz` and `cos_hz` have period `1/hz`, stay in -1...1, start at 0 and 1 and are a quarter period apart. -/
theorem C89_sines (hz : ℝ) (h : hz ≠ 0) : (∀ t, sinHz hz (t + 1 / hz) = sinHz hz t ∧ cosHz hz (t + 1 / hz) = cosHz hz t) ∧
    (∀ t, |sinHz hz t| ≤ 1 ∧ |cosHz hz t| ≤ 1 ∧ sinHz hz t ^ 2 + cosHz hz t ^ 2 = 1) ∧
    (sinHz hz 0 = 0 ∧ cosHz hz 0 = 1) ∧ ∀ t, sinHz hz (t + 1 / (4 * hz)) = cosHz hz t := by
  refine ⟨fun t => ?_, fun t => ⟨Real.abs_sin_le_one _, Real.abs_cos_le_one _, Real.sin_sq_add_cos_sq _⟩, by simp [sinHz, cosHz], fun t => ?_⟩
  · have e : (t + 1 / hz) * hz * (2 * Real.pi) = t * hz * (2 * Real.pi) + 2 * Real.pi := by field_simp
    simp only [sinHz, cosHz, e, Real.sin_add_two_pi, Real.cos_add_two_pi, and_self]
  · have e : (t + 1 / (4 * hz)) * hz * (2 * Real.pi) = t * hz * (2 * Real.pi) + Real.pi / 2 := by field_simp; ring
    simp only [sinHz, cosHz, e, Real.sin_add_pi_div_two]

/-- **C89** the phase of `sin_hz` turns `hz` times per second: its rate of change is `2π hz` times `cos_hz`. -/
theorem C89_sines_rate (hz t : ℝ) : HasDerivAt (sinHz hz) (2 * Real.pi * hz * cosHz hz t) t ∧ HasDerivAt (cosHz hz) (-(2 * Real.pi * hz * sinHz hz t)) t := by
  have e : HasDerivAt (fun t : ℝ => t * hz * (2 * Real.pi)) (2 * Real.pi * hz) t := by
    have := ((hasDerivAt_id t).mul_const hz).mul_const (2 * Real.pi)
    have e : 1 * hz * (2 * Real.pi) = 2 * Real.pi * hz := by ring
    rw [e] at this
    exact this
  refine ⟨?_, ?_⟩
  · have := e.sin
    rw [mul_comm (Real.cos _)] at this
    exact this
  · have := e.cos
    rw [neg_mul, mul_comm (Real.sin _)] at this
    exact this

/-- The square wave of unit frequency at phase `p` of a period, and the triangle wave: the specification. -/
inductive Square : ℝ → ℝ → Prop
  | high (p : ℝ) (k : ℤ) : 0 ≤ p → p < 1 / 2 → Square (k + p) 1
  | low (p : ℝ) (k : ℤ) : 1 / 2 ≤ p → p < 1 → Square (k + p) (-1)
inductive Triangle : ℝ → ℝ → Prop
  | rise (p : ℝ) (k : ℤ) : -1 / 4 ≤ p → p ≤ 1 / 4 → Triangle (k + p) (4 * p)
  | fall (p : ℝ) (k : ℤ) : 1 / 4 ≤ p → p ≤ 3 / 4 → Triangle (k + p) (2 - 4 * p)

/-- **C89** `sqr_hz` is the square wave that is 1 in the first half of each period and -1 in the second. -/
theorem C89_square (hz t y : ℝ) : Square (t * hz) y ↔ sqrHz hz t = y := by
  have key : ∀ x : ℝ, Square x (if x - ⌊x⌋ < 1 / 2 then 1 else -1) := by
    intro x
    have h1 := Int.floor_le x
    have h2 := Int.lt_floor_add_one x
    have e : x = (⌊x⌋ : ℝ) + (x - ⌊x⌋) := by ring
    split
    · rename_i h
      have := Square.high (x - ⌊x⌋) ⌊x⌋ (by linarith) h
      rwa [← e] at this
    · rename_i h
      have := Square.low (x - ⌊x⌋) ⌊x⌋ (not_lt.1 h) (by linarith)
      rwa [← e] at this
  have val : ∀ x y : ℝ, Square x y → y = if x - ⌊x⌋ < 1 / 2 then 1 else -1 := by
    intro x y h
    cases h with
    | high p k h1 h2 =>
      have : ⌊(k : ℝ) + p⌋ = k := by rw [Int.floor_eq_iff]; constructor <;> linarith
      rw [this, if_pos (by linarith)]
    | low p k h1 h2 =>
      have : ⌊(k : ℝ) + p⌋ = k := by rw [Int.floor_eq_iff]; constructor <;> linarith
      rw [this, if_neg (by linarith)]
  constructor
  · intro h; exact (val _ _ h).symm
  · intro h; rw [← h]; exact key _

/-- **C89** `tri_hz` is the triangle wave that starts at 0, rises to 1 in the first quarter of each period, falls to -1 in the next half and rises to 0 in
the last quarter. -/
theorem C89_triangle (hz t y : ℝ) : Triangle (t * hz) y ↔ triHz hz t = y := by
  have val : ∀ x y : ℝ, Triangle x y → |x - 1 / 4 - ⌊x - 1 / 4⌋ - 1 / 2| * 4 - 1 = y := by
    intro x y h
    cases h with
    | rise p k h1 h2 =>
      rcases eq_or_lt_of_le h2 with h3 | h3
      · have : ⌊(k : ℝ) + p - 1 / 4⌋ = k := by rw [Int.floor_eq_iff]; constructor <;> linarith
        rw [this, abs_of_nonpos (by linarith)]; linarith
      · have : ⌊(k : ℝ) + p - 1 / 4⌋ = k - 1 := by rw [Int.floor_eq_iff]; push_cast; constructor <;> linarith
        rw [this]; push_cast
        rw [abs_of_nonneg (by linarith)]; ring
    | fall p k h1 h2 =>
      have : ⌊(k : ℝ) + p - 1 / 4⌋ = k := by rw [Int.floor_eq_iff]; constructor <;> linarith
      rw [this, abs_of_nonpos (by linarith)]; ring
  have key : ∀ x : ℝ, ∃ y, Triangle x y := by
    intro x
    have h1 := Int.floor_le (x + 1 / 4)
    have h2 := Int.lt_floor_add_one (x + 1 / 4)
    have e : x = (⌊x + 1 / 4⌋ : ℝ) + (x - ⌊x + 1 / 4⌋) := by ring
    rcases le_total (x - ⌊x + 1 / 4⌋) (1 / 4) with h | h
    · have := Triangle.rise (x - ⌊x + 1 / 4⌋) ⌊x + 1 / 4⌋ (by linarith) h
      rw [← e] at this; exact ⟨_, this⟩
    · have := Triangle.fall (x - ⌊x + 1 / 4⌋) ⌊x + 1 / 4⌋ h (by linarith)
      rw [← e] at this; exact ⟨_, this⟩
  constructor
  · intro h; exact val _ _ h
  · intro h
    obtain ⟨z, hz'⟩ := key (t * hz)
    have := val _ _ hz'
    have e : z = y := this.symm.trans h
    rw [← e]; exact hz'

/-- **C89** square and triangle waves stay in -1...1 and have period `1/hz`; the triangle wave never moves faster than `4 hz` per second. -/
theorem C89_waves (hz : ℝ) : (∀ t, |sqrHz hz t| = 1 ∧ |triHz hz t| ≤ 1) ∧
    (hz ≠ 0 → ∀ t, sqrHz hz (t + 1 / hz) = sqrHz hz t ∧ triHz hz (t + 1 / hz) = triHz hz t) ∧
    ∀ t u, |triHz hz t - triHz hz u| ≤ 4 * |hz| * |t - u| := by
  refine ⟨fun t => ⟨?_, ?_⟩, fun h t => ⟨?_, ?_⟩, ?_⟩
  · unfold sqrHz; simp only; split <;> simp
  · have h := (C89_triangle hz t _).2 rfl
    generalize t * hz = x at h
    generalize triHz hz t = y at h
    cases h <;> rw [abs_le] <;> constructor <;> linarith
  · have e : (t + 1 / hz) * hz = t * hz + (1 : ℤ) := by push_cast; field_simp
    unfold sqrHz
    simp only [e, fract_add_int]
  · have e : (t + 1 / hz) * hz - 1 / 4 = t * hz - 1 / 4 + (1 : ℤ) := by push_cast; field_simp; ring
    unfold triHz
    simp only [e, fract_add_int]
  · -- distance of `x` to the nearest point of `ℤ + 3/4` is `1`-Lipschitz
    have key : ∀ x : ℝ, ∀ k : ℤ, |x - 1 / 4 - ⌊x - 1 / 4⌋ - 1 / 2| ≥ 1 / 2 - |x - 1 / 4 - k| := by
      intro x k
      have h1 := Int.floor_le (x - 1 / 4)
      have h2 := Int.lt_floor_add_one (x - 1 / 4)
      rcases le_or_gt k ⌊x - 1 / 4⌋ with h | h
      · have h' : (k : ℝ) ≤ ⌊x - 1 / 4⌋ := by exact_mod_cast h
        rw [abs_of_nonneg (show 0 ≤ x - 1 / 4 - k by linarith)]
        have := neg_abs_le (x - 1 / 4 - ⌊x - 1 / 4⌋ - 1 / 2)
        linarith
      · have h' : (⌊x - 1 / 4⌋ : ℝ) + 1 ≤ k := by exact_mod_cast h
        rw [abs_of_nonpos (show x - 1 / 4 - k ≤ 0 by linarith)]
        have := le_abs_self (x - 1 / 4 - ⌊x - 1 / 4⌋ - 1 / 2)
        linarith
    have att : ∀ x : ℝ, ∃ k : ℤ, |x - 1 / 4 - ⌊x - 1 / 4⌋ - 1 / 2| = 1 / 2 - |x - 1 / 4 - k| := by
      intro x
      have h1 := Int.floor_le (x - 1 / 4)
      have h2 := Int.lt_floor_add_one (x - 1 / 4)
      rcases le_total (x - 1 / 4 - ⌊x - 1 / 4⌋) (1 / 2) with h | h
      · exact ⟨⌊x - 1 / 4⌋, by rw [abs_of_nonpos (by linarith), abs_of_nonneg (by linarith)]; ring⟩
      · refine ⟨⌊x - 1 / 4⌋ + 1, ?_⟩
        push_cast
        rw [abs_of_nonneg (by linarith), abs_of_nonpos (by linarith)]; ring
    have half : ∀ t u, triHz hz u - triHz hz t ≤ 4 * |hz| * |t - u| := by
      intro t u
      obtain ⟨k, hk⟩ := att (u * hz)
      have h2 := key (t * hz) k
      have h3 : |t * hz - 1 / 4 - k| ≤ |u * hz - 1 / 4 - k| + |hz| * |t - u| := by
        have : t * hz - 1 / 4 - k = (u * hz - 1 / 4 - k) + hz * (t - u) := by ring
        rw [this, ← abs_mul]; exact abs_add_le _ _
      unfold triHz
      simp only
      rw [hk]
      nlinarith [abs_nonneg hz]
    intro t u
    rw [abs_le]
    constructor
    · have := half t u; linarith
    · have := half u t; rw [abs_sub_comm u t] at this; exact this

/-! ## Pitch, tempo and gain -/

/-- **C89** an octave is twelve semitones, intervals add up, and higher is higher. -/
theorem C89_semitones : semitoneRatio 0 = 1 ∧ semitoneRatio 12 = 2 ∧ (∀ x y, semitoneRatio (x + y) = semitoneRatio x * semitoneRatio y) ∧
    (∀ x, 0 < semitoneRatio x) ∧ StrictMono semitoneRatio := by
  refine ⟨by simp [semitoneRatio], by norm_num [semitoneRatio], fun x y => ?_, fun x => ?_, fun x y h => ?_⟩
  · unfold semitoneRatio; rw [← Real.rpow_add two_pos]; congr 1; ring
  · exact Real.rpow_pos_of_pos two_pos _
  · exact Real.rpow_lt_rpow_of_exponent_lt one_lt_two (by linarith)

/-- **C89** note numbers: A4 is 440 Hz, the lowest key of the piano 27.5 Hz, `n` semitones up multiply the frequency by their ratio, and every
positive frequency has exactly one note number. -/
theorem C89_midi : midiHz 69 = 440 ∧ midiHz 21 = 27.5 ∧ (∀ x y, midiHz (x + y) = midiHz x * semitoneRatio y) ∧
    (∀ x, midiHz (x + 12) = 2 * midiHz x) ∧ StrictMono midiHz ∧ (∀ x, 0 < midiHz x) ∧ ∀ f, 0 < f → ∃! x, midiHz x = f := by
  have hadd : ∀ x y, midiHz (x + y) = midiHz x * semitoneRatio y := by
    intro x y
    unfold midiHz semitoneRatio
    rw [mul_assoc, ← Real.rpow_add two_pos]; congr 2; ring
  have hmono : StrictMono midiHz := fun x y h =>
    mul_lt_mul_of_pos_left (Real.rpow_lt_rpow_of_exponent_lt one_lt_two (by linarith)) (by norm_num)
  refine ⟨by norm_num [midiHz], ?_, hadd, fun x => ?_, hmono, fun x => ?_, fun f hf => ?_⟩
  · unfold midiHz
    rw [show ((21 : ℝ) - 69) / 12 = ((-4 : ℤ) : ℝ) by norm_num, Real.rpow_intCast]; norm_num
  · rw [hadd, C89_semitones.2.1]; ring
  · exact mul_pos (by norm_num) (Real.rpow_pos_of_pos two_pos _)
  · refine ⟨69 + 12 * Real.logb 2 (f / 440), ?_, fun y hy => ?_⟩
    · show midiHz _ = f
      unfold midiHz
      rw [show (69 + 12 * Real.logb 2 (f / 440) - 69) / 12 = Real.logb 2 (f / 440) by ring,
        Real.rpow_logb two_pos (by norm_num) (by positivity)]
      ring
    · apply hmono.injective
      rw [hy]
      unfold midiHz
      rw [show (69 + 12 * Real.logb 2 (f / 440) - 69) / 12 = Real.logb 2 (f / 440) by ring,
        Real.rpow_logb two_pos (by norm_num) (by positivity)]
      ring

/-- **C89** `bpm` beats take a minute: a period at `bpm_hz(bpm)` Hz lasts `60 / bpm` seconds. -/
theorem C89_bpm (bpm : ℝ) : bpmHz bpm * 60 = bpm ∧ (bpm ≠ 0 → 1 / bpmHz bpm = 60 / bpm) := by
  constructor
  · unfold bpmHz; ring
  · intro h; unfold bpmHz; field_simp

/-- **C89** decibels: `db_amp` and `amp_db` are inverse to each other, 0 dB is unity, 20 dB is a factor of ten, gains multiply where decibels add, louder
is louder. -/
theorem C89_decibels : dbAmp 0 = 1 ∧ dbAmp 20 = 10 ∧ (∀ x, ampDb (dbAmp x) = x) ∧ (∀ g, 0 < g → dbAmp (ampDb g) = g) ∧
    (∀ x y, dbAmp (x + y) = dbAmp x * dbAmp y) ∧ (∀ g h, 0 < g → 0 < h → ampDb (g * h) = ampDb g + ampDb h) ∧
    StrictMono dbAmp ∧ (∀ x, 0 < dbAmp x) ∧ StrictMonoOn ampDb (Set.Ioi 0) := by
  refine ⟨by simp [dbAmp], by norm_num [dbAmp], fun x => ?_, fun g hg => ?_, fun x y => ?_, fun g h hg hh => ?_, fun x y h => ?_, fun x => ?_, fun x hx y _ h => ?_⟩
  · unfold ampDb dbAmp; rw [Real.logb_rpow (by norm_num) (by norm_num)]; ring
  · unfold ampDb dbAmp
    rw [mul_div_assoc, div_self (by norm_num), mul_one, Real.rpow_logb (by norm_num) (by norm_num) hg]
  · unfold dbAmp; rw [← Real.rpow_add (by norm_num)]; congr 1; ring
  · unfold ampDb; rw [Real.logb_mul hg.ne' hh.ne']; ring
  · exact Real.rpow_lt_rpow_of_exponent_lt (by norm_num) (by linarith)
  · exact Real.rpow_pos_of_pos (by norm_num) _
  · exact mul_lt_mul_of_pos_right (Real.logb_lt_logb (by norm_num) hx h) (by norm_num)

example : midiHz 81 = 880 ∧ bpmHz 120 = 2 ∧ dbAmp 40 = 100 := by
  refine ⟨?_, by norm_num [bpmHz], ?_⟩
  · have := C89_midi.2.2.2.1 69; rw [C89_midi.1] at this; norm_num at this; exact this
  · have := C89_decibels.2.2.2.2.1 20 20; rw [C89_decibels.2.1] at this; norm_num at this; exact this

/-! ## Dissonance -/

/-- **C89** dissonance of two tones is symmetric, ranges between 0 and 1 and is 0 only for equal tones. -/
theorem C89_dissonance (f g : ℝ) (hf : 0 ≤ f) (hg : 0 ≤ g) : dissonance f g = dissonance g f ∧ 0 ≤ dissonance f g ∧ dissonance f g ≤ 1 ∧
    (dissonance f g = 0 ↔ f = g) := by
  have hsymm : ∀ f g : ℝ, dissonance f g = dissonance g f := by
    intro f g; unfold dissonance; rw [abs_sub_comm, min_comm]
  have key : ∀ f g : ℝ, 0 ≤ f → f ≤ g → 0 ≤ dissonance f g ∧ dissonance f g ≤ 1 ∧ (dissonance f g = 0 ↔ f = g) := by
    intro f g hf h
    rw [dissonance_above h]
    have hd : 0 < 0.021 * f + 19 := by positivity
    have hq : 0 ≤ (g - f) / (0.021 * f + 19) := div_nonneg (by linarith) hd.le
    have hpos : ∀ q : ℝ, 0 < q → 0 < curve q := by
      intro q hq
      unfold curve
      have : Real.exp (-1.38 * q) < Real.exp (-0.84 * q) := Real.exp_lt_exp.2 (by linarith)
      have : 0 < Real.exp (-0.84 * q) - Real.exp (-1.38 * q) := by linarith
      positivity
    have h0 : curve 0 = 0 := by simp [curve]
    refine ⟨?_, curve_le_one _, ?_⟩
    · rcases eq_or_lt_of_le hq with h1 | h1
      · rw [← h1, h0]
      · exact (hpos _ h1).le
    · constructor
      · intro hz
        by_contra hne
        have : 0 < (g - f) / (0.021 * f + 19) := div_pos (by have := lt_of_le_of_ne h hne; linarith) hd
        exact absurd hz (hpos _ this).ne'
      · intro hz; rw [hz, sub_self, zero_div, h0]
  refine ⟨hsymm f g, ?_⟩
  rcases le_total f g with h | h
  · exact key f g hf h
  · rw [hsymm f g, eq_comm (a := f)]; exact key g f hg h

/-- **C89** above any tone dissonance first grows strictly up to one frequency and then falls strictly; `dissonance_max` gives this frequency to within
0.0006 percent and 0.0001 Hz. -/
theorem C89_dissonance_peak (f : ℝ) (hf : 0 ≤ f) : ∃ p, StrictMonoOn (dissonance f) (Set.Icc f p) ∧ StrictAntiOn (dissonance f) (Set.Ici p) ∧
    f < p ∧ |dissonanceMax f - p| ≤ 0.000006 * f + 0.0001 := by
  have hd : 0 < 0.021 * f + 19 := by positivity
  obtain ⟨q1, q2⟩ := qmax_bounds
  refine ⟨f + qmax * (0.021 * f + 19), ?_, ?_, by nlinarith, ?_⟩
  · intro g hg h hh hgh
    rw [dissonance_above hg.1, dissonance_above hh.1]
    refine curve_up ?_ ?_ (div_lt_div_of_pos_right (by linarith) hd)
    · rw [Set.mem_Iic, div_le_iff₀ hd]; linarith [hg.2]
    · rw [Set.mem_Iic, div_le_iff₀ hd]; linarith [hh.2]
  · intro g hg h hh hgh
    have hg : f + qmax * (0.021 * f + 19) ≤ g := hg
    have hh : f + qmax * (0.021 * f + 19) ≤ h := hh
    have : 0 ≤ qmax * (0.021 * f + 19) := by nlinarith
    rw [dissonance_above (show f ≤ g by linarith), dissonance_above (show f ≤ h by linarith)]
    refine curve_down ?_ ?_ (div_lt_div_of_pos_right (by linarith) hd)
    · rw [Set.mem_Ici, le_div_iff₀ hd]; linarith
    · rw [Set.mem_Ici, le_div_iff₀ hd]; linarith
  · unfold dissonanceMax
    rw [abs_le]
    constructor <;> nlinarith

/-- **C89** no tone above `f` is more dissonant with it than `dissonance_max(f)`, to within a millionth. -/
theorem C89_dissonance_max (f g : ℝ) (hf : 0 ≤ f) (h : f ≤ g) : dissonance f g ≤ dissonance f (dissonanceMax f) + 0.000001 ∧
    0.999999 ≤ dissonance f (dissonanceMax f) := by
  have hd : 0 < 0.021 * f + 19 := by positivity
  have hm : 0.999999 ≤ dissonance f (dissonanceMax f) := by
    rw [dissonance_above (show f ≤ dissonanceMax f by unfold dissonanceMax; linarith)]
    apply curve_near
    · rw [le_div_iff₀ hd]; unfold dissonanceMax; linarith
    · rw [div_le_iff₀ hd]; unfold dissonanceMax; linarith
  refine ⟨?_, hm⟩
  have := (C89_dissonance f g hf (hf.trans h)).2.2.1
  linarith

example : (465.959 : ℝ) < dissonanceMax 440 ∧ dissonanceMax 440 < 465.960 := by norm_num [dissonanceMax]

/-! ## Loudness -/

/-- **C89** A-weighting is 1 at 1 kHz to within a thousandth of a percent, even, zero only at zero frequency and never above 1.26. -/
theorem C89_a_weight : |aWeight 1000 - 1| ≤ 0.00001 ∧ aWeight 0 = 0 ∧ (∀ f, aWeight (-f) = aWeight f) ∧ (∀ f, f ≠ 0 → 0 < aWeight f) ∧
    ∀ f, aWeight f ≤ 1.26 := by
  refine ⟨?_, by simp [aWeight], fun f => by simp [aWeight], fun f hf => ?_, fun f => ?_⟩
  · unfold aWeight
    simp only
    have h1 : (1249964 : ℝ) ≤ Real.sqrt ((1000 ^ 2 + 107.7 ^ 2) * (1000 ^ 2 + 737.9 ^ 2)) := by
      apply Real.le_sqrt_of_sq_le; norm_num
    have h2 : Real.sqrt ((1000 ^ 2 + 107.7 ^ 2) * (1000 ^ 2 + 737.9 ^ 2)) ≤ (1249965 : ℝ) := by
      apply Real.sqrt_le_iff.2; constructor <;> norm_num
    generalize Real.sqrt ((1000 ^ 2 + 107.7 ^ 2) * (1000 ^ 2 + 737.9 ^ 2)) = s at h1 h2
    have hs : 0 < s := by linarith
    rw [abs_le]
    constructor
    · rw [neg_le_sub_iff_le_add, ← sub_le_iff_le_add, le_div_iff₀ (by positivity)]
      norm_num; linarith
    · rw [sub_le_iff_le_add, div_le_iff₀ (by positivity)]
      norm_num; linarith
  · unfold aWeight
    simp only
    have : 0 < f ^ 2 := by positivity
    positivity
  · unfold aWeight
    simp only
    have h0 : 0 ≤ f ^ 2 := sq_nonneg f
    generalize f ^ 2 = x at h0
    have hs : x ≤ Real.sqrt ((x + 107.7 ^ 2) * (x + 737.9 ^ 2)) := by
      apply Real.le_sqrt_of_sq_le; nlinarith
    have hs' : 0 < Real.sqrt ((x + 107.7 ^ 2) * (x + 737.9 ^ 2)) := Real.sqrt_pos.2 (by positivity)
    rw [div_le_iff₀ (by positivity)]
    generalize Real.sqrt ((x + 107.7 ^ 2) * (x + 737.9 ^ 2)) = s at hs hs'
    have a1 : x * x ≤ (x + 20.6 ^ 2) * s := by nlinarith
    have a2 : (12194 : ℝ) ^ 2 ≤ x + 12194 ^ 2 := by linarith
    have a3 := mul_le_mul a1 a2 (by positivity) (by positivity)
    nlinarith

/-- **C89** A-weighting rises strictly up to one frequency, which lies between 2510 and 2515 Hz, and falls strictly above it. -/
theorem C89_a_weight_peak : ∃ p, 2510 < p ∧ p < 2515 ∧ StrictMonoOn aWeight (Set.Icc 0 p) ∧ StrictAntiOn aWeight (Set.Ici p) := by
  have hc : ContinuousOn aSlope (Set.Icc (2510 ^ 2) (2515 ^ 2)) := by
    have : ∀ c : ℝ, 0 < c → ContinuousOn (fun x : ℝ => c / (x + c)) (Set.Icc (2510 ^ 2) (2515 ^ 2)) := fun c hc =>
      continuousOn_const.div (continuousOn_id.add continuousOn_const) (fun x hx => by
        have : (0 : ℝ) ≤ x := le_trans (by norm_num) hx.1
        have : 0 < x + c := by positivity
        exact this.ne')
    exact ((((this _ (by positivity)).const_smul (2 : ℝ)).add (this _ (by positivity))).add (this _ (by positivity))).sub
      ((continuousOn_const.sub (this _ (by positivity))).const_smul (2 : ℝ))
  have h1 : 0 < aSlope (2510 ^ 2) := by norm_num [aSlope]
  have h2 : aSlope (2515 ^ 2) < 0 := by norm_num [aSlope]
  obtain ⟨r, hr, hr0⟩ := intermediate_value_Icc' (by norm_num) hc ⟨h2.le, h1.le⟩
  have hr1 : (2510 : ℝ) ^ 2 < r := lt_of_le_of_ne hr.1 (fun e => by rw [e, hr0] at h1; exact lt_irrefl _ h1)
  have hr2 : r < (2515 : ℝ) ^ 2 := lt_of_le_of_ne hr.2 (fun e => by rw [← e, hr0] at h2; exact lt_irrefl _ h2)
  have hrp : 0 < r := lt_trans (by norm_num) hr1
  have up : StrictMonoOn aLog (Set.Ioc 0 r) := by
    apply strictMonoOn_of_deriv_pos (convex_Ioc _ _) (fun x hx => (aLog_deriv hx.1).continuousAt.continuousWithinAt)
    intro x hx
    rw [interior_Ioc] at hx
    rw [(aLog_deriv hx.1).deriv]
    have := aSlope_anti (Set.mem_Ici.2 hx.1.le) (Set.mem_Ici.2 hrp.le) hx.2
    exact div_pos (by linarith) hx.1
  have down : StrictAntiOn aLog (Set.Ici r) := by
    apply strictAntiOn_of_deriv_neg (convex_Ici _) (fun x hx => (aLog_deriv (lt_of_lt_of_le hrp hx)).continuousAt.continuousWithinAt)
    intro x hx
    rw [interior_Ici] at hx
    have hx : r < x := hx
    rw [(aLog_deriv (hrp.trans hx)).deriv]
    have := aSlope_anti (Set.mem_Ici.2 hrp.le) (Set.mem_Ici.2 (hrp.trans hx).le) hx
    exact div_neg_of_neg_of_pos (by linarith) (hrp.trans hx)
  have hsq : Real.sqrt r ^ 2 = r := Real.sq_sqrt hrp.le
  have hs0 : 0 < Real.sqrt r := Real.sqrt_pos.2 hrp
  refine ⟨Real.sqrt r, ?_, ?_, ?_, ?_⟩
  · exact Real.lt_sqrt_of_sq_lt hr1
  · exact (Real.sqrt_lt' (by norm_num)).2 hr2
  · intro f hf g hg h
    have hg0 : 0 < g := lt_of_le_of_lt hf.1 h
    have gpos := C89_a_weight.2.2.2.1 g hg0.ne'
    rcases eq_or_lt_of_le hf.1 with h0 | h0
    · rw [← h0, C89_a_weight.2.1]; exact gpos
    · have fpos := C89_a_weight.2.2.2.1 f h0.ne'
      rw [← Real.log_lt_log_iff fpos gpos, aLog_weight h0, aLog_weight hg0]
      have := up (a := f ^ 2) ⟨by positivity, by rw [← hsq]; exact pow_le_pow_left₀ hf.1 hf.2 2⟩ (b := g ^ 2)
        ⟨by positivity, by rw [← hsq]; exact pow_le_pow_left₀ hg.1 hg.2 2⟩ (pow_lt_pow_left₀ h hf.1 (by norm_num))
      linarith
  · intro f hf g hg h
    have hf : Real.sqrt r ≤ f := hf
    have hf0 : 0 < f := lt_of_lt_of_le hs0 hf
    have hg0 : 0 < g := hf0.trans h
    have gpos := C89_a_weight.2.2.2.1 g hg0.ne'
    have fpos := C89_a_weight.2.2.2.1 f hf0.ne'
    rw [← Real.log_lt_log_iff gpos fpos, aLog_weight hf0, aLog_weight hg0]
    have h1 : r ≤ f ^ 2 := by rw [← hsq]; exact pow_le_pow_left₀ hs0.le hf 2
    have h2 : f ^ 2 < g ^ 2 := pow_lt_pow_left₀ h hf0.le (by norm_num)
    have := down (a := f ^ 2) h1 (b := g ^ 2) (h1.trans h2.le) h2
    linarith

/-- **C89** M-weighting is 1 at 1 kHz to within a thousandth of a percent, zero at zero frequency, positive above, and never exceeds 4.1. -/
theorem C89_m_weight : |mWeight 1000 - 1| ≤ 0.00001 ∧ mWeight 0 = 0 ∧ (∀ f, mWeight (-f) = -mWeight f) ∧ (∀ f, 0 < f → 0 < mWeight f) ∧
    ∀ f, mWeight f ≤ 4.1 := by
  refine ⟨?_, by simp [mWeight], fun f => ?_, fun f hf => ?_, fun f => ?_⟩
  · rw [mWeight_eq]
    have h1 : (1.017577 : ℝ) ≤ Real.sqrt (mDen (1000 ^ 2 / 10 ^ 7)) := by
      apply Real.le_sqrt_of_sq_le; unfold mDen; norm_num
    have h2 : Real.sqrt (mDen (1000 ^ 2 / 10 ^ 7)) ≤ (1.017579 : ℝ) := by
      apply Real.sqrt_le_iff.2; unfold mDen; constructor <;> norm_num
    generalize Real.sqrt (mDen (1000 ^ 2 / 10 ^ 7)) = s at h1 h2
    have hs : 0 < s := by linarith
    rw [abs_le]
    constructor
    · rw [neg_le_sub_iff_le_add, ← sub_le_iff_le_add, le_div_iff₀ hs]
      norm_num; linarith
    · rw [sub_le_iff_le_add, div_le_iff₀ hs]
      norm_num; linarith
  · rw [mWeight_eq, mWeight_eq, neg_sq]; ring
  · rw [mWeight_eq]
    have := Real.sqrt_pos.2 (mDen_pos f)
    positivity
  · rw [mWeight_eq, div_le_iff₀ (Real.sqrt_pos.2 (mDen_pos f))]
    have h := mDen_bound (show 0 ≤ f ^ 2 / 10 ^ 7 by positivity)
    have hs := Real.sq_sqrt (mDen_pos f).le
    have hp := Real.sqrt_pos.2 (mDen_pos f)
    apply le_of_sq_le_sq _ (by positivity)
    rw [mul_pow, mul_pow (4.1 : ℝ), hs]
    refine le_trans (le_of_eq ?_) (le_trans h (le_of_eq ?_)) <;> ring

/-! ## Pseudorandom fractions -/

/-- **C89** `rnd1` takes each of the `2^53` multiples of `2^-53` in 0...1 for exactly `2^11` of the `2^64` arguments, and no other value. -/
theorem C89_rnd1 : (∀ x, 0 ≤ rnd1 x ∧ rnd1 x < 1) ∧ ∀ k : ℕ, k < 2 ^ 53 → ∃ f : Fin (2 ^ 11) → BitVec 64, Function.Injective f ∧
    ∀ x, rnd1 x = k / 2 ^ 53 ↔ ∃ j, f j = x := by
  have hval : ∀ x, rnd1 x = (((Hash.rnd1Word x).toNat / 2 ^ 11 : ℕ) : ℝ) / 2 ^ 53 := by
    intro x
    unfold rnd1
    rw [BitVec.toNat_ushiftRight, Nat.shiftRight_eq_div_pow]; ring
  have hlt : ∀ x, (Hash.rnd1Word x).toNat / 2 ^ 11 < 2 ^ 53 := fun x => by
    have := (Hash.rnd1Word x).isLt; omega
  refine ⟨fun x => ?_, fun k hk => ?_⟩
  · rw [hval]
    have : (((Hash.rnd1Word x).toNat / 2 ^ 11 : ℕ) : ℝ) < 2 ^ 53 := by exact_mod_cast hlt x
    exact ⟨by positivity, by rw [div_lt_one (by positivity)]; exact this⟩
  · obtain ⟨g, hg1, hg2⟩ := Function.bijective_iff_has_inverse.1 Hash.C21_rnd1
    refine ⟨fun j => g (BitVec.ofNat 64 (k * 2 ^ 11 + j)), fun i j h => ?_, fun x => ?_⟩
    · have h := hg2.injective h
      have h := congrArg BitVec.toNat h
      have hi := i.isLt
      have hj := j.isLt
      simp only [BitVec.toNat_ofNat] at h
      rw [Nat.mod_eq_of_lt (by omega), Nat.mod_eq_of_lt (by omega)] at h
      exact Fin.ext (by omega)
    · rw [hval, div_left_inj' (by positivity), Nat.cast_inj]
      constructor
      · intro h
        refine ⟨⟨(Hash.rnd1Word x).toNat % 2 ^ 11, Nat.mod_lt _ (by norm_num)⟩, ?_⟩
        have e : k * 2 ^ 11 + (Hash.rnd1Word x).toNat % 2 ^ 11 = (Hash.rnd1Word x).toNat := by omega
        show g (BitVec.ofNat 64 (k * 2 ^ 11 + (Hash.rnd1Word x).toNat % 2 ^ 11)) = x
        rw [e, BitVec.ofNat_toNat, BitVec.setWidth_eq, hg1]
      · rintro ⟨j, rfl⟩
        have hj := j.isLt
        rw [hg2]
        simp only [BitVec.toNat_ofNat]
        rw [Nat.mod_eq_of_lt (by omega)]
        omega

end
end Fundsp.Math
