import Verif.Filter.Kind
import Verif.Filter.BeyondProps

/-!
# C110: filters pass and stop what their type says
-/

noncomputable section
namespace Fundsp.Filter
open _root_.Filter Topology

/-! ## Specification -/

/-- The power of a steady tone of `f` Hz is multiplied by `p`, for each initial state as in `P`. -/
def TonePower (n : Node ℝ 1 1) (P : n.σ → Prop) (sr f p : ℝ) : Prop := ∃ H : ℂ, HasResponse n P (phaseStep f sr) H ∧ Complex.normSq H = p

theorem TonePower.unique {n : Node ℝ 1 1} {P : n.σ → Prop} {sr f p p' : ℝ} (hP : ∃ s, P s) (h : TonePower n P sr f p) (h' : TonePower n P sr f p') : p = p' := by
  obtain ⟨H, a, b⟩ := h
  obtain ⟨H', a', b'⟩ := h'
  rw [← b, ← b', a.unique a' hP]

/-- The higher the tone the less of it is passed. -/
def Falls (n : Node ℝ 1 1) (P : n.σ → Prop) (sr lo hi : ℝ) : Prop :=
  ∀ f f', lo ≤ f → f < f' → f' ≤ hi → ∃ p p', TonePower n P sr f p ∧ TonePower n P sr f' p' ∧ p' < p

/-- The higher the tone the more of it is passed. -/
def Rises (n : Node ℝ 1 1) (P : n.σ → Prop) (sr lo hi : ℝ) : Prop :=
  ∀ f f', lo ≤ f → f < f' → f' ≤ hi → ∃ p p', TonePower n P sr f p ∧ TonePower n P sr f' p' ∧ p < p'

/-! ## The filters -/

/-- `lowpass_hz`: `prelude.rs:2092-2102`, `svf.rs:28-46`. -/
def lowpassHz (sr f q : ℝ) : Node ℝ 1 1 := svfNode (svfLowpass (Real.tan (Real.pi * f / sr)) q)
/-- `highpass_hz`: `prelude.rs:2143-2153`, `svf.rs:49-67`. -/
def highpassHz (sr f q : ℝ) : Node ℝ 1 1 := svfNode (svfHighpass (Real.tan (Real.pi * f / sr)) q)
/-- `bandpass_hz`: `prelude.rs:2194-2204`, `svf.rs:70-88`. -/
def bandpassHz (sr f q : ℝ) : Node ℝ 1 1 := svfNode (svfBandpass (Real.tan (Real.pi * f / sr)) q)
/-- `notch_hz`: `prelude.rs:2245-2255`, `svf.rs:91-109`. -/
def notchHz (sr f q : ℝ) : Node ℝ 1 1 := svfNode (svfNotch (Real.tan (Real.pi * f / sr)) q)
/-- `peak_hz`: `prelude.rs:2296-2306`, `svf.rs:112-130`. -/
def peakHz (sr f q : ℝ) : Node ℝ 1 1 := svfNode (svfPeak (Real.tan (Real.pi * f / sr)) q)
/-- `allpass_hz`: `prelude.rs:2345-2355`, `svf.rs:133-151`. -/
def allpassHz (sr f q : ℝ) : Node ℝ 1 1 := svfNode (svfAllpass (Real.tan (Real.pi * f / sr)) q)
/-- `bell_hz`: `prelude.rs:2397-2407`, `svf.rs:155-174`. -/
def bellHz (sr f q gain : ℝ) : Node ℝ 1 1 := svfNode (svfBell (Real.tan (Real.pi * f / sr)) q (√gain))
/-- `lowshelf_hz`: `prelude.rs:2450-2460`, `svf.rs:178-197`. -/
def lowshelfHz (sr f q gain : ℝ) : Node ℝ 1 1 := svfNode (svfLowshelf (Real.tan (Real.pi * f / sr)) q (√gain) (√(√gain)))
/-- `highshelf_hz`: `prelude.rs:2503-2513`, `svf.rs:201-220`. -/
def highshelfHz (sr f q gain : ℝ) : Node ℝ 1 1 := svfNode (svfHighshelf (Real.tan (Real.pi * f / sr)) q (√gain) (√(√gain)))


/-! ## Lemmas -/

theorem falls_of {n : Node ℝ 1 1} {P : n.σ → Prop} {sr lo pt : ℝ} {φ : ℝ → ℝ} (hp : ∀ f, lo ≤ f → 2 * f < sr → TonePower n P sr f (φ f))
    (top : TonePower n P sr (sr / 2) pt) (hm : ∀ f f', lo ≤ f → f < f' → 2 * f' < sr → φ f' < φ f) (ht : ∀ f, lo ≤ f → 2 * f < sr → pt < φ f) : Falls n P sr lo (sr / 2) := by
  intro f f' h1 h2 h3
  rcases h3.lt_or_eq with h | rfl
  · exact ⟨_, _, hp f h1 (by linarith), hp f' (by linarith) (by linarith), hm f f' h1 h2 (by linarith)⟩
  · exact ⟨_, _, hp f h1 (by linarith), top, ht f h1 (by linarith)⟩

theorem rises_of {n : Node ℝ 1 1} {P : n.σ → Prop} {sr lo pt : ℝ} {φ : ℝ → ℝ} (hp : ∀ f, lo ≤ f → 2 * f < sr → TonePower n P sr f (φ f))
    (top : TonePower n P sr (sr / 2) pt) (hm : ∀ f f', lo ≤ f → f < f' → 2 * f' < sr → φ f < φ f') (ht : ∀ f, lo ≤ f → 2 * f < sr → φ f < pt) : Rises n P sr lo (sr / 2) := by
  intro f f' h1 h2 h3
  rcases h3.lt_or_eq with h | rfl
  · exact ⟨_, _, hp f h1 (by linarith), hp f' (by linarith) (by linarith), hm f f' h1 h2 (by linarith)⟩
  · exact ⟨_, _, hp f h1 (by linarith), top, ht f h1 (by linarith)⟩

theorem proto_sq_lt {sr c f f' : ℝ} (hc : 0 < c) (hsr : 2 * c < sr) (hf : 0 ≤ f) (hlt : f < f') (hf' : 2 * f' < sr) : 0 ≤ proto sr c f ^ 2 ∧ proto sr c f ^ 2 < proto sr c f' ^ 2 :=
  ⟨sq_nonneg _, pow_lt_pow_left₀ (proto_lt hc hsr hf hlt hf') (proto_nonneg hc hsr hf (by linarith)) two_ne_zero⟩

/-- The denominator common to the powers is positive. -/
theorem den_pos {k : ℝ} (hk : 0 < k) {x : ℝ} : 0 < (1 - x ^ 2) ^ 2 + (x * k) ^ 2 := by
  by_cases h : x = 0
  · rw [h]; norm_num
  · positivity

section
variable {sr c q : ℝ} (hc : 0 < c) (hsr : 2 * c < sr) (hq : 0 < q)
include hc hsr hq

/-! ## Lowpass -/

/-- The power of each tone through a lowpass filter. -/
theorem C110_lowpass_power {f : ℝ} (hf : 0 ≤ f) (hf' : 2 * f < sr) :
    TonePower (lowpassHz sr c q) (fun _ => True) sr f (1 / ((1 - proto sr c f ^ 2) ^ 2 + (proto sr c f * (1 / q)) ^ 2)) := by
  have hg := C44_svf_cutoff hc hsr
  refine ⟨_, C44_svf_lowpass hg hq _, ?_⟩
  unfold lowpassResponse
  rw [phaseStep_half]
  refine (power_form hg (cos_half_ne hf hf') 1 0 0 1 (1 / q) 1 (by push_cast; ring) (by push_cast; ring)).trans ?_
  unfold proto
  congr 1 <;> ring

/-- **C110, lowpass.** It passes constant signals unchanged and stops the highest frequency. The gain at the cutoff is Q. Above the cutoff it falls off like the square of the frequency. -/
theorem C110_lowpass : TonePower (lowpassHz sr c q) (fun _ => True) sr 0 1 ∧ TonePower (lowpassHz sr c q) (fun _ => True) sr c (q ^ 2) ∧
    TonePower (lowpassHz sr c q) (fun _ => True) sr (sr / 2) 0 ∧
    (∀ f, 0 ≤ f → f ≤ c → ∃ p, TonePower (lowpassHz sr c q) (fun _ => True) sr f p ∧ min 1 (q ^ 2) ≤ p) ∧
    (∀ f, c < f → 2 * f < sr → ∃ p, TonePower (lowpassHz sr c q) (fun _ => True) sr f p ∧ p ≤ 1 / (proto sr c f ^ 2 - 1) ^ 2) := by
  refine ⟨?_, ?_, ?_, fun f h0 h1 => ⟨_, C110_lowpass_power hc hsr hq h0 (by linarith), ?_⟩, fun f h0 h1 => ⟨_, C110_lowpass_power hc hsr hq (by linarith) h1, ?_⟩⟩
  · convert C110_lowpass_power hc hsr hq le_rfl (by linarith) using 1
    rw [proto_zero]; norm_num
  · convert C110_lowpass_power hc hsr hq hc.le hsr using 1
    rw [proto_cutoff hc hsr]; field_simp; ring
  · have hg := C44_svf_cutoff hc hsr
    refine ⟨_, C44_svf_lowpass hg hq _, ?_⟩
    unfold lowpassResponse
    simp only [phaseStep_top (by linarith : sr ≠ 0)]
    simp
  · have hx0 := proto_nonneg hc hsr h0 (by linarith)
    have hx1 : proto sr c f ≤ 1 := by
      rcases h1.lt_or_eq with h | rfl
      · rw [← proto_cutoff hc hsr]; exact (proto_lt hc hsr h0 h hsr).le
      · exact (proto_cutoff hc hsr).le
    generalize proto sr c f = x at *
    have hk : 0 < 1 / q := by positivity
    rw [le_div_iff₀ (den_pos hk)]
    have hqk : q * (1 / q) = 1 := by field_simp
    have hx2 : x ^ 2 ≤ 1 := by nlinarith
    have hw := sq_nonneg x
    have e : (1 - x ^ 2) ^ 2 + (x * (1 / q)) ^ 2 ≤ (1 - x ^ 2) + x ^ 2 * (1 / q) ^ 2 := by nlinarith
    have m1 := min_le_left 1 (q ^ 2)
    have m2 := min_le_right 1 (q ^ 2)
    have m0 : 0 ≤ min 1 (q ^ 2) := le_min zero_le_one (sq_nonneg q)
    calc min 1 (q ^ 2) * ((1 - x ^ 2) ^ 2 + (x * (1 / q)) ^ 2) ≤ min 1 (q ^ 2) * ((1 - x ^ 2) + x ^ 2 * (1 / q) ^ 2) := mul_le_mul_of_nonneg_left e m0
      _ = min 1 (q ^ 2) * (1 - x ^ 2) + min 1 (q ^ 2) * (x ^ 2 * (1 / q) ^ 2) := by ring
      _ ≤ 1 * (1 - x ^ 2) + q ^ 2 * (x ^ 2 * (1 / q) ^ 2) := by gcongr
      _ = 1 - x ^ 2 + x ^ 2 * (q * (1 / q)) ^ 2 := by ring
      _ = 1 := by rw [hqk]; ring
  · have hx1 : 1 < proto sr c f := by rw [← proto_cutoff hc hsr]; exact proto_lt hc hsr hc.le h0 h1
    generalize proto sr c f = x at *
    have : 0 < x ^ 2 - 1 := by nlinarith
    apply one_div_le_one_div_of_le (by positivity)
    nlinarith [sq_nonneg (x * (1 / q))]

/-- **C110, lowpass.** With a Q up to `1 / √2` the higher a tone the less of it is passed. -/
theorem C110_lowpass_falls (hq2 : q ^ 2 ≤ 1 / 2) : Falls (lowpassHz sr c q) (fun _ => True) sr 0 (sr / 2) := by
  have hk : 0 < 1 / q := by positivity
  have hk2 : 2 ≤ (1 / q) ^ 2 := by rw [div_pow, one_pow, le_div_iff₀ (by positivity)]; linarith
  refine falls_of (fun f h0 h1 => C110_lowpass_power hc hsr hq h0 h1) (C110_lowpass hc hsr hq).2.2.1 (fun f f' h0 h1 h2 => ?_) (fun f h0 h1 => one_div_pos.2 (den_pos hk))
  obtain ⟨a, b⟩ := proto_sq_lt hc hsr h0 h1 h2
  apply one_div_lt_one_div_of_lt (den_pos hk)
  rw [mul_pow, mul_pow]
  generalize proto sr c f ^ 2 = w at *
  generalize proto sr c f' ^ 2 = w' at *
  nlinarith

/-! ## Highpass -/

/-- The power of each tone through a highpass filter. -/
theorem C110_highpass_power {f : ℝ} (hf : 0 ≤ f) (hf' : 2 * f < sr) :
    TonePower (highpassHz sr c q) (fun _ => True) sr f ((proto sr c f ^ 2) ^ 2 / ((1 - proto sr c f ^ 2) ^ 2 + (proto sr c f * (1 / q)) ^ 2)) := by
  have hg := C44_svf_cutoff hc hsr
  refine ⟨_, C44_svf_highpass hg hq _, ?_⟩
  unfold highpassResponse
  rw [phaseStep_half]
  refine (power_form hg (cos_half_ne hf hf') 0 0 1 1 (1 / q) 1 (by push_cast; ring) (by push_cast; ring)).trans ?_
  unfold proto
  congr 1 <;> ring

/-- **C110, highpass.** It stops constant signals and passes the highest frequency unchanged. The gain at the cutoff is Q. Below the cutoff it falls off like the square of the frequency. -/
theorem C110_highpass : TonePower (highpassHz sr c q) (fun _ => True) sr 0 0 ∧ TonePower (highpassHz sr c q) (fun _ => True) sr c (q ^ 2) ∧
    TonePower (highpassHz sr c q) (fun _ => True) sr (sr / 2) 1 ∧
    (∀ f, c ≤ f → 2 * f < sr → ∃ p, TonePower (highpassHz sr c q) (fun _ => True) sr f p ∧ min 1 (q ^ 2) ≤ p) ∧
    (∀ f, 0 ≤ f → f < c → ∃ p, TonePower (highpassHz sr c q) (fun _ => True) sr f p ∧ p ≤ (proto sr c f ^ 2 / (1 - proto sr c f ^ 2)) ^ 2) := by
  refine ⟨?_, ?_, ?_, fun f h0 h1 => ⟨_, C110_highpass_power hc hsr hq (by linarith) h1, ?_⟩, fun f h0 h1 => ⟨_, C110_highpass_power hc hsr hq h0 (by linarith), ?_⟩⟩
  · convert C110_highpass_power hc hsr hq le_rfl (by linarith) using 1
    rw [proto_zero]; norm_num
  · convert C110_highpass_power hc hsr hq hc.le hsr using 1
    rw [proto_cutoff hc hsr]; field_simp; ring
  · have hg := C44_svf_cutoff hc hsr
    refine ⟨_, C44_svf_highpass hg hq _, ?_⟩
    unfold highpassResponse
    simp only [phaseStep_top (by linarith : sr ≠ 0)]
    norm_num
  · have hx1 : 1 ≤ proto sr c f := by
      rcases h0.lt_or_eq with h | rfl
      · rw [← proto_cutoff hc hsr]; exact (proto_lt hc hsr hc.le h h1).le
      · exact (proto_cutoff hc hsr).ge
    generalize proto sr c f = x at *
    have hk : 0 < 1 / q := by positivity
    rw [le_div_iff₀ (den_pos hk)]
    have hqk : q * (1 / q) = 1 := by field_simp
    have hx2 : 1 ≤ x ^ 2 := by nlinarith
    have e : (1 - x ^ 2) ^ 2 + (x * (1 / q)) ^ 2 ≤ x ^ 2 * (x ^ 2 - 1) + x ^ 2 * (1 / q) ^ 2 := by nlinarith
    have m1 := min_le_left 1 (q ^ 2)
    have m2 := min_le_right 1 (q ^ 2)
    have m0 : 0 ≤ min 1 (q ^ 2) := le_min zero_le_one (sq_nonneg q)
    have hw : 0 ≤ x ^ 2 * (x ^ 2 - 1) := by apply mul_nonneg (sq_nonneg x); linarith
    calc min 1 (q ^ 2) * ((1 - x ^ 2) ^ 2 + (x * (1 / q)) ^ 2) ≤ min 1 (q ^ 2) * (x ^ 2 * (x ^ 2 - 1) + x ^ 2 * (1 / q) ^ 2) := mul_le_mul_of_nonneg_left e m0
      _ = min 1 (q ^ 2) * (x ^ 2 * (x ^ 2 - 1)) + min 1 (q ^ 2) * (x ^ 2 * (1 / q) ^ 2) := by ring
      _ ≤ 1 * (x ^ 2 * (x ^ 2 - 1)) + q ^ 2 * (x ^ 2 * (1 / q) ^ 2) := by gcongr
      _ = x ^ 2 * (x ^ 2 - 1) + x ^ 2 * (q * (1 / q)) ^ 2 := by ring
      _ = (x ^ 2) ^ 2 := by rw [hqk]; ring
  · have hx0 := proto_nonneg hc hsr h0 (by linarith)
    have hx1 : proto sr c f < 1 := by rw [← proto_cutoff hc hsr]; exact proto_lt hc hsr h0 h1 hsr
    generalize proto sr c f = x at *
    have : 0 < 1 - x ^ 2 := by nlinarith
    rw [div_pow]
    apply div_le_div_of_nonneg_left (by positivity) (by positivity)
    nlinarith [sq_nonneg (x * (1 / q))]

/-- **C110, highpass.** With a Q up to `1 / √2` the higher a tone the more of it is passed. -/
theorem C110_highpass_rises (hq2 : q ^ 2 ≤ 1 / 2) : Rises (highpassHz sr c q) (fun _ => True) sr 0 (sr / 2) := by
  have hk : 0 < 1 / q := by positivity
  have hk2 : 2 ≤ (1 / q) ^ 2 := by rw [div_pow, one_pow, le_div_iff₀ (by positivity)]; linarith
  refine rises_of (fun f h0 h1 => C110_highpass_power hc hsr hq h0 h1) (C110_highpass hc hsr hq).2.2.1 (fun f f' h0 h1 h2 => ?_) (fun f h0 h1 => ?_)
  · obtain ⟨a, b⟩ := proto_sq_lt hc hsr h0 h1 h2
    rw [div_lt_div_iff₀ (den_pos hk) (den_pos hk), mul_pow, mul_pow]
    generalize proto sr c f ^ 2 = w at *
    generalize proto sr c f' ^ 2 = w' at *
    generalize (1 / q) ^ 2 = m at *
    have e : w' ^ 2 * ((1 - w) ^ 2 + w * m) - w ^ 2 * ((1 - w') ^ 2 + w' * m) = (w' - w) * ((w' + w) + (m - 2) * (w * w')) := by ring
    have h3 : 0 < (w' - w) * ((w' + w) + (m - 2) * (w * w')) := by
      apply mul_pos (by linarith)
      have : 0 ≤ (m - 2) * (w * w') := mul_nonneg (by linarith) (mul_nonneg a (by linarith))
      linarith
    linarith
  · rw [div_lt_one (den_pos hk), mul_pow]
    have := sq_nonneg (proto sr c f)
    generalize proto sr c f ^ 2 = w at *
    nlinarith

/-! ## Bandpass -/

/-- The power of each tone through a bandpass filter. -/
theorem C110_bandpass_power {f : ℝ} (hf : 0 ≤ f) (hf' : 2 * f < sr) :
    TonePower (bandpassHz sr c q) (fun _ => True) sr f (proto sr c f ^ 2 / ((1 - proto sr c f ^ 2) ^ 2 + (proto sr c f * (1 / q)) ^ 2)) := by
  have hg := C44_svf_cutoff hc hsr
  refine ⟨_, C44_svf_bandpass hg hq _, ?_⟩
  unfold bandpassResponse
  rw [phaseStep_half]
  refine (power_form hg (cos_half_ne hf hf') 0 1 0 1 (1 / q) 1 (by push_cast; ring) (by push_cast; ring)).trans ?_
  unfold proto
  congr 1 <;> ring

/-- **C110, bandpass.** It stops constant signals and the highest frequency; the gain is Q at the center, and rises up to it and falls from it on. It passes half of the power of the center or more where the frequency, warped, is from its inverse by `1 / Q` at most. -/
theorem C110_bandpass : TonePower (bandpassHz sr c q) (fun _ => True) sr 0 0 ∧ TonePower (bandpassHz sr c q) (fun _ => True) sr c (q ^ 2) ∧
    TonePower (bandpassHz sr c q) (fun _ => True) sr (sr / 2) 0 ∧ Rises (bandpassHz sr c q) (fun _ => True) sr 0 c ∧ Falls (bandpassHz sr c q) (fun _ => True) sr c (sr / 2) ∧
    (∀ f, 0 < f → 2 * f < sr → ∃ p, TonePower (bandpassHz sr c q) (fun _ => True) sr f p ∧ (q ^ 2 / 2 ≤ p ↔ |proto sr c f - 1 / proto sr c f| ≤ 1 / q)) := by
  have hk : 0 < 1 / q := by positivity
  have htop : TonePower (bandpassHz sr c q) (fun _ => True) sr (sr / 2) 0 := by
    have hg := C44_svf_cutoff hc hsr
    refine ⟨_, C44_svf_bandpass hg hq _, ?_⟩
    unfold bandpassResponse
    simp only [phaseStep_top (by linarith : sr ≠ 0)]
    norm_num
  have cross : ∀ w w' m : ℝ, w' * ((1 - w) ^ 2 + w * m) - w * ((1 - w') ^ 2 + w' * m) = (w' - w) * (1 - w * w') := by intros; ring
  refine ⟨?_, ?_, htop, ?_, ?_, fun f h0 h1 => ⟨_, C110_bandpass_power hc hsr hq h0.le h1, ?_⟩⟩
  · convert C110_bandpass_power hc hsr hq le_rfl (by linarith) using 1
    rw [proto_zero]; norm_num
  · convert C110_bandpass_power hc hsr hq hc.le hsr using 1
    rw [proto_cutoff hc hsr]; field_simp; ring
  · intro f f' h0 h1 h2
    refine ⟨_, _, C110_bandpass_power hc hsr hq h0 (by linarith), C110_bandpass_power hc hsr hq (by linarith) (by linarith), ?_⟩
    obtain ⟨a, b⟩ := proto_sq_lt hc hsr h0 h1 (by linarith)
    have hb1 : proto sr c f' ^ 2 ≤ 1 := by
      have : proto sr c f' ≤ 1 := by
        rcases h2.lt_or_eq with h | rfl
        · rw [← proto_cutoff hc hsr]; exact (proto_lt hc hsr (by linarith) h hsr).le
        · exact (proto_cutoff hc hsr).le
      have := proto_nonneg hc hsr (by linarith : 0 ≤ f') (by linarith)
      nlinarith
    rw [div_lt_div_iff₀ (den_pos hk) (den_pos hk), mul_pow, mul_pow]
    have := cross (proto sr c f ^ 2) (proto sr c f' ^ 2) ((1 / q) ^ 2)
    have h3 : 0 < (proto sr c f' ^ 2 - proto sr c f ^ 2) * (1 - proto sr c f ^ 2 * proto sr c f' ^ 2) := by
      apply mul_pos (by linarith)
      nlinarith
    linarith
  · refine falls_of (fun f h0 h1 => C110_bandpass_power hc hsr hq (by linarith) h1) htop (fun f f' h0 h1 h2 => ?_) (fun f h0 h1 => ?_)
    · obtain ⟨a, b⟩ := proto_sq_lt hc hsr (by linarith) h1 h2
      have hb1 : 1 ≤ proto sr c f ^ 2 := by
        have : 1 ≤ proto sr c f := by
          rcases h0.lt_or_eq with h | rfl
          · rw [← proto_cutoff hc hsr]; exact (proto_lt hc hsr hc.le h (by linarith)).le
          · exact (proto_cutoff hc hsr).ge
        nlinarith
      rw [div_lt_div_iff₀ (den_pos hk) (den_pos hk), mul_pow, mul_pow]
      have := cross (proto sr c f ^ 2) (proto sr c f' ^ 2) ((1 / q) ^ 2)
      have h3 : 0 < (proto sr c f' ^ 2 - proto sr c f ^ 2) * (proto sr c f ^ 2 * proto sr c f' ^ 2 - 1) := by
        apply mul_pos (by linarith)
        nlinarith
      linarith
    · have := proto_lt hc hsr le_rfl (by linarith : 0 < f) h1
      rw [proto_zero] at this
      exact div_pos (by positivity) (den_pos hk)
  · have hx := proto_lt hc hsr le_rfl h0 h1
    rw [proto_zero] at hx
    generalize proto sr c f = x at *
    have ha : |x - 1 / x| ≤ 1 / q ↔ (x - 1 / x) ^ 2 ≤ (1 / q) ^ 2 := by rw [sq_le_sq, abs_of_pos hk]
    rw [le_div_iff₀ (den_pos hk), ha]
    have e1 : x - 1 / x = (x ^ 2 - 1) / x := by field_simp
    rw [e1, div_pow, div_le_iff₀ (by positivity)]
    have hqk : q ^ 2 * (1 / q) ^ 2 = 1 := by field_simp
    have e2 : q ^ 2 / 2 * ((1 - x ^ 2) ^ 2 + (x * (1 / q)) ^ 2) = q ^ 2 / 2 * (x ^ 2 - 1) ^ 2 + x ^ 2 / 2 * (q ^ 2 * (1 / q) ^ 2) := by ring
    rw [e2, hqk]
    have hq2 : 0 < q ^ 2 := by positivity
    constructor
    · intro h
      have : 0 ≤ q ^ 2 * ((1 / q) ^ 2 * x ^ 2 - (x ^ 2 - 1) ^ 2) := by
        have : q ^ 2 * ((1 / q) ^ 2 * x ^ 2 - (x ^ 2 - 1) ^ 2) = (q ^ 2 * (1 / q) ^ 2) * x ^ 2 - q ^ 2 * (x ^ 2 - 1) ^ 2 := by ring
        rw [this, hqk]; linarith
      have := nonneg_of_mul_nonneg_right this hq2
      linarith
    · intro h
      have := mul_le_mul_of_nonneg_left h hq2.le
      have e3 : q ^ 2 * ((1 / q) ^ 2 * x ^ 2) = (q ^ 2 * (1 / q) ^ 2) * x ^ 2 := by ring
      rw [e3, hqk] at this
      linarith

/-! ## Notch, peak, allpass -/

/-- **C110, notch.** It passes constant signals and the highest frequency unchanged and stops exactly the tone at the center; no tone becomes louder. -/
theorem C110_notch : TonePower (notchHz sr c q) (fun _ => True) sr 0 1 ∧ TonePower (notchHz sr c q) (fun _ => True) sr (sr / 2) 1 ∧
    ∀ f, 0 ≤ f → 2 * f < sr → ∃ p, TonePower (notchHz sr c q) (fun _ => True) sr f p ∧ p = (1 - proto sr c f ^ 2) ^ 2 / ((1 - proto sr c f ^ 2) ^ 2 + (proto sr c f * (1 / q)) ^ 2) ∧
      p ≤ 1 ∧ (p = 0 ↔ f = c) := by
  have hg := C44_svf_cutoff hc hsr
  have hk : 0 < 1 / q := by positivity
  have hp : ∀ f, 0 ≤ f → 2 * f < sr → TonePower (notchHz sr c q) (fun _ => True) sr f ((1 - proto sr c f ^ 2) ^ 2 / ((1 - proto sr c f ^ 2) ^ 2 + (proto sr c f * (1 / q)) ^ 2)) := by
    intro f hf hf'
    refine ⟨_, C44_svf_notch hg hq _, ?_⟩
    unfold notchResponse
    rw [phaseStep_half]
    refine (power_form hg (cos_half_ne hf hf') 1 0 1 1 (1 / q) 1 (by push_cast; ring) (by push_cast; ring)).trans ?_
    unfold proto
    congr 1 <;> ring
  refine ⟨?_, ?_, fun f h0 h1 => ⟨_, hp f h0 h1, rfl, ?_, ?_⟩⟩
  · convert hp 0 le_rfl (by linarith) using 1
    rw [proto_zero]; norm_num
  · refine ⟨_, C44_svf_notch hg hq _, ?_⟩
    unfold notchResponse
    simp only [phaseStep_top (by linarith : sr ≠ 0)]
    norm_num
  · rw [div_le_one (den_pos hk)]
    linarith [sq_nonneg (proto sr c f * (1 / q))]
  · rw [div_eq_zero_iff]
    have := (den_pos hk (x := proto sr c f)).ne'
    constructor
    · rintro (h | h)
      · have h2 : proto sr c f ^ 2 = 1 := by nlinarith [pow_eq_zero_iff two_ne_zero |>.1 h]
        rcases lt_trichotomy f c with h3 | h3 | h3
        · have := proto_sq_lt hc hsr h0 h3 hsr
          rw [proto_cutoff hc hsr] at this
          linarith
        · exact h3
        · have := proto_sq_lt hc hsr hc.le h3 h1
          rw [proto_cutoff hc hsr] at this
          linarith
      · exact absurd h this
    · rintro rfl
      left; rw [proto_cutoff hc hsr]; norm_num

/-- **C110, peak.** It passes constant signals and the highest frequency unchanged, the center with gain 2 Q; for Q of one half or more all gains are between 1 and 2 Q. -/
theorem C110_peak : TonePower (peakHz sr c q) (fun _ => True) sr 0 1 ∧ TonePower (peakHz sr c q) (fun _ => True) sr c ((2 * q) ^ 2) ∧ TonePower (peakHz sr c q) (fun _ => True) sr (sr / 2) 1 ∧
    ∀ f, 0 ≤ f → 2 * f < sr → ∃ p, TonePower (peakHz sr c q) (fun _ => True) sr f p ∧ p = (1 + proto sr c f ^ 2) ^ 2 / ((1 - proto sr c f ^ 2) ^ 2 + (proto sr c f * (1 / q)) ^ 2) ∧
      (1 / 2 ≤ q → 1 ≤ p ∧ p ≤ (2 * q) ^ 2) ∧ (q ≤ 1 / 2 → (2 * q) ^ 2 ≤ p ∧ p ≤ 1) := by
  have hg := C44_svf_cutoff hc hsr
  have hk : 0 < 1 / q := by positivity
  have hp : ∀ f, 0 ≤ f → 2 * f < sr → TonePower (peakHz sr c q) (fun _ => True) sr f ((1 + proto sr c f ^ 2) ^ 2 / ((1 - proto sr c f ^ 2) ^ 2 + (proto sr c f * (1 / q)) ^ 2)) := by
    intro f hf hf'
    refine ⟨_, C44_svf_peak hg hq _, ?_⟩
    unfold peakResponse
    rw [phaseStep_half]
    refine (power_form hg (cos_half_ne hf hf') (-1) 0 1 1 (1 / q) 1 (by push_cast; ring) (by push_cast; ring)).trans ?_
    unfold proto
    congr 1 <;> ring
  have hqk : q * (1 / q) = 1 := by field_simp
  refine ⟨?_, ?_, ?_, fun f h0 h1 => ⟨_, hp f h0 h1, rfl, fun hh => ?_, fun hh => ?_⟩⟩
  · convert hp 0 le_rfl (by linarith) using 1
    rw [proto_zero]; norm_num
  · convert hp c hc.le hsr using 1
    rw [proto_cutoff hc hsr]; field_simp; norm_num
  · refine ⟨_, C44_svf_peak hg hq _, ?_⟩
    unfold peakResponse
    simp only [phaseStep_top (by linarith : sr ≠ 0)]
    norm_num
    ring_nf
    norm_num
  · rw [le_div_iff₀ (den_pos hk), div_le_iff₀ (den_pos hk)]
    generalize proto sr c f = x at *
    have h2 : 1 / q ≤ 2 := by rw [div_le_iff₀ hq]; linarith
    have hw := sq_nonneg x
    have hk4 : (1 / q) ^ 2 ≤ 4 := by nlinarith
    constructor
    · nlinarith
    · have e : (2 * q) ^ 2 * ((1 - x ^ 2) ^ 2 + (x * (1 / q)) ^ 2) = (2 * q) ^ 2 * (1 - x ^ 2) ^ 2 + 4 * x ^ 2 * (q * (1 / q)) ^ 2 := by ring
      rw [e, hqk]
      have : 1 ≤ (2 * q) ^ 2 := by nlinarith
      nlinarith [mul_le_mul_of_nonneg_right this (sq_nonneg (1 - x ^ 2))]
  · rw [le_div_iff₀ (den_pos hk), div_le_iff₀ (den_pos hk)]
    generalize proto sr c f = x at *
    have h2 : 2 ≤ 1 / q := by rw [le_div_iff₀ hq]; linarith
    have hw := sq_nonneg x
    have hk4 : 4 ≤ (1 / q) ^ 2 := by nlinarith
    constructor
    · have e : (2 * q) ^ 2 * ((1 - x ^ 2) ^ 2 + (x * (1 / q)) ^ 2) = (2 * q) ^ 2 * (1 - x ^ 2) ^ 2 + 4 * x ^ 2 * (q * (1 / q)) ^ 2 := by ring
      rw [e, hqk]
      have : (2 * q) ^ 2 ≤ 1 := by nlinarith
      nlinarith [mul_le_mul_of_nonneg_right this (sq_nonneg (1 - x ^ 2))]
    · nlinarith

/-- **C110, allpass.** It passes each tone with its power unchanged, and turns the phase of the center by half a cycle. -/
theorem C110_allpass : (∀ f, 0 ≤ f → 2 * f ≤ sr → TonePower (allpassHz sr c q) (fun _ => True) sr f 1) ∧ GainAt (allpassHz sr c q) sr c (-1) := by
  have hg := C44_svf_cutoff hc hsr
  have hk : 0 < 1 / q := by positivity
  constructor
  · intro f hf hf'
    refine ⟨_, C44_svf_allpass hg hq _, ?_⟩
    unfold allpassResponse
    rcases hf'.lt_or_eq with h | h
    · rw [phaseStep_half]
      refine (power_form hg (cos_half_ne hf h) 1 (-(1 / q)) 1 1 (1 / q) 1 (by push_cast; ring) (by push_cast; ring)).trans ?_
      rw [neg_mul, neg_sq, one_mul]
      rw [div_self]
      have := den_pos hk (x := Real.tan (Real.pi * f / sr) / Real.tan (Real.pi * c / sr))
      rw [mul_comm (1 / q)]
      exact this.ne'
    · have : f = sr / 2 := by linarith
      rw [this]
      simp only [phaseStep_top (by linarith : sr ≠ 0)]
      norm_num
  · have h := C44_svf_allpass hg hq (phaseStep c sr)
    have e : allpassResponse (Real.tan (Real.pi * c / sr)) q (phaseStep c sr) = -1 := by
      unfold allpassResponse
      rw [phaseStep_half]
      have := analog hg (cos_half_ne hc.le hsr) 1 (-(1 / q)) 1 1 (1 / q) 1
      rw [div_self hg.ne'] at this
      refine Eq.trans ?_ (this.trans ?_)
      · push_cast; ring
      · have : (q : ℂ) ≠ 0 := Complex.ofReal_ne_zero.2 hq.ne'
        push_cast
        field_simp
        simp
    rw [e] at h
    exact h

/-! ## Bell and shelves -/

/-- **C110, bell.** It passes constant signals and the highest frequency unchanged, the center with its gain, and each tone with a gain between. -/
theorem C110_bell {gain : ℝ} (hgain : 0 < gain) : TonePower (bellHz sr c q gain) (fun _ => True) sr 0 1 ∧ TonePower (bellHz sr c q gain) (fun _ => True) sr c (gain ^ 2) ∧
    TonePower (bellHz sr c q gain) (fun _ => True) sr (sr / 2) 1 ∧
    ∀ f, 0 ≤ f → 2 * f < sr → ∃ p, TonePower (bellHz sr c q gain) (fun _ => True) sr f p ∧
      p = ((1 - proto sr c f ^ 2) ^ 2 + proto sr c f ^ 2 * (gain / q ^ 2)) / ((1 - proto sr c f ^ 2) ^ 2 + proto sr c f ^ 2 * (1 / (gain * q ^ 2))) ∧
      (1 ≤ gain → 1 ≤ p ∧ p ≤ gain ^ 2) ∧ (gain ≤ 1 → gain ^ 2 ≤ p ∧ p ≤ 1) := by
  have hg := C44_svf_cutoff hc hsr
  obtain ⟨a, ha, haa⟩ : ∃ a, 0 < a ∧ gain = a ^ 2 := ⟨√gain, Real.sqrt_pos.2 hgain, (Real.sq_sqrt hgain.le).symm⟩
  have hsq : √gain = a := by rw [haa, Real.sqrt_sq ha.le]
  have hp : ∀ f, 0 ≤ f → 2 * f < sr → TonePower (bellHz sr c q gain) (fun _ => True) sr f (((1 - proto sr c f ^ 2) ^ 2 + proto sr c f ^ 2 * (gain / q ^ 2)) / ((1 - proto sr c f ^ 2) ^ 2 + proto sr c f ^ 2 * (1 / (gain * q ^ 2)))) := by
    intro f hf hf'
    unfold bellHz
    rw [hsq]
    refine ⟨_, C44_svf_bell hg hq _ ha, ?_⟩
    unfold bellResponse
    have hac : (a : ℂ) ≠ 0 := Complex.ofReal_ne_zero.2 ha.ne'
    rw [phaseStep_half]
    refine (power_form hg (cos_half_ne hf hf') a (a ^ 2 / q) a a (1 / q) a ?_ ?_).trans ?_
    · push_cast; field_simp; ring
    · push_cast; ring
    · rw [haa]
      unfold proto
      generalize Real.tan (Real.pi * f / sr) / Real.tan (Real.pi * c / sr) = x
      rw [show (a - a * x ^ 2) ^ 2 + (a ^ 2 / q * x) ^ 2 = a ^ 2 * ((1 - x ^ 2) ^ 2 + x ^ 2 * (a ^ 2 / q ^ 2)) by field_simp,
        show (a - a * x ^ 2) ^ 2 + (1 / q * x) ^ 2 = a ^ 2 * ((1 - x ^ 2) ^ 2 + x ^ 2 * (1 / (a ^ 2 * q ^ 2))) by field_simp,
        mul_div_mul_left _ _ (by positivity)]
  have hd : ∀ x : ℝ, 0 < (1 - x ^ 2) ^ 2 + x ^ 2 * (1 / (gain * q ^ 2)) := by
    intro x
    by_cases h : x = 0
    · rw [h]; norm_num
    · positivity
  refine ⟨?_, ?_, ?_, fun f h0 h1 => ⟨_, hp f h0 h1, rfl, fun hh => ?_, fun hh => ?_⟩⟩
  · convert hp 0 le_rfl (by linarith) using 1
    rw [proto_zero]; norm_num
  · convert hp c hc.le hsr using 1
    rw [proto_cutoff hc hsr]; field_simp; norm_num
  · unfold bellHz
    rw [hsq]
    refine ⟨_, C44_svf_bell hg hq _ ha, ?_⟩
    unfold bellResponse
    simp only [phaseStep_top (by linarith : sr ≠ 0)]
    have hac : (a : ℂ) ≠ 0 := Complex.ofReal_ne_zero.2 ha.ne'
    norm_num
    exact ha.ne'
  · rw [le_div_iff₀ (hd _), div_le_iff₀ (hd _)]
    generalize proto sr c f = x at *
    have h2 : 1 / (gain * q ^ 2) = (gain / q ^ 2) / gain ^ 2 := by field_simp
    have hm : 0 < gain / q ^ 2 := by positivity
    rw [h2]
    generalize gain / q ^ 2 = m at *
    have hg2 : 1 ≤ gain ^ 2 := by nlinarith
    have h3 : m / gain ^ 2 ≤ m := div_le_self hm.le hg2
    have h4 : gain ^ 2 * (m / gain ^ 2) = m := by field_simp
    constructor
    · nlinarith [mul_le_mul_of_nonneg_left h3 (sq_nonneg x)]
    · have e : gain ^ 2 * ((1 - x ^ 2) ^ 2 + x ^ 2 * (m / gain ^ 2)) = gain ^ 2 * (1 - x ^ 2) ^ 2 + x ^ 2 * (gain ^ 2 * (m / gain ^ 2)) := by ring
      rw [e, h4]
      nlinarith [mul_le_mul_of_nonneg_right hg2 (sq_nonneg (1 - x ^ 2))]
  · rw [le_div_iff₀ (hd _), div_le_iff₀ (hd _)]
    generalize proto sr c f = x at *
    have h2 : 1 / (gain * q ^ 2) = (gain / q ^ 2) / gain ^ 2 := by field_simp
    have hm : 0 < gain / q ^ 2 := by positivity
    rw [h2]
    generalize gain / q ^ 2 = m at *
    have hg2 : gain ^ 2 ≤ 1 := by nlinarith
    have h3 : m ≤ m / gain ^ 2 := le_div_self hm.le (by positivity) hg2
    have h4 : gain ^ 2 * (m / gain ^ 2) = m := by field_simp
    constructor
    · have e : gain ^ 2 * ((1 - x ^ 2) ^ 2 + x ^ 2 * (m / gain ^ 2)) = gain ^ 2 * (1 - x ^ 2) ^ 2 + x ^ 2 * (gain ^ 2 * (m / gain ^ 2)) := by ring
      rw [e, h4]
      nlinarith [mul_le_mul_of_nonneg_right hg2 (sq_nonneg (1 - x ^ 2))]
    · nlinarith [mul_le_mul_of_nonneg_left h3 (sq_nonneg x)]

/-- The power of each tone through a low shelf; `a` is the gain at the cutoff, the root of the gain of the shelf. -/
theorem C110_lowshelf_power {a : ℝ} (ha : 0 < a) {f : ℝ} (hf : 0 ≤ f) (hf' : 2 * f < sr) :
    TonePower (lowshelfHz sr c q (a ^ 2)) (fun _ => True) sr f (a ^ 2 * ((proto sr c f ^ 2 - a) ^ 2 + a * (1 / q) ^ 2 * proto sr c f ^ 2) / ((a * proto sr c f ^ 2 - 1) ^ 2 + a * (1 / q) ^ 2 * proto sr c f ^ 2)) := by
  have hg := C44_svf_cutoff hc hsr
  have hs : 0 < √a := Real.sqrt_pos.2 ha
  have hs2 : √a ^ 2 = a := Real.sq_sqrt ha.le
  unfold lowshelfHz
  rw [Real.sqrt_sq ha.le]
  refine ⟨_, C44_svf_lowshelf hg hq _ ha hs (by rw [← sq]; exact hs2), ?_⟩
  unfold lowshelfResponse
  rw [phaseStep_half]
  refine (power_form hg (cos_half_ne hf hf') (a ^ 2) (√a * a * (1 / q)) a 1 (√a * (1 / q)) a (by push_cast; ring) (by push_cast; ring)).trans ?_
  unfold proto
  generalize Real.tan (Real.pi * f / sr) / Real.tan (Real.pi * c / sr) = x
  congr 1
  · linear_combination (a ^ 2 * (1 / q) ^ 2 * x ^ 2) * hs2
  · linear_combination ((1 / q) ^ 2 * x ^ 2) * hs2

/-- The power of each tone through a high shelf. -/
theorem C110_highshelf_power {a : ℝ} (ha : 0 < a) {f : ℝ} (hf : 0 ≤ f) (hf' : 2 * f < sr) :
    TonePower (highshelfHz sr c q (a ^ 2)) (fun _ => True) sr f (a ^ 2 * ((a * proto sr c f ^ 2 - 1) ^ 2 + a * (1 / q) ^ 2 * proto sr c f ^ 2) / ((proto sr c f ^ 2 - a) ^ 2 + a * (1 / q) ^ 2 * proto sr c f ^ 2)) := by
  have hg := C44_svf_cutoff hc hsr
  have hs : 0 < √a := Real.sqrt_pos.2 ha
  have hs2 : √a ^ 2 = a := Real.sq_sqrt ha.le
  unfold highshelfHz
  rw [Real.sqrt_sq ha.le]
  refine ⟨_, C44_svf_highshelf hg hq _ ha hs (by rw [← sq]; exact hs2), ?_⟩
  unfold highshelfResponse
  rw [phaseStep_half]
  have hs2c : (√a : ℂ) ^ 2 = a := by rw [← Complex.ofReal_pow, hs2]
  refine (power_form hg (cos_half_ne hf hf') a (√a * a * (1 / q)) (a ^ 2) a (√a * (1 / q)) 1 ?_ (by push_cast; ring)).trans ?_
  · generalize Real.tan (Real.pi * c / sr) = g
    push_cast
    linear_combination ((g : ℂ) ^ 2 * (1 + polar (2 * (Real.pi * f / sr))) ^ 2 * (1 - (a : ℂ) ^ 2)) * hs2c
  unfold proto
  generalize Real.tan (Real.pi * f / sr) / Real.tan (Real.pi * c / sr) = x
  congr 1
  · linear_combination (a ^ 2 * (1 / q) ^ 2 * x ^ 2) * hs2
  · linear_combination ((1 / q) ^ 2 * x ^ 2) * hs2

omit hc hsr hq in
/-- How the power through a low shelf changes with the frequency squared: `m` is `a (1 / q² - 2)`. -/
theorem shelf_cross (a m w w' : ℝ) : (w ^ 2 + m * w + a ^ 2) * (a ^ 2 * w' ^ 2 + m * w' + 1) - (w' ^ 2 + m * w' + a ^ 2) * (a ^ 2 * w ^ 2 + m * w + 1) =
    (w' - w) * (a ^ 2 - 1) * (m * (w * w') + (1 + a ^ 2) * (w + w') + m) := by ring

omit hc hsr hq in
theorem shelf_pos {a m w w' : ℝ} (ha : 0 < a) (hm : 0 ≤ m) (hw : 0 ≤ w) (hlt : w < w') : 0 < (w' - w) * (m * (w * w') + (1 + a ^ 2) * (w + w') + m) := by
  have h1 : 0 < w' - w := by linarith
  have h2 : 0 < w + w' := by linarith
  have h3 : 0 ≤ w * w' := mul_nonneg hw (by linarith)
  positivity

omit hc hsr hq in
theorem shelf_den_pos {a k w : ℝ} (ha : 0 < a) (hk : 0 < k) (hw : 0 ≤ w) : 0 < (w - a) ^ 2 + a * k ^ 2 * w ∧ 0 < (a * w - 1) ^ 2 + a * k ^ 2 * w := by
  rcases hw.lt_or_eq with h | h
  · constructor <;> positivity
  · rw [← h]; constructor <;> norm_num <;> positivity

/-- **C110, low shelf.** It passes constant signals with its gain, the cutoff with the root of its gain and the highest frequency unchanged. With a Q up to `1 / √2` the gain changes in one direction only. -/
theorem C110_lowshelf {gain : ℝ} (hgain : 0 < gain) : TonePower (lowshelfHz sr c q gain) (fun _ => True) sr 0 (gain ^ 2) ∧ TonePower (lowshelfHz sr c q gain) (fun _ => True) sr c gain ∧
    TonePower (lowshelfHz sr c q gain) (fun _ => True) sr (sr / 2) 1 ∧
    (q ^ 2 ≤ 1 / 2 → (1 < gain → Falls (lowshelfHz sr c q gain) (fun _ => True) sr 0 (sr / 2)) ∧ (gain < 1 → Rises (lowshelfHz sr c q gain) (fun _ => True) sr 0 (sr / 2))) := by
  have hg := C44_svf_cutoff hc hsr
  obtain ⟨a, ha, haa⟩ : ∃ a, 0 < a ∧ gain = a ^ 2 := ⟨√gain, Real.sqrt_pos.2 hgain, (Real.sq_sqrt hgain.le).symm⟩
  subst haa
  have hk : 0 < 1 / q := by positivity
  have hs : 0 < √a := Real.sqrt_pos.2 ha
  have hs2 : √a * √a = a := Real.mul_self_sqrt ha.le
  have htop : TonePower (lowshelfHz sr c q (a ^ 2)) (fun _ => True) sr (sr / 2) 1 := by
    unfold lowshelfHz
    rw [Real.sqrt_sq ha.le]
    refine ⟨_, C44_svf_lowshelf hg hq _ ha hs hs2, ?_⟩
    unfold lowshelfResponse
    simp only [phaseStep_top (by linarith : sr ≠ 0)]
    norm_num
    exact ha.ne'
  refine ⟨?_, ?_, htop, fun hq2 => ?_⟩
  · convert C110_lowshelf_power hc hsr hq ha le_rfl (by linarith) using 1
    rw [proto_zero]; norm_num; ring
  · convert C110_lowshelf_power hc hsr hq ha hc.le hsr using 1
    rw [proto_cutoff hc hsr]
    have := (shelf_den_pos ha hk zero_le_one).2
    rw [mul_one, mul_one] at this
    rw [one_pow, mul_one, show (1 - a) ^ 2 = (a - 1) ^ 2 by ring, mul_div_assoc, mul_one, div_self this.ne', mul_one]
  · have hk2 : 2 ≤ (1 / q) ^ 2 := by rw [div_pow, one_pow, le_div_iff₀ (by positivity)]; linarith
    have hm : 0 ≤ a * ((1 / q) ^ 2 - 2) := mul_nonneg ha.le (by linarith)
    have key : ∀ f f', 0 ≤ f → f < f' → 2 * f' < sr → ∃ d : ℝ, 0 < d ∧
        ((proto sr c f ^ 2 - a) ^ 2 + a * (1 / q) ^ 2 * proto sr c f ^ 2) * ((a * proto sr c f' ^ 2 - 1) ^ 2 + a * (1 / q) ^ 2 * proto sr c f' ^ 2)
        - ((proto sr c f' ^ 2 - a) ^ 2 + a * (1 / q) ^ 2 * proto sr c f' ^ 2) * ((a * proto sr c f ^ 2 - 1) ^ 2 + a * (1 / q) ^ 2 * proto sr c f ^ 2) = (a ^ 2 - 1) * d := by
      intro f f' h0 h1 h2
      obtain ⟨u, v⟩ := proto_sq_lt hc hsr h0 h1 h2
      refine ⟨_, shelf_pos ha hm u v, ?_⟩
      have := shelf_cross a (a * ((1 / q) ^ 2 - 2)) (proto sr c f ^ 2) (proto sr c f' ^ 2)
      linear_combination this
    constructor
    · intro h1
      refine falls_of (fun f h0 h1 => C110_lowshelf_power hc hsr hq ha h0 h1) htop (fun f f' h0 h2 h3 => ?_) (fun f h0 h2 => ?_)
      · obtain ⟨d, hd, e⟩ := key f f' h0 h2 h3
        rw [mul_div_assoc, mul_div_assoc]
        refine mul_lt_mul_of_pos_left ?_ hgain
        rw [div_lt_div_iff₀ (shelf_den_pos ha hk (sq_nonneg _)).2 (shelf_den_pos ha hk (sq_nonneg _)).2]
        nlinarith
      · rw [one_lt_div (shelf_den_pos ha hk (sq_nonneg _)).2]
        have hw := sq_nonneg (proto sr c f)
        generalize proto sr c f ^ 2 = w at *
        have e : a ^ 2 * ((w - a) ^ 2 + a * (1 / q) ^ 2 * w) - ((a * w - 1) ^ 2 + a * (1 / q) ^ 2 * w) = (a ^ 2 - 1) * (a * ((1 / q) ^ 2 - 2) * w + (a ^ 2 + 1)) := by ring
        have : 0 < (a ^ 2 - 1) * (a * ((1 / q) ^ 2 - 2) * w + (a ^ 2 + 1)) := mul_pos (by linarith) (by positivity)
        linarith
    · intro h1
      refine rises_of (fun f h0 h1 => C110_lowshelf_power hc hsr hq ha h0 h1) htop (fun f f' h0 h2 h3 => ?_) (fun f h0 h2 => ?_)
      · obtain ⟨d, hd, e⟩ := key f f' h0 h2 h3
        rw [mul_div_assoc, mul_div_assoc]
        refine mul_lt_mul_of_pos_left ?_ hgain
        rw [div_lt_div_iff₀ (shelf_den_pos ha hk (sq_nonneg _)).2 (shelf_den_pos ha hk (sq_nonneg _)).2]
        nlinarith
      · rw [div_lt_one (shelf_den_pos ha hk (sq_nonneg _)).2]
        have hw := sq_nonneg (proto sr c f)
        generalize proto sr c f ^ 2 = w at *
        have e : a ^ 2 * ((w - a) ^ 2 + a * (1 / q) ^ 2 * w) - ((a * w - 1) ^ 2 + a * (1 / q) ^ 2 * w) = -((1 - a ^ 2) * (a * ((1 / q) ^ 2 - 2) * w + (a ^ 2 + 1))) := by ring
        have : 0 < (1 - a ^ 2) * (a * ((1 / q) ^ 2 - 2) * w + (a ^ 2 + 1)) := mul_pos (by linarith) (by positivity)
        linarith

/-- **C110, high shelf.** It passes constant signals unchanged, the cutoff with the root of its gain and the highest frequency with its gain. With a Q up to `1 / √2` the gain changes in one direction only. -/
theorem C110_highshelf {gain : ℝ} (hgain : 0 < gain) : TonePower (highshelfHz sr c q gain) (fun _ => True) sr 0 1 ∧ TonePower (highshelfHz sr c q gain) (fun _ => True) sr c gain ∧
    TonePower (highshelfHz sr c q gain) (fun _ => True) sr (sr / 2) (gain ^ 2) ∧
    (q ^ 2 ≤ 1 / 2 → (1 < gain → Rises (highshelfHz sr c q gain) (fun _ => True) sr 0 (sr / 2)) ∧ (gain < 1 → Falls (highshelfHz sr c q gain) (fun _ => True) sr 0 (sr / 2))) := by
  have hg := C44_svf_cutoff hc hsr
  obtain ⟨a, ha, haa⟩ : ∃ a, 0 < a ∧ gain = a ^ 2 := ⟨√gain, Real.sqrt_pos.2 hgain, (Real.sq_sqrt hgain.le).symm⟩
  subst haa
  have hk : 0 < 1 / q := by positivity
  have hs : 0 < √a := Real.sqrt_pos.2 ha
  have hs2 : √a * √a = a := Real.mul_self_sqrt ha.le
  have htop : TonePower (highshelfHz sr c q (a ^ 2)) (fun _ => True) sr (sr / 2) ((a ^ 2) ^ 2) := by
    unfold highshelfHz
    rw [Real.sqrt_sq ha.le]
    refine ⟨_, C44_svf_highshelf hg hq _ ha hs hs2, ?_⟩
    unfold highshelfResponse
    simp only [phaseStep_top (by linarith : sr ≠ 0)]
    norm_num
    ring
  refine ⟨?_, ?_, htop, fun hq2 => ?_⟩
  · convert C110_highshelf_power hc hsr hq ha le_rfl (by linarith) using 1
    rw [proto_zero]; norm_num
    rw [div_self (by positivity)]
  · convert C110_highshelf_power hc hsr hq ha hc.le hsr using 1
    rw [proto_cutoff hc hsr]
    have := (shelf_den_pos ha hk zero_le_one).2
    rw [mul_one, mul_one] at this
    rw [one_pow, mul_one, show (1 - a) ^ 2 = (a - 1) ^ 2 by ring, mul_div_assoc, mul_one, div_self this.ne', mul_one]
  · have hk2 : 2 ≤ (1 / q) ^ 2 := by rw [div_pow, one_pow, le_div_iff₀ (by positivity)]; linarith
    have hm : 0 ≤ a * ((1 / q) ^ 2 - 2) := mul_nonneg ha.le (by linarith)
    have key : ∀ f f', 0 ≤ f → f < f' → 2 * f' < sr → ∃ d : ℝ, 0 < d ∧
        ((proto sr c f ^ 2 - a) ^ 2 + a * (1 / q) ^ 2 * proto sr c f ^ 2) * ((a * proto sr c f' ^ 2 - 1) ^ 2 + a * (1 / q) ^ 2 * proto sr c f' ^ 2)
        - ((proto sr c f' ^ 2 - a) ^ 2 + a * (1 / q) ^ 2 * proto sr c f' ^ 2) * ((a * proto sr c f ^ 2 - 1) ^ 2 + a * (1 / q) ^ 2 * proto sr c f ^ 2) = (a ^ 2 - 1) * d := by
      intro f f' h0 h1 h2
      obtain ⟨u, v⟩ := proto_sq_lt hc hsr h0 h1 h2
      refine ⟨_, shelf_pos ha hm u v, ?_⟩
      have := shelf_cross a (a * ((1 / q) ^ 2 - 2)) (proto sr c f ^ 2) (proto sr c f' ^ 2)
      linear_combination this
    have hw : ∀ f, 0 ≤ proto sr c f ^ 2 := fun f => sq_nonneg _
    constructor
    · intro h1
      refine rises_of (fun f h0 h1 => C110_highshelf_power hc hsr hq ha h0 h1) htop (fun f f' h0 h2 h3 => ?_) (fun f h0 h2 => ?_)
      · obtain ⟨d, hd, e⟩ := key f f' h0 h2 h3
        rw [mul_div_assoc, mul_div_assoc]
        refine mul_lt_mul_of_pos_left ?_ hgain
        rw [div_lt_div_iff₀ (shelf_den_pos ha hk (hw _)).1 (shelf_den_pos ha hk (hw _)).1]
        nlinarith
      · rw [div_lt_iff₀ (shelf_den_pos ha hk (hw _)).1, sq (a ^ 2), mul_assoc (a ^ 2) (a ^ 2)]
        refine mul_lt_mul_of_pos_left ?_ hgain
        have hw := hw f
        generalize proto sr c f ^ 2 = w at *
        have e : a ^ 2 * ((w - a) ^ 2 + a * (1 / q) ^ 2 * w) - ((a * w - 1) ^ 2 + a * (1 / q) ^ 2 * w) = (a ^ 2 - 1) * (a * ((1 / q) ^ 2 - 2) * w + (a ^ 2 + 1)) := by ring
        have : 0 < (a ^ 2 - 1) * (a * ((1 / q) ^ 2 - 2) * w + (a ^ 2 + 1)) := mul_pos (by linarith) (by positivity)
        linarith
    · intro h1
      refine falls_of (fun f h0 h1 => C110_highshelf_power hc hsr hq ha h0 h1) htop (fun f f' h0 h2 h3 => ?_) (fun f h0 h2 => ?_)
      · obtain ⟨d, hd, e⟩ := key f f' h0 h2 h3
        rw [mul_div_assoc, mul_div_assoc]
        refine mul_lt_mul_of_pos_left ?_ hgain
        rw [div_lt_div_iff₀ (shelf_den_pos ha hk (hw _)).1 (shelf_den_pos ha hk (hw _)).1]
        nlinarith
      · rw [lt_div_iff₀ (shelf_den_pos ha hk (hw _)).1, sq (a ^ 2), mul_assoc (a ^ 2) (a ^ 2)]
        refine mul_lt_mul_of_pos_left ?_ hgain
        have hw := hw f
        generalize proto sr c f ^ 2 = w at *
        have e : a ^ 2 * ((w - a) ^ 2 + a * (1 / q) ^ 2 * w) - ((a * w - 1) ^ 2 + a * (1 / q) ^ 2 * w) = -((1 - a ^ 2) * (a * ((1 / q) ^ 2 - 2) * w + (a ^ 2 + 1))) := by ring
        have : 0 < (1 - a ^ 2) * (a * ((1 / q) ^ 2 - 2) * w + (a ^ 2 + 1)) := mul_pos (by linarith) (by positivity)
        linarith

end

/-! ## Butterworth lowpass -/

/-- **C110, Butterworth.** `butterpass_hz` (`prelude.rs:445-447`) has a maximally flat passband, as the power is `1 / (1 + x⁴)`, and a monotonic response. -/
theorem C110_butter {sr c : ℝ} (hc : 0 < c) (hsr : 2 * c < sr) :
    (∀ f, 0 ≤ f → 2 * f < sr → TonePower (biquadNode (butterLowpass sr c)) (fun _ => True) sr f (1 / (1 + proto sr c f ^ 4))) ∧
    TonePower (biquadNode (butterLowpass sr c)) (fun _ => True) sr (sr / 2) 0 ∧ Falls (biquadNode (butterLowpass sr c)) (fun _ => True) sr 0 (sr / 2) := by
  have hg := C44_svf_cutoff hc hsr
  have hst := C65_butter_stable hc hsr
  have hform : ∀ θ, biquadResponse (butterLowpass sr c) θ = ((Real.tan (Real.pi * c / sr) : ℂ) * Real.tan (Real.pi * c / sr) * ((polar θ + 1) * (polar θ + 1))) /
      ((polar θ - 1) * (polar θ - 1) + ((√2 : ℝ) : ℂ) * (Real.tan (Real.pi * c / sr) * ((polar θ - 1) * (polar θ + 1))) + Real.tan (Real.pi * c / sr) * Real.tan (Real.pi * c / sr) * ((polar θ + 1) * (polar θ + 1))) := by
    intro θ
    unfold biquadResponse butterLowpass
    dsimp only
    rw [show c * Real.pi / sr = Real.pi * c / sr by ring, polar_neg]
    have hz := polar_ne θ
    have hd : 1 + √2 * Real.tan (Real.pi * c / sr) + Real.tan (Real.pi * c / sr) * Real.tan (Real.pi * c / sr) ≠ 0 := by positivity
    generalize Real.tan (Real.pi * c / sr) = g at *
    generalize √2 = w at *
    have hd' : (1 : ℂ) + w * g + g * g ≠ 0 := by exact_mod_cast hd
    rw [← mul_div_mul_left _ _ (mul_ne_zero (mul_ne_zero hz hz) hd')]
    push_cast
    generalize hD : (1 : ℂ) + w * g + g * g = D at *
    congr 1
    · field_simp
      ring
    · field_simp
      linear_combination -(polar θ) ^ 2 * hD
  have hp : ∀ f, 0 ≤ f → 2 * f < sr → TonePower (biquadNode (butterLowpass sr c)) (fun _ => True) sr f (1 / (1 + proto sr c f ^ 4)) := by
    intro f hf hf'
    refine ⟨_, C44_biquad _ hst.1 hst.2 _, ?_⟩
    rw [hform, phaseStep_half]
    refine (power_form hg (cos_half_ne hf hf') 1 0 0 1 (√2) 1 (by push_cast; ring) (by push_cast; ring)).trans ?_
    unfold proto
    have := Real.sq_sqrt (zero_le_two : (0 : ℝ) ≤ 2)
    congr 1
    · ring
    · linear_combination (Real.tan (Real.pi * f / sr) / Real.tan (Real.pi * c / sr)) ^ 2 * this
  have htop : TonePower (biquadNode (butterLowpass sr c)) (fun _ => True) sr (sr / 2) 0 := by
    refine ⟨_, C44_biquad _ hst.1 hst.2 _, ?_⟩
    rw [hform, phaseStep_top (by linarith : sr ≠ 0)]
    simp
  refine ⟨hp, htop, falls_of hp htop (fun f f' h0 h1 h2 => ?_) (fun f h0 h1 => by positivity)⟩
  obtain ⟨u, v⟩ := proto_sq_lt hc hsr h0 h1 h2
  apply one_div_lt_one_div_of_lt (by positivity)
  nlinarith

/-! ## Filters of first order -/

theorem cosh_ge (x : ℝ) : 1 + x ^ 2 / 2 ≤ Real.cosh x := by
  have h : Real.cosh x = 1 + 2 * Real.sinh (x / 2) ^ 2 := by
    have := Real.cosh_two_mul (x / 2)
    rw [show 2 * (x / 2) = x by ring, Real.cosh_sq'] at this
    linarith
  have : (x / 2) ^ 2 ≤ Real.sinh (x / 2) ^ 2 := by
    rcases le_total 0 x with h0 | h0
    · exact pow_le_pow_left₀ (by linarith) (Real.self_le_sinh_iff.2 (by linarith)) 2
    · rw [← neg_sq, ← neg_sq (Real.sinh _), ← Real.sinh_neg]
      exact pow_le_pow_left₀ (by linarith) (Real.self_le_sinh_iff.2 (by linarith)) 2
  rw [h]; nlinarith

theorem cosh_cos (x : ℝ) : 2 ≤ Real.cosh x + Real.cos x := by
  linarith [cosh_ge x, Real.one_sub_sq_div_two_le_cos (x := x)]

/-- Products of a pole `exp (-ω)` in terms of hyperbolic functions. -/
theorem pole_cosh (ω : ℝ) : 1 + Real.exp (-ω) ^ 2 = 2 * Real.exp (-ω) * Real.cosh ω := by
  rw [Real.cosh_eq, Real.exp_neg]
  have := Real.exp_pos ω
  field_simp

theorem angle_cos_lt {sr f f' : ℝ} (h0 : 0 ≤ f) (hlt : f < f') (h1 : f' ≤ sr / 2) : Real.cos (phaseStep f' sr) < Real.cos (phaseStep f sr) := by
  have hs : 0 < sr := by linarith
  have hpi := Real.pi_pos
  refine Real.cos_lt_cos_of_nonneg_of_le_pi ?_ ?_ ?_
  · unfold phaseStep; positivity
  · unfold phaseStep; rw [div_le_iff₀ hs]; nlinarith
  · unfold phaseStep; gcongr

/-- States of a lowpole with this cutoff: `Lowpole::set_cutoff`, `filter.rs:43-46`. -/
def LowpoleAt (sr c : ℝ) (s : LowpoleSt ℝ) : Prop := s.coeff = Real.exp (-(2 * Real.pi) * c / sr)
/-- States of a highpole with this cutoff: `Highpole::set_cutoff`, `filter.rs:376-379`. -/
def HighpoleAt (sr c : ℝ) (s : PoleZero ℝ) : Prop := s.coeff = Real.exp (-(2 * Real.pi) * c / sr)
/-- States of a DC blocker with this cutoff: `DCBlock::set_cutoff`, `filter.rs:123-126`. -/
def DcblockAt (sr c : ℝ) (s : PoleZero ℝ) : Prop := s.coeff = 1 - 2 * Real.pi / sr * c
/-- States of an allpole with this delay: `Allpole::set_delay`, `filter.rs:294-296`. -/
def AllpoleAt (delay : ℝ) (s : PoleZero ℝ) : Prop := s.coeff = (1 - delay) / (1 + delay)

section
variable {sr c : ℝ} (cf : ℝ → ℝ) (hc : 0 < c) (hsr : 0 < sr)
include hc hsr

theorem omega_exp : 0 < Real.exp (-(2 * Real.pi) * c / sr) ∧ Real.exp (-(2 * Real.pi) * c / sr) < 1 ∧ Real.exp (-(2 * Real.pi) * c / sr) = Real.exp (-phaseStep c sr) ∧ 0 < phaseStep c sr := by
  have hpi := Real.pi_pos
  have h : 0 < phaseStep c sr := by unfold phaseStep; positivity
  have e : Real.exp (-(2 * Real.pi) * c / sr) = Real.exp (-phaseStep c sr) := by congr 1; unfold phaseStep; ring
  refine ⟨Real.exp_pos _, ?_, e, h⟩
  rw [e, Real.exp_lt_one_iff]; linarith

theorem lowpole_at (f : ℝ) : TonePower (lowpoleNode cf 0) (LowpoleAt sr c) sr f
    ((1 - Real.exp (-phaseStep c sr)) ^ 2 / (1 - 2 * Real.exp (-phaseStep c sr) * Real.cos (phaseStep f sr) + Real.exp (-phaseStep c sr) ^ 2)) := by
  obtain ⟨h0, h1, e, _⟩ := omega_exp hc hsr
  refine ⟨_, C44_lowpole cf _ (by rw [abs_lt]; constructor <;> linarith) _, ?_⟩
  rw [lowpole_power, e]

theorem highpole_at (f : ℝ) : TonePower highpoleNode (HighpoleAt sr c) sr f
    (2 * Real.exp (-phaseStep c sr) ^ 2 * (1 - Real.cos (phaseStep f sr)) / (1 - 2 * Real.exp (-phaseStep c sr) * Real.cos (phaseStep f sr) + Real.exp (-phaseStep c sr) ^ 2)) := by
  obtain ⟨h0, h1, e, _⟩ := omega_exp hc hsr
  refine ⟨_, C44_highpole _ (by rw [abs_lt]; constructor <;> linarith) _, ?_⟩
  rw [highpole_power, e]

end

/-- Nearly half, from above. -/
theorem near_half {ω : ℝ} (h0 : 0 < ω) (h1 : ω ≤ 1) : (Real.cosh ω - 1) / (Real.cosh ω - Real.cos ω) ≤ 1 / 2 + ω ^ 2 / 6 := by
  have c1 := cosh_ge ω
  have c2 := Real.cosh_le_exp_half_sq ω
  have c3 := Real.abs_exp_sub_one_sub_id_le (x := ω ^ 2 / 2) (by rw [abs_of_nonneg (by positivity)]; nlinarith)
  have c4 := Real.cos_bound (x := ω) (by rw [abs_of_pos h0]; exact h1)
  rw [abs_of_pos h0] at c4
  rw [abs_le] at c3 c4
  have hd : 0 < Real.cosh ω - Real.cos ω := by
    have : ω ^ 4 ≤ ω ^ 2 := by nlinarith [mul_nonneg (sq_nonneg ω) (by nlinarith : 0 ≤ 1 - ω ^ 2)]
    nlinarith [c4.2, pow_pos h0 2]
  rw [div_le_iff₀ hd]
  have hw2 : ω ^ 2 ≤ 1 := by nlinarith
  have hw4 : ω ^ 4 ≤ ω ^ 2 := by nlinarith
  have d1 : 23 / 24 * ω ^ 2 ≤ Real.cosh ω - Real.cos ω + ω ^ 4 * (5 / 96) - ω ^ 4 / 24 := by nlinarith
  have d2 : Real.cosh ω + Real.cos ω - 2 ≤ ω ^ 4 * (1 / 4 + 5 / 96) := by nlinarith [c3.2, c4.2]
  have d3 : (23 / 24 - 1 / 96) * ω ^ 2 ≤ Real.cosh ω - Real.cos ω := by nlinarith
  have d4 : ω ^ 2 * ((23 / 24 - 1 / 96) * ω ^ 2) ≤ ω ^ 2 * (Real.cosh ω - Real.cos ω) := mul_le_mul_of_nonneg_left d3 (sq_nonneg ω)
  nlinarith

section
variable {sr c : ℝ} (cf : ℝ → ℝ) (hc : 0 < c) (hsr : 2 * c < sr)
include hc hsr

/-- **C110, lowpole, in part** (missing: stops tones far above the cutoff, see `C110_violation_lowpole`). It passes constant signals unchanged; the higher a tone the less of it is passed. At the cutoff it passes half of the power or more, nearly half when the cutoff is low. -/
theorem C110_lowpole_partial : TonePower (lowpoleNode cf 0) (LowpoleAt sr c) sr 0 1 ∧ Falls (lowpoleNode cf 0) (LowpoleAt sr c) sr 0 (sr / 2) ∧
    ∃ p, TonePower (lowpoleNode cf 0) (LowpoleAt sr c) sr c p ∧ 1 / 2 ≤ p ∧ (phaseStep c sr ≤ 1 → p ≤ 1 / 2 + phaseStep c sr ^ 2 / 6) := by
  have hs : 0 < sr := by linarith
  obtain ⟨h0, h1, e, hω⟩ := omega_exp hc hs
  rw [e] at h0 h1
  have habs : |Real.exp (-phaseStep c sr)| < 1 := by rw [abs_lt]; constructor <;> linarith
  refine ⟨?_, fun f f' a b d => ⟨_, _, lowpole_at cf hc hs f, lowpole_at cf hc hs f', ?_⟩, _, lowpole_at cf hc hs c, ?_⟩
  · convert lowpole_at cf hc hs 0 using 1
    have : phaseStep 0 sr = 0 := by unfold phaseStep; simp
    rw [this, Real.cos_zero, show 1 - 2 * Real.exp (-phaseStep c sr) * 1 + Real.exp (-phaseStep c sr) ^ 2 = (1 - Real.exp (-phaseStep c sr)) ^ 2 by ring, div_self]
    have : 0 < 1 - Real.exp (-phaseStep c sr) := by linarith
    positivity
  · have hlt := angle_cos_lt a b d
    apply div_lt_div_of_pos_left _ (one_pole_pos habs _)
    · nlinarith
    · have : 0 < 1 - Real.exp (-phaseStep c sr) := by linarith
      positivity
  · have hcc := pole_cosh (phaseStep c sr)
    have hlt : Real.cos (phaseStep c sr) < Real.cosh (phaseStep c sr) := lt_of_le_of_lt (Real.cos_le_one _) (Real.one_lt_cosh.2 hω.ne')
    have e2 : (1 - Real.exp (-phaseStep c sr)) ^ 2 / (1 - 2 * Real.exp (-phaseStep c sr) * Real.cos (phaseStep c sr) + Real.exp (-phaseStep c sr) ^ 2) =
        (Real.cosh (phaseStep c sr) - 1) / (Real.cosh (phaseStep c sr) - Real.cos (phaseStep c sr)) := by
      have n : (1 - Real.exp (-phaseStep c sr)) ^ 2 = 2 * Real.exp (-phaseStep c sr) * (Real.cosh (phaseStep c sr) - 1) := by linear_combination hcc
      have m : 1 - 2 * Real.exp (-phaseStep c sr) * Real.cos (phaseStep c sr) + Real.exp (-phaseStep c sr) ^ 2 = 2 * Real.exp (-phaseStep c sr) * (Real.cosh (phaseStep c sr) - Real.cos (phaseStep c sr)) := by linear_combination hcc
      rw [n, m, mul_div_mul_left _ _ (by positivity)]
    rw [e2]
    refine ⟨?_, near_half hω⟩
    rw [div_le_div_iff₀ two_pos (by linarith)]
    linarith [cosh_cos (phaseStep c sr)]

/-- **C110, highpole, in part** (missing: passes high tones, see `C110_violation_highpole`). It stops constant signals; the higher a tone the more of it is passed. At the cutoff it passes less than half of the power, nearly half when the cutoff is low. -/
theorem C110_highpole_partial : TonePower highpoleNode (HighpoleAt sr c) sr 0 0 ∧ Rises highpoleNode (HighpoleAt sr c) sr 0 (sr / 2) ∧
    TonePower highpoleNode (HighpoleAt sr c) sr (sr / 2) ((2 * Real.exp (-phaseStep c sr) / (1 + Real.exp (-phaseStep c sr))) ^ 2) ∧
    ∃ p, TonePower highpoleNode (HighpoleAt sr c) sr c p ∧ p < 1 / 2 ∧ (phaseStep c sr ≤ 1 → Real.exp (-phaseStep c sr) * (1 / 2 - phaseStep c sr ^ 2 / 6) ≤ p) := by
  have hs : 0 < sr := by linarith
  obtain ⟨h0, h1, e, hω⟩ := omega_exp hc hs
  rw [e] at h0 h1
  have habs : |Real.exp (-phaseStep c sr)| < 1 := by rw [abs_lt]; constructor <;> linarith
  refine ⟨?_, fun f f' a b d => ⟨_, _, highpole_at hc hs f, highpole_at hc hs f', ?_⟩, ?_, _, highpole_at hc hs c, ?_⟩
  · convert highpole_at hc hs 0 using 1
    have : phaseStep 0 sr = 0 := by unfold phaseStep; simp
    rw [this, Real.cos_zero]; simp
  · have hlt := angle_cos_lt a b d
    rw [div_lt_div_iff₀ (one_pole_pos habs _) (one_pole_pos habs _)]
    generalize Real.exp (-phaseStep c sr) = r at *
    have : 0 < 2 * r ^ 2 * ((1 - r) ^ 2 * (Real.cos (phaseStep f sr) - Real.cos (phaseStep f' sr))) := by
      have : 0 < 1 - r := by linarith
      have : 0 < Real.cos (phaseStep f sr) - Real.cos (phaseStep f' sr) := by linarith
      positivity
    nlinarith
  · convert highpole_at hc hs (sr / 2) using 1
    have : phaseStep (sr / 2) sr = Real.pi := by unfold phaseStep; field_simp
    rw [this, Real.cos_pi]
    have : 1 + Real.exp (-phaseStep c sr) ≠ 0 := by positivity
    rw [show 1 - 2 * Real.exp (-phaseStep c sr) * -1 + Real.exp (-phaseStep c sr) ^ 2 = (1 + Real.exp (-phaseStep c sr)) ^ 2 by ring]
    field_simp
    norm_num
  · have hcc := pole_cosh (phaseStep c sr)
    have hlt : Real.cos (phaseStep c sr) < Real.cosh (phaseStep c sr) := lt_of_le_of_lt (Real.cos_le_one _) (Real.one_lt_cosh.2 hω.ne')
    have hd : 0 < Real.cosh (phaseStep c sr) - Real.cos (phaseStep c sr) := by linarith
    have e2 : 2 * Real.exp (-phaseStep c sr) ^ 2 * (1 - Real.cos (phaseStep c sr)) / (1 - 2 * Real.exp (-phaseStep c sr) * Real.cos (phaseStep c sr) + Real.exp (-phaseStep c sr) ^ 2) =
        Real.exp (-phaseStep c sr) * (1 - (Real.cosh (phaseStep c sr) - 1) / (Real.cosh (phaseStep c sr) - Real.cos (phaseStep c sr))) := by
      have m : 1 - 2 * Real.exp (-phaseStep c sr) * Real.cos (phaseStep c sr) + Real.exp (-phaseStep c sr) ^ 2 = 2 * Real.exp (-phaseStep c sr) * (Real.cosh (phaseStep c sr) - Real.cos (phaseStep c sr)) := by linear_combination hcc
      rw [m, show 2 * Real.exp (-phaseStep c sr) ^ 2 * (1 - Real.cos (phaseStep c sr)) = (2 * Real.exp (-phaseStep c sr)) * (Real.exp (-phaseStep c sr) * (1 - Real.cos (phaseStep c sr))) by ring, mul_div_mul_left _ _ (by positivity)]
      generalize Real.cosh (phaseStep c sr) = C at *
      generalize Real.cos (phaseStep c sr) = D at *
      have : C - D ≠ 0 := hd.ne'
      field_simp
      ring
    rw [e2]
    have hh : 1 / 2 ≤ (Real.cosh (phaseStep c sr) - 1) / (Real.cosh (phaseStep c sr) - Real.cos (phaseStep c sr)) := by
      rw [div_le_div_iff₀ two_pos hd]
      linarith [cosh_cos (phaseStep c sr)]
    have hnear := fun h => near_half hω h
    generalize (Real.cosh (phaseStep c sr) - 1) / (Real.cosh (phaseStep c sr) - Real.cos (phaseStep c sr)) = y at *
    constructor
    · nlinarith
    · intro h
      have := hnear h
      apply mul_le_mul_of_nonneg_left _ h0.le
      linarith

end

/-- **C110, DC blocker, in part** (missing: cutoffs above `sr / π`, see `C110_violation_dcblock`). It stops constant signals; the higher a tone the more of it is passed. At the cutoff it passes nearly half of the power when the cutoff is low. -/
theorem C110_dcblock_partial {sr c : ℝ} (hc : 0 < c) (hsr : Real.pi * c < sr) : TonePower dcblockNode (DcblockAt sr c) sr 0 0 ∧ Rises dcblockNode (DcblockAt sr c) sr 0 (sr / 2) ∧
    ∃ p, TonePower dcblockNode (DcblockAt sr c) sr c p ∧ (phaseStep c sr ≤ 1 → 1 / 2 ≤ p ∧ p ≤ 1 / 2 + phaseStep c sr) := by
  have hpi := Real.pi_pos
  have hs : 0 < sr := by nlinarith
  have hω : 0 < phaseStep c sr := by unfold phaseStep; positivity
  have hω2 : phaseStep c sr < 2 := by unfold phaseStep; rw [div_lt_iff₀ hs]; nlinarith
  have e : 1 - 2 * Real.pi / sr * c = 1 - phaseStep c sr := by unfold phaseStep; ring
  have habs : |1 - phaseStep c sr| < 1 := by rw [abs_lt]; constructor <;> linarith
  have hp : ∀ f, TonePower dcblockNode (DcblockAt sr c) sr f (2 * (1 - Real.cos (phaseStep f sr)) / (1 - 2 * (1 - phaseStep c sr) * Real.cos (phaseStep f sr) + (1 - phaseStep c sr) ^ 2)) := by
    intro f
    refine ⟨_, C44_dcblock _ (by rw [e]; exact habs) _, ?_⟩
    rw [dcblock_power, e]
  refine ⟨?_, fun f f' a b d => ⟨_, _, hp f, hp f', ?_⟩, _, hp c, fun h1 => ?_⟩
  · convert hp 0 using 1
    have : phaseStep 0 sr = 0 := by unfold phaseStep; simp
    rw [this, Real.cos_zero]; simp
  · have hlt := angle_cos_lt a b d
    rw [div_lt_div_iff₀ (one_pole_pos habs _) (one_pole_pos habs _)]
    generalize phaseStep c sr = ω at *
    have : 0 < ω ^ 2 * (Real.cos (phaseStep f sr) - Real.cos (phaseStep f' sr)) := by
      have : 0 < Real.cos (phaseStep f sr) - Real.cos (phaseStep f' sr) := by linarith
      positivity
    nlinarith
  · have c1 := Real.one_sub_sq_div_two_le_cos (x := phaseStep c sr)
    have c4 := Real.cos_bound (x := phaseStep c sr) (by rw [abs_of_pos hω]; exact h1)
    rw [abs_of_pos hω, abs_le] at c4
    have hd := one_pole_pos habs (phaseStep c sr)
    rw [le_div_iff₀ hd, div_le_iff₀ hd]
    generalize Real.cos (phaseStep c sr) = C at *
    generalize phaseStep c sr = ω at *
    have hw3 : ω ^ 4 ≤ ω ^ 3 := by nlinarith [pow_pos hω 3]
    have hu : ω ^ 2 / 2 - ω ^ 4 * (5 / 96) ≤ 1 - C := by linarith [c4.2]
    have hp3 := pow_pos hω 3
    constructor
    · nlinarith [mul_nonneg hω.le (by linarith : 0 ≤ 1 - C - (ω ^ 2 / 2 - ω ^ 4 * (5 / 96))), mul_nonneg hω.le (by linarith : 0 ≤ ω ^ 3 - ω ^ 4)]
    · have hu2 : 0 ≤ ω ^ 2 / 2 - (1 - C) := by linarith
      have hk : 0 ≤ 1 - ω + 2 * ω ^ 2 := by nlinarith
      nlinarith [mul_nonneg hk hu2, mul_nonneg hω.le hω.le]

/-- **C110, allpole.** It passes each tone with its power unchanged; near frequency zero it turns the phase as a delay of that many samples does. -/
theorem C110_allpole {sr delay : ℝ} (hd : 0 < delay) : (∀ f, TonePower (allpoleNode 0) (AllpoleAt delay) sr f 1) ∧
    ∃ R : ℝ → ℂ, (∀ f, HasResponse (allpoleNode 0) (AllpoleAt delay) (phaseStep f sr) (R f)) ∧ R 0 = 1 ∧
      HasDerivAt R (-(2 * Real.pi * (delay / sr) : ℝ) * Complex.I) 0 := by
  have habs : |(1 - delay) / (1 + delay)| < 1 := by
    rw [abs_div, abs_of_pos (by linarith : 0 < 1 + delay), div_lt_one (by linarith), abs_lt]
    constructor <;> linarith
  constructor
  · intro f
    refine ⟨_, C44_allpole _ habs _, ?_⟩
    unfold allpoleResponse
    rw [Complex.normSq_div]
    have n1 := normSq_pole ((1 - delay) / (1 + delay)) 1 (phaseStep f sr)
    have n2 := normSq_pole 1 ((1 - delay) / (1 + delay)) (phaseStep f sr)
    rw [Complex.ofReal_one] at n1 n2
    rw [one_mul] at n1
    rw [n1, n2, show 1 ^ 2 + ((1 - delay) / (1 + delay)) ^ 2 + 2 * 1 * ((1 - delay) / (1 + delay)) * Real.cos (phaseStep f sr) = ((1 - delay) / (1 + delay)) ^ 2 + 1 ^ 2 + 2 * ((1 - delay) / (1 + delay)) * 1 * Real.cos (phaseStep f sr) by ring]
    apply div_self
    have := one_pole_pos (c := -((1 - delay) / (1 + delay))) (by rw [abs_neg]; exact habs) (phaseStep f sr)
    nlinarith
  · refine ⟨fun f => allpoleResponse ((1 - delay) / (1 + delay)) (phaseStep f sr), fun f => C44_allpole _ habs _, ?_, ?_⟩
    · have : phaseStep 0 sr = 0 := by unfold phaseStep; simp
      have hne : (1 : ℂ) + ((1 - delay) / (1 + delay) : ℝ) ≠ 0 := by
        rw [abs_lt] at habs
        have : (1 : ℝ) + ((1 - delay) / (1 + delay)) ≠ 0 := by linarith
        exact_mod_cast this
      simp only [this]
      unfold allpoleResponse polar
      simp only [neg_zero, Complex.ofReal_zero, zero_mul, Complex.exp_zero, mul_one]
      rw [add_comm, div_self hne]
    · have hz : HasDerivAt (fun f : ℝ => polar (-phaseStep f sr)) (-(2 * Real.pi / sr : ℝ) * Complex.I) 0 := by
        have h1 : HasDerivAt (fun f : ℝ => -phaseStep f sr) (-(2 * Real.pi / sr)) 0 := by
          unfold phaseStep
          exact ((((hasDerivAt_id (0 : ℝ)).mul_const (2 * Real.pi)).div_const sr).neg).congr_deriv (by ring)
        have h2 := ((h1.ofReal_comp).mul_const Complex.I).cexp
        unfold polar
        refine h2.congr_deriv ?_
        unfold phaseStep
        simp
      have hval : polar (-phaseStep 0 sr) = 1 := by unfold polar phaseStep; simp
      have hne : (1 : ℂ) + ((1 - delay) / (1 + delay) : ℝ) ≠ 0 := by
        rw [abs_lt] at habs
        have : (1 : ℝ) + ((1 - delay) / (1 + delay)) ≠ 0 := by linarith
        exact_mod_cast this
      unfold allpoleResponse
      have hn := (hz.const_add (((1 - delay) / (1 + delay) : ℝ) : ℂ))
      have hdd := ((hz.const_mul (((1 - delay) / (1 + delay) : ℝ) : ℂ)).const_add (1 : ℂ))
      refine (hn.div hdd (by rw [hval, mul_one]; exact hne)).congr_deriv ?_
      rw [hval]
      have hde : (1 : ℂ) + delay ≠ 0 := by
        have : (1 : ℝ) + delay ≠ 0 := by linarith
        exact_mod_cast this
      push_cast at hne ⊢
      have h2 : (1 : ℂ) + (1 - delay) / (1 + delay) = 2 / (1 + delay) := by field_simp; ring
      rw [mul_one, h2]
      by_cases hs : (sr : ℂ) = 0
      · rw [hs]; simp
      · field_simp
        ring

/-- **C110, follow.** It passes constant signals unchanged; the higher a tone the less of it is passed. -/
theorem C110_follow {sr coeff : ℝ} (h0 : 0 < coeff) (h1 : coeff < 1) (hsr : 0 < sr) : TonePower followNode (fun s : FollowSt ℝ => s.coeff = coeff) sr 0 1 ∧
    Falls followNode (fun s : FollowSt ℝ => s.coeff = coeff) sr 0 (sr / 2) := by
  have habs : |1 - coeff| < 1 := by rw [abs_lt]; constructor <;> linarith
  have hp : ∀ f, TonePower followNode (fun s : FollowSt ℝ => s.coeff = coeff) sr f ((coeff ^ 2 / (1 - 2 * (1 - coeff) * Real.cos (phaseStep f sr) + (1 - coeff) ^ 2)) ^ 3) := by
    intro f
    refine ⟨_, C44_follow coeff h0 h1.le _, ?_⟩
    have e : followResponse coeff (phaseStep f sr) = lowpoleResponse (1 - coeff) (phaseStep f sr) ^ 3 := by
      unfold followResponse lowpoleResponse
      push_cast
      ring
    rw [e, map_pow, lowpole_power]
    congr 2
    ring
  refine ⟨?_, fun f f' a b d => ⟨_, _, hp f, hp f', ?_⟩⟩
  · convert hp 0 using 1
    have : phaseStep 0 sr = 0 := by unfold phaseStep; simp
    rw [this, Real.cos_zero, show 1 - 2 * (1 - coeff) * 1 + (1 - coeff) ^ 2 = coeff ^ 2 by ring, div_self (by positivity)]
    norm_num
  · have hlt := angle_cos_lt a b d
    have hd := one_pole_pos habs (phaseStep f' sr)
    refine pow_lt_pow_left₀ ?_ (by positivity) three_ne_zero
    apply div_lt_div_of_pos_left (by positivity) (one_pole_pos habs _)
    nlinarith

/-! ## Violations -/

/-- **C110, the negation for lowpole.** A lowpole at 15 kHz passes more than half of the power of every tone, at 44.1 kHz. -/
theorem C110_violation_lowpole (cf : ℝ → ℝ) (f : ℝ) : ∃ p, TonePower (lowpoleNode cf 0) (LowpoleAt 44100 15000) 44100 f p ∧ 1 / 2 < p := by
  refine ⟨_, lowpole_at cf (by norm_num) (by norm_num) f, ?_⟩
  have hpi := Real.pi_gt_d2
  have hω : 2 ≤ phaseStep 15000 44100 := by unfold phaseStep; rw [le_div_iff₀ (by norm_num)]; linarith
  have hr : Real.exp (-phaseStep 15000 44100) ≤ 0.14 := by
    have h2 : Real.exp (-phaseStep 15000 44100) ≤ Real.exp (-1) * Real.exp (-1) := by
      rw [← Real.exp_add]; apply Real.exp_le_exp.2; linarith
    have := Real.exp_neg_one_lt_d9
    have := Real.exp_pos (-1)
    nlinarith
  have hr0 := Real.exp_pos (-phaseStep 15000 44100)
  generalize Real.exp (-phaseStep 15000 44100) = r at *
  have hd := one_pole_pos (c := r) (by rw [abs_lt]; constructor <;> linarith) (phaseStep f 44100)
  rw [div_lt_div_iff₀ two_pos hd]
  have := Real.neg_one_le_cos (phaseStep f 44100)
  nlinarith

/-- **C110, the negation for highpole.** A highpole at 5 kHz passes less than half of the power of every tone, at 44.1 kHz. -/
theorem C110_violation_highpole (f : ℝ) : ∃ p, TonePower highpoleNode (HighpoleAt 44100 5000) 44100 f p ∧ p < 1 / 2 := by
  refine ⟨_, highpole_at (by norm_num) (by norm_num) f, ?_⟩
  have hpi := Real.pi_gt_d2
  have hω : 0.71 ≤ phaseStep 5000 44100 := by unfold phaseStep; rw [le_div_iff₀ (by norm_num)]; linarith
  have hr : Real.exp (-phaseStep 5000 44100) ≤ 0.52 := by
    rw [Real.exp_neg]
    have := Real.quadratic_le_exp_of_nonneg (by linarith : 0 ≤ phaseStep 5000 44100)
    have h2 : 1.96 ≤ Real.exp (phaseStep 5000 44100) := by nlinarith
    calc (Real.exp (phaseStep 5000 44100))⁻¹ ≤ 1.96⁻¹ := inv_anti₀ (by norm_num) h2
      _ ≤ 0.52 := by norm_num
  have hr0 := Real.exp_pos (-phaseStep 5000 44100)
  generalize Real.exp (-phaseStep 5000 44100) = r at *
  have hd := one_pole_pos (c := r) (by rw [abs_lt]; constructor <;> linarith) (phaseStep f 44100)
  rw [div_lt_div_iff₀ hd two_pos]
  have c1 := Real.neg_one_le_cos (phaseStep f 44100)
  have c2 := Real.cos_le_one (phaseStep f 44100)
  generalize Real.cos (phaseStep f 44100) = C at *
  have h3 : r * (2 * r - 1) ≤ 0.52 * 0.04 := by nlinarith
  have h4 : (1 - C) * (r * (2 * r - 1)) ≤ (1 - C) * (0.52 * 0.04) := mul_le_mul_of_nonneg_left h3 (by linarith)
  nlinarith

/-- **C110, the negation for the DC blocker.** With a cutoff above `sr / π`, which is below half of the sample rate, a single click grows beyond every bound. -/
theorem C110_violation_dcblock {sr c : ℝ} (hsr : 0 < sr) (hc : sr < Real.pi * c) (s : PoleZero ℝ) (hs : DcblockAt sr c s) : BlowsUp dcblockNode s := by
  intro B
  have hr : s.coeff < -1 := by
    have : s.coeff = 1 - 2 * Real.pi / sr * c := hs
    have h2 : 2 < 2 * Real.pi / sr * c := by rw [div_mul_eq_mul_div, lt_div_iff₀ hsr]; linarith
    linarith
  have hst : ∀ k, dcblockNode.ticks.st (dcblockNode.reset s) Fundsp.Filter.click (k + 2) = (⟨0, s.coeff ^ k * (s.coeff - 1), s.coeff⟩ : PoleZero ℝ) := by
    intro k
    induction k with
    | zero =>
      show (⟨_, _, _⟩ : PoleZero ℝ) = _
      simp [Fundsp.Filter.click, PoleZero.reset, dcblockNode, Node.ofTick, Node.ticks, Mealy.st]
      ring
    | succ k ih =>
      have : dcblockNode.ticks.st (dcblockNode.reset s) Fundsp.Filter.click (k + 1 + 2) = (dcblockNode.tick (dcblockNode.ticks.st (dcblockNode.reset s) Fundsp.Filter.click (k + 2)) (Fundsp.Filter.click (k + 2))).1 := rfl
      rw [this, ih]
      simp [Fundsp.Filter.click, dcblockNode, Node.ofTick]
      ring
  have hout : ∀ k, dcblockNode.stream (dcblockNode.reset s) Fundsp.Filter.click (k + 2) 0 = s.coeff ^ (k + 1) * (s.coeff - 1) := by
    intro k
    have : dcblockNode.stream (dcblockNode.reset s) Fundsp.Filter.click (k + 2) = (dcblockNode.tick (dcblockNode.ticks.st (dcblockNode.reset s) Fundsp.Filter.click (k + 2)) (Fundsp.Filter.click (k + 2))).2 := rfl
    rw [this, hst]
    simp [Fundsp.Filter.click, dcblockNode, Node.ofTick]
    ring
  obtain ⟨k, hk⟩ := pow_unbounded_of_one_lt B (by linarith : 1 < -s.coeff)
  refine ⟨k + 2, ?_⟩
  rw [hout, abs_mul, abs_pow, abs_of_neg (by linarith : s.coeff < 0), abs_of_neg (by linarith : s.coeff - 1 < 0), pow_succ]
  have hpos : 0 < (-s.coeff) ^ k := by apply pow_pos; linarith
  have h1 : 1 ≤ -s.coeff * -(s.coeff - 1) := by nlinarith
  rw [mul_assoc]
  nlinarith

/-! The hypotheses are met. -/

example : Falls (lowpassHz 44100 1000 (1 / 2)) (fun _ => True) 44100 0 (44100 / 2) := C110_lowpass_falls (by norm_num) (by norm_num) (by norm_num) (by norm_num)
example : TonePower (bellHz 44100 1000 2 4) (fun _ => True) 44100 1000 (4 ^ 2) := (C110_bell (by norm_num) (by norm_num) (by norm_num) (by norm_num)).2.1
example : ∃ s, DcblockAt 44100 15000 s ∧ BlowsUp dcblockNode s :=
  ⟨⟨0, 0, 1 - 2 * Real.pi / 44100 * 15000⟩, rfl, C110_violation_dcblock (sr := 44100) (c := 15000) (by norm_num) (by have := Real.pi_gt_d2; linarith) _ rfl⟩
example : ∃ s, LowpoleAt 44100 1000 s := ⟨⟨0, _, 1000⟩, rfl⟩
example : ∃ s, HighpoleAt 44100 1000 s := ⟨⟨0, 0, _⟩, rfl⟩
example : ∃ s, AllpoleAt 3 s := ⟨⟨0, 0, _⟩, rfl⟩

end Fundsp.Filter
