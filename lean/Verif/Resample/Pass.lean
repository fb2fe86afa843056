import Verif.Resample.Props
import Verif.Delay.Props
import Verif.Route.Model
import Mathlib.Algebra.BigOperators.Ring.Finset
import Mathlib.Algebra.BigOperators.Field
import Mathlib.Data.Int.Cast.Basic

/-! C102: what oversampling adds to the sound and to the reported latency. -/

noncomputable section
namespace Fundsp.Rs
open Fundsp.Route

/-! ## Model -/

/-- `HALFBAND_MIN`: `oversample.rs:108-152`, in units of `10⁻¹²`. -/
def halfbandInt : List ℤ := [
  47355233900, 181988040000, 349148434000, 392748135000, 218230867000, -53184284300, -179186566000, -73448800700, 89452410300,
  100868556000, -20868145100, -88251098900, -20764077700, 62258755500, 40777625500, -35225809000, -45740787000, 12703344400,
  41437613600, 3307998340, -32460820600, -12785635500, 22165903300, 16780371100, -12740697400, -16817736700, 5355182200,
  14476158100, -370651781, -11114018300, -2406223110, 7715960270, 3482270620, -4867635580, -3455363530, 2798800540,
  2867364310, -1487461530, -2118279890, 772684113, 1443841140, -449807048, -941945265]

/-- The taps, without their rounding to `f32`. -/
def halfband (k : Nat) : ℝ := (halfbandInt.getD k 0 : ℝ) / 10 ^ 12

variable {i o n : Nat}

/-- `Oversampler::route`: `oversample.rs:282-284`: the signals are those of the inner node. -/
def overRoute (h : Nat → ℝ) {X : Node ℝ i o} (r : Rt X) : Rt (oversampler h X) := ⟨fun s => r.ok (s : OverSt X.σ i o).x, r.route⟩

/-! ## Specification -/

/-- The input filtered by 43 taps: `g 0 x_k + g 1 x_(k-1) + ...`. -/
def filtered (g : Nat → ℝ) (x : Nat → ℝ) (k : Nat) : ℝ := ∑ d ∈ Finset.range 43, if d ≤ k then g d * x (k - d) else 0

/-- Taps of the filter that remains of two half band filters around a plain wire: pairs of taps that together look `84 - 2 d` positions ahead. -/
def passTap (h : Nat → ℝ) (d : Nat) : ℝ := 2 * ∑ m ∈ Finset.range 43, ∑ l ∈ Finset.range 43, if m + l + 2 * d = 84 then h m * h l else 0

/-! ## Lemmas -/

theorem stuffed_neg (w : Nat → Frame ℝ i) {m : ℤ} (hm : m < 0) (c : Fin i) : stuffed w m c = 0 := by
  unfold stuffed
  rw [if_neg (by omega)]

/-- Every pair of taps reads one sample of the input, if any. -/
theorem stuffed_pair (w : Nat → Frame ℝ i) (c : Fin i) (k m l : Nat) (hm : m < 43) (hl : l < 43) :
    stuffed w (2 * (k : ℤ) - 42 + m - 42 + l) c = ∑ d ∈ Finset.range 43, if m + l + 2 * d = 84 then (if d ≤ k then w (k - d) c else 0) else 0 := by
  by_cases he : (m + l) % 2 = 0
  · rw [Finset.sum_eq_single (42 - (m + l) / 2)]
    · rw [if_pos (by omega)]
      unfold stuffed
      by_cases hk : 42 - (m + l) / 2 ≤ k
      · rw [if_pos (by omega), if_pos hk]
        congr 1
        omega
      · rw [if_neg (by omega), if_neg hk]
    · intro b _ hb
      rw [if_neg (by omega)]
    · intro hb
      exact absurd (Finset.mem_range.2 (by omega)) hb
  · rw [Finset.sum_eq_zero]
    · unfold stuffed
      rw [if_neg (by omega)]
    · intro d _
      rw [if_neg (by omega)]

/-- The input of the inner node, before the start too. -/
theorem extended_upsampled (h : Nat → ℝ) (w : Nat → Frame ℝ i) (m : ℤ) (c : Fin i) :
    extended (upsampled h w) m c = 2 * ∑ l ∈ Finset.range 43, h l * stuffed w (m - 42 + l) c := by
  unfold extended
  by_cases hm : 0 ≤ m
  · rw [if_pos hm]
    unfold upsampled
    rw [Int.toNat_of_nonneg hm]
  · rw [if_neg hm, Finset.sum_eq_zero, mul_zero]
    intro l hl
    have := Finset.mem_range.1 hl
    rw [stuffed_neg w (by omega), mul_zero]

theorem pass_sum (h : Nat → ℝ) (w : Nat → Frame ℝ i) (c : Fin i) (k : Nat) :
    ∑ m ∈ Finset.range 43, h m * extended (upsampled h w) (2 * (k : ℤ) - 42 + m) c = filtered (passTap h) (fun k => w k c) k := by
  have e1 : ∀ m ∈ Finset.range 43, h m * extended (upsampled h w) (2 * (k : ℤ) - 42 + m) c =
      ∑ l ∈ Finset.range 43, ∑ d ∈ Finset.range 43, 2 * (if m + l + 2 * d = 84 then h m * h l else 0) * (if d ≤ k then w (k - d) c else 0) := by
    intro m hm
    rw [extended_upsampled, Finset.mul_sum, Finset.mul_sum]
    refine Finset.sum_congr rfl fun l hl => ?_
    rw [stuffed_pair w c k m l (Finset.mem_range.1 hm) (Finset.mem_range.1 hl), Finset.mul_sum, Finset.mul_sum, Finset.mul_sum]
    refine Finset.sum_congr rfl fun d _ => ?_
    by_cases hd : m + l + 2 * d = 84
    · rw [if_pos hd, if_pos hd]; ring
    · rw [if_neg hd, if_neg hd]; ring
  rw [Finset.sum_congr rfl e1]
  have e2 : ∀ m ∈ Finset.range 43, (∑ l ∈ Finset.range 43, ∑ d ∈ Finset.range 43, 2 * (if m + l + 2 * d = 84 then h m * h l else 0) * (if d ≤ k then w (k - d) c else 0))
      = ∑ d ∈ Finset.range 43, ∑ l ∈ Finset.range 43, 2 * (if m + l + 2 * d = 84 then h m * h l else 0) * (if d ≤ k then w (k - d) c else 0) :=
    fun m _ => Finset.sum_comm
  rw [Finset.sum_congr rfl e2, Finset.sum_comm]
  unfold filtered
  refine Finset.sum_congr rfl fun d _ => ?_
  by_cases hd : d ≤ k
  · simp only [if_pos hd]
    unfold passTap
    rw [Finset.mul_sum, Finset.sum_mul]
    refine Finset.sum_congr rfl fun m _ => ?_
    rw [Finset.mul_sum, Finset.sum_mul]
  · simp only [if_neg hd, mul_zero, Finset.sum_const_zero]

/-- Taps as whole numbers, in units of `10⁻²⁴`. -/
def tapInt (d : Nat) : ℤ :=
  2 * ∑ m ∈ Finset.range 43, ∑ l ∈ Finset.range 43, if m + l + 2 * d = 84 then halfbandInt.getD m 0 * halfbandInt.getD l 0 else 0

theorem passTap_halfband (d : Nat) : passTap halfband d = (tapInt d : ℝ) / 10 ^ 24 := by
  unfold passTap tapInt halfband
  push_cast
  rw [mul_div_assoc]
  congr 1
  rw [Finset.sum_div]
  refine Finset.sum_congr rfl fun m _ => ?_
  rw [Finset.sum_div]
  refine Finset.sum_congr rfl fun l _ => ?_
  split
  · ring
  · simp

/-- The same, computed. -/
def tapTable : List ℤ := [
  1774521764511840450, -5035424540079859792, 10760334284813768904, -19167075347948019702, 28920314458016904360, -35538512360382420360,
  29318984170679724000, 6835785842916510300, -98910112791142703160, 281241869564139401160, -592174231378164702440, 1063764881226583685920,
  -1703610991603437899960, 2467772361632245316520, -3225838180637490914078, 3722847065108364315600, -3549228459103596410400, 2143574113161920925200,
  1106132060149623504800, -6414378599250093573200, 11244131582235908972400, -18843773135950730804000, 25513422716229648362800, -29389837206178276912400,
  27889313167514292638800, -18710474591485567084000, 703538887963343204000, 25189484771996734644000, -55167328570080195563600, 82274232772760868188000,
  -96897740961474062228000, 88376895974924677900000, -48030898560188088780000, -26080772084628620840000, 122425620371385528060000, -207595277017586763620000,
  219069745858010414720000, -71743244848086927780000, -275076580776619755320000, 540624755333095324400000, 571048606142465477200000, 132375316437638050400000,
  4485036355447418420000]

theorem tapInt_table : ∀ d < 43, tapInt d = tapTable.getD d 0 := by decide +kernel

theorem passTap_table {d : Nat} (hd : d < 43) : passTap halfband d = (tapTable.getD d 0 : ℝ) / 10 ^ 24 := by
  rw [passTap_halfband, tapInt_table d hd]

theorem sum_taps (f : Nat → ℤ) : ∑ d ∈ Finset.range 43, passTap halfband d * (f d : ℝ) = ((∑ d ∈ Finset.range 43, tapTable.getD d 0 * f d : ℤ) : ℝ) / 10 ^ 24 := by
  push_cast
  rw [Finset.sum_div]
  refine Finset.sum_congr rfl fun d hd => ?_
  rw [passTap_table (Finset.mem_range.1 hd)]
  ring

/-- A constant. -/
theorem filtered_const (g : Nat → ℝ) (a : ℝ) (k : Nat) (hk : 42 ≤ k) : filtered g (fun _ => a) k = (∑ d ∈ Finset.range 43, g d) * a := by
  unfold filtered
  rw [Finset.sum_mul]
  refine Finset.sum_congr rfl fun d hd => ?_
  have := Finset.mem_range.1 hd
  rw [if_pos (by omega)]

/-- The highest frequency. -/
theorem filtered_alt (g : Nat → ℝ) (a : ℝ) (k : Nat) (hk : 42 ≤ k) :
    filtered g (fun k => a * (-1) ^ k) k = (∑ d ∈ Finset.range 43, g d * (((-1) ^ d : ℤ) : ℝ)) * (a * (-1) ^ k) := by
  unfold filtered
  rw [Finset.sum_mul]
  refine Finset.sum_congr rfl fun d hd => ?_
  have hd' := Finset.mem_range.1 hd
  rw [if_pos (by omega)]
  have e : (-1 : ℝ) ^ k = (-1) ^ (k - d) * (-1) ^ d := by rw [← pow_add]; congr 1; omega
  have e2 : (-1 : ℝ) ^ d * (-1) ^ d = 1 := by rw [← mul_pow]; norm_num
  rw [e]
  push_cast
  linear_combination (-(g d) * a * (-1) ^ (k - d)) * e2

/-- A single one. -/
theorem filtered_impulse (g : Nat → ℝ) (k : Nat) : filtered g (fun k => if k = 0 then 1 else 0) k = if k < 43 then g k else 0 := by
  unfold filtered
  by_cases hk : k < 43
  · rw [if_pos hk, Finset.sum_eq_single k]
    · simp
    · intro d _ hd
      by_cases h : d ≤ k
      · rw [if_pos h]; dsimp only; rw [if_neg (by omega), mul_zero]
      · rw [if_neg h]
    · intro h
      exact absurd (Finset.mem_range.2 hk) h
  · rw [if_neg hk, Finset.sum_eq_zero]
    intro d hd
    have := Finset.mem_range.1 hd
    by_cases h : d ≤ k
    · rw [if_pos h]; dsimp only; rw [if_neg (by omega), mul_zero]
    · rw [if_neg h]

theorem table_sum : ∑ d ∈ Finset.range 43, tapTable.getD d 0 * 1 = 998903233323740177572122 := by decide +kernel
theorem table_alt : ∑ d ∈ Finset.range 43, tapTable.getD d 0 * (-1) ^ d = -475212419332691974370 := by decide +kernel
theorem table_peak : ∀ d < 43, d ≠ 40 → |tapTable.getD d 0| < tapTable.getD 40 0 := by decide +kernel

theorem pass_stream (h : Nat → ℝ) (w : Nat → Frame ℝ n) (k : Nat) (c : Fin n) :
    (oversampler h (multiPass n)).stream (overNew (multiPass n) () : OverSt Unit n n) w k c = filtered (passTap h) (fun k => w k c) k := by
  refine (congrFun (C64_output h (multiPass n) () w k) c).trans ?_
  rw [← pass_sum h w c k]
  rfl

/-! ## C102 -/

/-- **C102.** Oversampling a plain wire filters each channel by 43 taps, the same at all times, whatever the half band filter is. -/
theorem C102_pass (h : Nat → ℝ) (w : Nat → Frame ℝ n) (k : Nat) (c : Fin n) :
    (oversampler h (multiPass n)).stream (overNew (multiPass n) () : OverSt Unit n n) w k c = filtered (passTap h) (fun k => w k c) k :=
  pass_stream h w k c

/-- **C102.** An inner node that delays what it is given by `2 d` of its samples delays the result by `d` samples. -/
theorem C102_delay (h : Nat → ℝ) (X : Node ℝ n n) (x0 : X.σ) (w : Nat → Frame ℝ n) (d : Nat)
    (hX : ∀ m c, X.stream x0 (upsampled h w) m c = Delay.delayed 0 (2 * d) (fun m => upsampled h w m c) m) (k : Nat) (c : Fin n) :
    (oversampler h X).stream (overNew X x0 : OverSt X.σ n n) w k c =
      Delay.delayed 0 d (fun k => (oversampler h (multiPass n)).stream (overNew (multiPass n) () : OverSt Unit n n) w k c) k := by
  have e : ∀ m : ℤ, extended (X.stream x0 (upsampled h w)) m c = extended (upsampled h w) (m - 2 * d) c := by
    intro m
    unfold extended
    by_cases hm : 0 ≤ m
    · rw [if_pos hm, hX]
      unfold Delay.delayed
      by_cases h2 : 2 * d ≤ m.toNat
      · rw [if_pos h2, if_pos (by omega)]
        congr 1
        omega
      · rw [if_neg h2, if_neg (by omega)]
    · rw [if_neg hm, if_neg (by omega)]
  refine (congrFun (C64_output h X x0 w k) c).trans ?_
  simp only [e]
  unfold Delay.delayed
  by_cases hk : d ≤ k
  · rw [if_pos hk]
    refine Eq.trans ?_ (pass_stream h w (k - d) c).symm
    rw [← pass_sum h w c (k - d)]
    refine Finset.sum_congr rfl fun m _ => ?_
    congr 2
    omega
  · rw [if_neg hk, Finset.sum_eq_zero]
    intro m hm
    have := Finset.mem_range.1 hm
    unfold extended
    rw [if_neg (by omega), mul_zero]

/-- **C102.** With the taps of the library an oversampled wire passes a constant with a loss of about a thousandth, from sample 42 on.
`_partial`: the full claim is that the unit does to a signal what its reported response and latency say, see `C102_violation`. -/
theorem C102_constant_partial : ∃ G : ℝ, |G - 1| ≤ 0.0011 ∧ ∀ (a : ℝ) (k : Nat), 42 ≤ k → ∀ c : Fin n,
    (oversampler halfband (multiPass n)).stream (overNew (multiPass n) () : OverSt Unit n n) (fun _ _ => a) k c = G * a := by
  refine ⟨∑ d ∈ Finset.range 43, passTap halfband d, ?_, fun a k hk c => ?_⟩
  · have e : ∑ d ∈ Finset.range 43, passTap halfband d = ∑ d ∈ Finset.range 43, passTap halfband d * ((1 : ℤ) : ℝ) := by simp
    rw [e, sum_taps (fun _ => 1), table_sum, abs_le]
    push_cast
    norm_num
  · rw [pass_stream, filtered_const _ _ _ hk]

/-- **C102.** The code violates the full claim. An oversampled wire reports latency zero and a response of one at every frequency. But a single one at the start comes out,
as the largest sample, 40 samples later; and the highest frequency is suppressed to less than a two thousandth. And an inner node with a latency of `2 d` of its own
samples, which is `d` samples outside, makes the oversampler report `2 d`. -/
theorem C102_violation :
    (∀ h : Nat → ℝ, (overRoute h (Rt.multiPass 1)).latency = some 0 ∧ (overRoute h (Rt.multiPass 1)).response 0 = some 1) ∧
    (∀ k, k ≠ 40 → |(oversampler halfband (multiPass 1)).stream (overNew (multiPass 1) () : OverSt Unit 1 1) (fun k _ => if k = 0 then 1 else 0) k 0|
      < |(oversampler halfband (multiPass 1)).stream (overNew (multiPass 1) () : OverSt Unit 1 1) (fun k _ => if k = 0 then 1 else 0) 40 0|) ∧
    (∀ (a : ℝ) (k : Nat), 42 ≤ k → |(oversampler halfband (multiPass 1)).stream (overNew (multiPass 1) () : OverSt Unit 1 1) (fun k _ => a * (-1) ^ k) k 0| ≤ |a| / 2000) ∧
    ∀ (h : Nat → ℝ) (X : Node ℝ 1 1) (d : Nat), (overRoute h (Rt.delay X (2 * d))).latency = some (2 * d : ℝ) := by
  refine ⟨fun h => ⟨?_, ?_⟩, fun k hk => ?_, fun a k hk => ?_, fun h X d => ?_⟩
  · simp [overRoute, Rt.multiPass, Rt.latency, minLatency, latencyStep, chans]
  · simp [overRoute, Rt.multiPass, Rt.response, chans, SFrame.at]
  · rw [pass_stream, pass_stream, filtered_impulse, filtered_impulse, if_pos (by omega : 40 < 43), passTap_table (by omega : 40 < 43)]
    have h40 : (0 : ℝ) < (tapTable.getD 40 0 : ℝ) / 10 ^ 24 := by
      have : (0 : ℤ) < tapTable.getD 40 0 := by decide
      have : (0 : ℝ) < (tapTable.getD 40 0 : ℝ) := by exact_mod_cast this
      positivity
    rw [abs_of_pos h40]
    by_cases h : k < 43
    · rw [if_pos h, passTap_table h, abs_div, abs_of_pos (by norm_num : (0 : ℝ) < 10 ^ 24)]
      have := table_peak k h hk
      have : |(tapTable.getD k 0 : ℝ)| < (tapTable.getD 40 0 : ℝ) := by exact_mod_cast this
      gcongr
    · rw [if_neg h, abs_zero]
      exact h40
  · rw [pass_stream, filtered_alt _ _ _ hk, sum_taps (fun d => (-1) ^ d), table_alt, abs_mul, abs_mul, abs_pow, abs_neg, abs_one, one_pow, mul_one]
    have : |(((-475212419332691974370 : ℤ) : ℝ)) / 10 ^ 24| ≤ 1 / 2000 := by
      push_cast
      rw [abs_le]
      norm_num
    have := mul_le_mul_of_nonneg_right this (abs_nonneg a)
    linarith
  · simp [overRoute, Rt.delay, Rt.latency, minLatency, latencyStep, chans, SFrame.at, Sig.delay]

/-- A delay line of 10 samples inside delays by 5 outside. -/
example (w : Nat → Frame ℝ 1) (k : Nat) : (oversampler halfband (Delay.delayNode 0)).stream (overNew (Delay.delayNode 0) (Delay.delaySetup 0 10) : OverSt (Delay.delayNode (0 : ℝ)).σ 1 1) w (k + 5) 0 =
    (oversampler halfband (multiPass 1)).stream (overNew (multiPass 1) () : OverSt Unit 1 1) w k 0 := by
  have := C102_delay halfband (Delay.delayNode 0) (Delay.delaySetup 0 10) w 5 (fun m c => by
    have hc : c = 0 := Subsingleton.elim _ _
    subst hc
    exact Delay.C35_delay 0 10 (by norm_num) (upsampled halfband w) m) (k + 5) 0
  rw [this]
  unfold Delay.delayed
  rw [if_pos (by omega)]
  congr 1

/-- The wire is meant to be silent only if its input is: the taps do not vanish. -/
example : passTap halfband 40 ≠ 0 := by
  rw [passTap_table (by omega)]
  have : (tapTable.getD 40 0 : ℤ) ≠ 0 := by decide
  have : (tapTable.getD 40 0 : ℝ) ≠ 0 := by exact_mod_cast this
  positivity

end Fundsp.Rs
