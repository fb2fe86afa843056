import Verif.Effect.Gain
import Verif.Core.ResetLeaf
import Verif.Pan.Props
import Verif.Math.Props
import Mathlib.Analysis.SpecialFunctions.Pow.Real
import Mathlib.Analysis.SpecialFunctions.Log.Base
import Mathlib.Topology.Algebra.InfiniteSum.Order
import Mathlib.Topology.Algebra.InfiniteSum.Real

/-!
# C83: the feedback delay network reverbs

`reverb_stereo` and `reverb4_stereo` of the prelude. The energy of a frame is the sum of the squares of its channels.
-/

noncomputable section
namespace Fundsp.Effect
open Fundsp.Delay Fundsp.Filter Fundsp.Pan Finset

/-- Equations of a feedback delay network of `n = 2 ^ p` lines with inputs `x`: `u` goes into the lines and `y` comes out of them. Line `i` delays by `d i`
samples and then applies the three tap filter `w`. The outputs of the previous sample are mixed with the Hadamard matrix. -/
structure FdnEq (p n : Nat) (w : Fin 3 → ℝ) (d : Fin n → Nat) (x u y : Nat → Fin n → ℝ) : Prop where
  mix : ∀ k i, u k i = x k i + if k = 0 then 0 else
    (∑ j : Fin n, (-1) ^ ((Finset.range p).filter fun q => j.1.testBit q = true ∧ i.1.testBit q = true).card * y (k - 1) j) / Real.sqrt n
  line : ∀ k i, y k i = w 2 * pastInput 0 (fun k => u k i) k (d i) + w 1 * pastInput 0 (fun k => u k i) k (d i + 1) + w 0 * pastInput 0 (fun k => u k i) k (d i + 2)

/-- Energy of the first `n` frames of a signal. -/
def energy {c : Nat} (x : Nat → Frame ℝ c) (n : Nat) : ℝ := ∑ k ∈ Ico 0 n, ∑ j, x k j ^ 2

theorem loopGain_range {room time : ℝ} (hr : 0 < room) (ht : 0 < time) : 0 < loopGain room time ∧ loopGain room time < 1 := by
  have h1 : (0 : ℝ) < (10 : ℝ) ^ ((-60 : ℝ) / 20) := Real.rpow_pos_of_pos (by norm_num) _
  have h2 : (10 : ℝ) ^ ((-60 : ℝ) / 20) < 1 := Real.rpow_lt_one_of_one_lt_of_neg (by norm_num) (by norm_num)
  exact ⟨Real.rpow_pos_of_pos h1 _, Real.rpow_lt_one h1.le h2 (by positivity)⟩

theorem loopGain_pow {room time : ℝ} (hr : 0 < room) (ht : 0 < time) (m : Nat) (hm : time ≤ 0.003 * room * m) : loopGain room time ^ (2 * m) ≤ 1 / 10 ^ 6 := by
  have e3 : (10 : ℝ) ^ ((-60 : ℝ) / 20) = 10⁻¹ ^ 3 := by
    rw [show ((-60 : ℝ) / 20) = -((3 : ℕ) : ℝ) by norm_num, Real.rpow_neg (by norm_num), Real.rpow_natCast]; norm_num
  have h0 : (0 : ℝ) ≤ 10⁻¹ ^ 3 := by norm_num
  unfold loopGain
  rw [e3, ← Real.rpow_natCast, ← Real.rpow_mul h0]
  have h5 : (2 : ℝ) ≤ 0.03 * room / 10 / time * ((2 * m : Nat) : ℝ) := by
    push_cast
    rw [div_mul_eq_mul_div, le_div_iff₀ ht]
    linarith
  calc ((10⁻¹ : ℝ) ^ 3) ^ (0.03 * room / 10 / time * ((2 * m : Nat) : ℝ)) ≤ ((10⁻¹ : ℝ) ^ 3) ^ (2 : ℝ) :=
        Real.rpow_le_rpow_of_exponent_ge (by norm_num) (by norm_num) h5
    _ = 1 / 10 ^ 6 := by
      rw [show (2 : ℝ) = ((2 : ℕ) : ℝ) by norm_num, Real.rpow_natCast]; norm_num

theorem dampWeights_sum {damping a : ℝ} (h0 : 0 ≤ damping) (h1 : damping ≤ 1) (ha : 0 ≤ a) : ∑ i, |dampWeights damping a i| ≤ a := by
  have e : ∑ i, |dampWeights damping a i| = (|(1 - ((1 - damping + 1) / 2)) / 2| + |(1 - damping + 1) / 2| + |(1 - ((1 - damping + 1) / 2)) / 2|) * |a| := by
    rw [Fin.sum_univ_three]
    simp only [dampWeights, Osc.PluckSt.fir3, abs_mul, Matrix.cons_val]
    ring
  rw [e, abs_of_nonneg (by linarith : (0 : ℝ) ≤ (1 - ((1 - damping + 1) / 2)) / 2), abs_of_nonneg (by linarith : (0 : ℝ) ≤ (1 - damping + 1) / 2), abs_of_nonneg ha]
  exact le_of_eq (by ring)

theorem negWeights_sum {a : ℝ} (ha : 0 ≤ a) : ∑ i, |negWeights a i| ≤ a := by
  rw [Fin.sum_univ_three]
  simp only [negWeights, Matrix.cons_val, abs_div, abs_neg, abs_of_nonneg ha]
  norm_num
  linarith

theorem samplesOf_mono {sr t t' : ℝ} (hsr : 0 ≤ sr) (h : t ≤ t') : samplesOf sr t ≤ samplesOf sr t' :=
  Nat.floor_mono (by have := mul_le_mul_of_nonneg_right h hsr; linarith)

theorem table_range (i : Fin 32) : 0.036084 ≤ delayTable.getD i.1 0 ∧ delayTable.getD i.1 0 ≤ 0.082923 := by
  fin_cases i <;> simp [delayTable] <;> norm_num

theorem delay_range {sr room : ℝ} (hsr : 0 ≤ sr) (hr : 0 ≤ room) (i : Fin 32) :
    samplesOf sr (0.0036084 * room) ≤ samplesOf sr (delayTable.getD i.1 0 * room / 10) ∧ samplesOf sr (delayTable.getD i.1 0 * room / 10) ≤ samplesOf sr (0.0082923 * room) := by
  obtain ⟨h1, h2⟩ := table_range i
  constructor
  · exact samplesOf_mono hsr (by nlinarith)
  · exact samplesOf_mono hsr (by nlinarith)

theorem samplesOf_small {sr room : ℝ} (h : sr * room < 2 ^ 60) : samplesOf sr (0.0082923 * room) + 2 < 2 ^ 64 := by
  have : samplesOf sr (0.0082923 * room) < 2 ^ 61 := by
    refine (Nat.floor_lt' (by norm_num)).2 ?_
    push_cast
    norm_num at h ⊢
    linarith
  omega

theorem hadFrame_eq {p n : Nat} (hn : n = 2 ^ p) (f : Frame ℝ n) (i : Fin n) :
    hadFrame p f i = (∑ j : Fin n, (-1) ^ ((Finset.range p).filter fun q => j.1.testBit q = true ∧ i.1.testBit q = true).card * f j) / Real.sqrt n := by
  subst hn
  unfold hadFrame
  rw [C39_matrix p _ _ i.2, Finset.sum_range]
  push_cast
  congr 1
  refine Finset.sum_congr rfl fun j _ => ?_
  rw [dif_pos j.2]

/-- The network satisfies its equations. -/
theorem fdn_network {p n : Nat} (hn : n = 2 ^ p) (w : Frame ℝ 3) (d : Fin n → Nat) (hd : ∀ i, d i + 1 < 2 ^ 64) (x : Nat → Frame ℝ (1 * n)) :
    ∃ u, FdnEq p n w d (fun k i => x k (Fin.cast (Nat.one_mul n).symm i)) u
      (fun k i => (fdn p n (lineNode w)).stream (fdnNew p n w d) x k (Fin.cast (Nat.one_mul n).symm i)) := by
  have hn' : 1 * n = 2 ^ p := by omega
  obtain ⟨y, hy⟩ : ∃ y, y = (fdn p n (lineNode w)).stream (fdnNew p n w d) x := ⟨_, rfl⟩
  rw [← hy]
  refine ⟨fun k i => fed p x y k (Fin.cast (Nat.one_mul n).symm i), ⟨fun k i => ?_, fun k i => ?_⟩⟩
  · unfold fed
    congr 1
    cases k with
    | zero => simp [delayed]
    | succ k =>
      simp only [delayed, Nat.le_add_left, if_true, Nat.add_sub_cancel, Nat.succ_ne_zero, if_false]
      rw [hadFrame_eq hn']
      congr 1
      · rw [← Equiv.sum_comp (finCongr (Nat.one_mul n).symm)]
        rfl
      · congr 2; omega
  · have h := fdn_out p n w d x k (Fin.cast (Nat.one_mul n).symm i)
    rw [line_out _ (hd _), ← hy, Fin.sum_univ_three] at h
    simp only [slice_one] at h
    have hni : nodeOf (Fin.cast (Nat.one_mul n).symm i) = i := by
      apply Fin.ext
      simp [nodeOf]
    rw [hni] at h
    refine h.trans ?_
    simp only [Fin.val_zero, Fin.val_one, Fin.val_two]
    ring

/-- Panned mix of the outputs of `n + 1` lines: the position runs from left to right along an S curve. -/
theorem panMix (n : Nat) (hn : 0 < n) (q : ℝ) (x : Nat → Frame ℝ (1 * (n + 1))) (k : Nat) :
    (binop (i := 1 * (n + 1)) (j := 0) (· * ·) (panSum n) (constant 2)).stream (panSumNew n, fun _ => q) x k 0
        = q * ∑ i : Fin (n + 1), Real.cos (Real.pi / 2 * Math.smooth9 ((i.1 : ℝ) / n)) * x k (Fin.cast (Nat.one_mul (n + 1)).symm i) ∧
    (binop (i := 1 * (n + 1)) (j := 0) (· * ·) (panSum n) (constant 2)).stream (panSumNew n, fun _ => q) x k 1
        = q * ∑ i : Fin (n + 1), Real.sin (Real.pi / 2 * Math.smooth9 ((i.1 : ℝ) / n)) * x k (Fin.cast (Nat.one_mul (n + 1)).symm i) := by
  obtain ⟨e0, e1⟩ := panBinop_out n q x k
  have hs : ∀ i : Fin (n + 1), (x k).slice i 0 = x k (Fin.cast (Nat.one_mul (n + 1)).symm i) := by
    intro i
    show x k _ = _
    congr 1
    apply Fin.ext
    simp [multiIdx]
  have hang : ∀ i : Fin (n + 1), (Math.clamp11 (-1 + (1 - -1) * Math.smooth9 ((i.1 : ℝ) / n)) + 1) * (Real.pi * 0.25) = Real.pi / 2 * Math.smooth9 ((i.1 : ℝ) / n) := by
    intro i
    have h0 : (0 : ℝ) < n := by exact_mod_cast hn
    have hi : ((i.1 : ℝ) / n) ∈ Set.Icc (0 : ℝ) 1 :=
      ⟨by positivity, by rw [div_le_one h0]; exact_mod_cast Nat.le_of_lt_succ i.2⟩
    have hm := Math.C30_smooth9.maps hi
    have h1 := hm.1
    have h2 := hm.2
    unfold Math.clamp11
    rw [max_eq_left (by linarith), min_eq_left (by linarith)]
    ring
  rw [e0, e1, mul_comm _ q, mul_comm _ q]
  constructor
  · congr 1
    refine Finset.sum_congr rfl fun i _ => ?_
    rw [hs, ← hang i]
    rfl
  · congr 1
    refine Finset.sum_congr rfl fun i _ => ?_
    rw [hs, ← hang i]
    rfl

/-- The reverb is its network between the split and the mix. -/
theorem stereo_eq (w : Frame ℝ 3) (f : (fdn 5 32 (lineNode w)).σ) (x : Nat → Frame ℝ 2) (k : Nat) :
    (reverbStereo w).stream (((), f), panSumNew 31, fun _ => 1 / 16) x k
      = (binop (i := 1 * 32) (j := 0) (· * ·) (panSum 31) (constant 2)).stream (panSumNew 31, fun _ => 1 / 16)
          ((fdn 5 32 (lineNode w)).stream f ((multiSplit 2 16).stream () x)) k := by
  refine (pipe_out (j := 32) (pipe (j := 32) (multiSplit 2 16) (fdn 5 32 (lineNode w))) (binop (i := 32) (j := 0) (· * ·) (panSum 31) (constant 2)) ((), f) (panSumNew 31, fun _ => 1 / 16) x k).trans ?_
  have h2 : (pipe (j := 32) (multiSplit 2 16) (fdn 5 32 (lineNode w))).stream ((), f) x = (fdn 5 32 (lineNode w)).stream f ((multiSplit 2 16).stream () x) :=
    funext fun k => pipe_out (j := 32) (multiSplit 2 16) (fdn 5 32 (lineNode w)) () f x k
  exact congrArg (fun z => (binop (i := 1 * 32) (j := 0) (· * ·) (panSum 31) (constant 2)).ticks.out (panSumNew 31, fun _ => 1 / 16) z k) h2

/-- Output of the reverb in terms of the output of its network. -/
theorem stereo_stages (w : Frame ℝ 3) (f : (fdn 5 32 (lineNode w)).σ) (x : Nat → Frame ℝ 2) (k : Nat) :
    en ((reverbStereo w).stream (((), f), panSumNew 31, fun _ => 1 / 16) x k) ≤ 1 / 8 * en ((fdn 5 32 (lineNode w)).stream f ((multiSplit 2 16).stream () x) k) := by
  rw [stereo_eq]
  refine (en_panSum 31 (1 / 16) _ k).trans (le_of_eq ?_)
  norm_num

theorem stereo_split (x : Nat → Frame ℝ 2) (k : Nat) : en ((multiSplit 2 16).stream () x k) = 16 * en (x k) := by
  have := en_multiSplit 2 16 x k
  norm_num at this
  exact this

theorem energy_eq {c : Nat} (x : Nat → Frame ℝ c) (n : Nat) : energy x n = ∑ k ∈ Ico 0 n, en (x k) := rfl

theorem energy_mono {c : Nat} (x : Nat → Frame ℝ c) {m n : Nat} (h : m ≤ n) : energy x m ≤ energy x n :=
  Finset.sum_le_sum_of_subset_of_nonneg (Finset.Ico_subset_Ico_right h) fun _ _ _ => en_nonneg _

theorem tendsto_of_energy {c : Nat} (y : Nat → Frame ℝ c) (B : ℝ) (h : ∀ n, energy y n ≤ B) (j : Fin c) :
    _root_.Filter.Tendsto (fun k => y k j) _root_.Filter.atTop (nhds 0) := by
  have hs : Summable fun k => en (y k) := by
    refine summable_of_sum_range_le (fun k => en_nonneg _) (c := B) fun n => ?_
    have := h n
    rw [energy_eq, ← Finset.range_eq_Ico] at this
    exact this
  have h2 : _root_.Filter.Tendsto (fun k => y k j ^ 2) _root_.Filter.atTop (nhds 0) := by
    refine squeeze_zero (fun k => sq_nonneg _) (fun k => ?_) hs.tendsto_atTop_zero
    exact Finset.single_le_sum (f := fun j => y k j ^ 2) (fun _ _ => sq_nonneg _) (Finset.mem_univ j)
  have h3 := h2.sqrt
  simp only [Real.sqrt_sq_eq_abs, Real.sqrt_zero] at h3
  exact (tendsto_zero_iff_abs_tendsto_zero _).2 h3

/-! ## `reverb_stereo` -/

/-- **C83, structure.** The reverb is a 32 channel feedback delay network: even lines take the left and odd lines the right input, line `i` delays by the `i`th
time of the table (for 10 meters, scaled to the room), applies the damping filter with total gain `a`, and is panned on an S curve from left to right. -/
theorem C83_network (sr room time damping : ℝ) (hsr : 0 ≤ sr) (hroom : 0 < room) (hsmall : sr * room < 2 ^ 60) (x : Nat → Frame ℝ 2) :
    ∃ u y : Nat → Fin 32 → ℝ,
      FdnEq 5 32 ![loopGain room time * (damping / 4), loopGain room time * (1 - damping / 2), loopGain room time * (damping / 4)]
        (fun i => ⌊delayTable.getD i.1 0 * room / 10 * sr + 1 / 2⌋₊) (fun k i => x k (if i.1 % 2 = 0 then 0 else 1)) u y ∧
      ∀ k, (reverbStereo _).stream (reverbStereoNew sr room time damping) x k 0 = 1 / 16 * ∑ i : Fin 32, Real.cos (Real.pi / 2 * Math.smooth9 ((i.1 : ℝ) / 31)) * y k i ∧
        (reverbStereo _).stream (reverbStereoNew sr room time damping) x k 1 = 1 / 16 * ∑ i : Fin 32, Real.sin (Real.pi / 2 * Math.smooth9 ((i.1 : ℝ) / 31)) * y k i := by
  have hw : dampWeights damping (loopGain room time) = ![loopGain room time * (damping / 4), loopGain room time * (1 - damping / 2), loopGain room time * (damping / 4)] := by
    funext i
    fin_cases i <;> simp [dampWeights, Osc.PluckSt.fir3] <;> ring
  obtain ⟨u, hu⟩ := fdn_network (p := 5) (n := 32) rfl (dampWeights damping (loopGain room time)) (fun i => samplesOf sr (delayTable.getD i.1 0 * room / 10))
    (fun i => by have := (delay_range hsr hroom.le i).2; have := samplesOf_small hsmall; omega) ((multiSplit 2 16).stream () x)
  refine ⟨u, fun k i => (fdn 5 32 (lineNode (dampWeights damping (loopGain room time)))).stream
    (fdnNew 5 32 _ (fun i => samplesOf sr (delayTable.getD i.1 0 * room / 10))) ((multiSplit 2 16).stream () x) k (Fin.cast (Nat.one_mul 32).symm i),
    ⟨fun k i => ?_, fun k i => ?_⟩, fun k => ?_⟩
  rotate_left
  · rw [← hw]; exact hu.line k i
  · have h := panMix 31 (by norm_num) (1 / 16) ((fdn 5 32 (lineNode (dampWeights damping (loopGain room time)))).stream
      (fdnNew 5 32 _ (fun i => samplesOf sr (delayTable.getD i.1 0 * room / 10))) ((multiSplit 2 16).stream () x)) k
    have he := stereo_eq (dampWeights damping (loopGain room time)) (fdnNew 5 32 _ (fun i => samplesOf sr (delayTable.getD i.1 0 * room / 10))) x k
    exact ⟨(congrFun he 0).trans (by exact_mod_cast h.1), (congrFun he 1).trans (by exact_mod_cast h.2)⟩
  · refine (hu.mix k i).trans ?_
    congr 1
    show x k ⟨i.1 % 2, _⟩ = _
    congr 1
    apply Fin.ext
    have := Nat.mod_two_eq_zero_or_one i.1
    split <;> simp_all

/-- **C83, gain per pass.** The gain of a pass is 60 dB per `time`, where a pass counts 3 ms for every meter of the room. -/
theorem C83_gain (room time : ℝ) : 20 * Real.logb 10 (loopGain room time) = -60 * (0.003 * room) / time := by
  unfold loopGain
  rw [← Real.rpow_mul (by norm_num), Real.logb_rpow (by norm_num) (by norm_num)]
  ring

/-- **C83, stability.** Over any stretch of time the energy that has come out of the reverb is at most `2 (a / (1 - a))²` times the energy that has gone in,
where `a` is its gain per pass. -/
theorem C83_stable (sr room time damping : ℝ) (hsr : 0 ≤ sr) (hroom : 0 < room) (htime : 0 < time) (hd0 : 0 ≤ damping) (hd1 : damping ≤ 1)
    (hsmall : sr * room < 2 ^ 60) (x : Nat → Frame ℝ 2) (n : Nat) :
    energy ((reverbStereo _).stream (reverbStereoNew sr room time damping) x) n
      ≤ 2 * (loopGain room time / (1 - loopGain room time)) ^ 2 * energy x n := by
  obtain ⟨h0, h1⟩ := loopGain_range hroom htime
  have hg := fdn_gain (p := 5) (n := 32) rfl (dampWeights damping (loopGain room time)) h0 h1 (dampWeights_sum hd0 hd1 h0.le)
    (fun i => samplesOf sr (delayTable.getD i.1 0 * room / 10)) (samplesOf sr (0.0082923 * room) + 2)
    (fun i => Nat.add_le_add_right (delay_range hsr hroom.le i).2 2) (samplesOf_small hsmall) ((multiSplit 2 16).stream () x) n
  have e : ∑ k ∈ Ico 0 n, en ((multiSplit 2 16).stream () x k) = 16 * ∑ k ∈ Ico 0 n, en (x k) := by
    rw [Finset.mul_sum]; exact Finset.sum_congr rfl fun k _ => stereo_split x k
  have e2 : ∑ k ∈ Ico 0 n, en ((multiSplit 2 16 : Node ℝ 2 32).stream () x k : Frame ℝ (1 * 32)) = 16 * ∑ k ∈ Ico 0 n, en (x k) := e
  rw [e2] at hg
  rw [energy_eq, energy_eq]
  calc _ ≤ ∑ k ∈ Ico 0 n, 1 / 8 * en ((fdn 5 32 (lineNode (dampWeights damping (loopGain room time)))).stream
            (fdnNew 5 32 _ (fun i => samplesOf sr (delayTable.getD i.1 0 * room / 10))) ((multiSplit 2 16).stream () x) k) :=
        Finset.sum_le_sum fun k _ => stereo_stages _ _ x k
    _ ≤ _ := by rw [← Finset.mul_sum]; linarith

/-- **C83, peaks.** A bounded input makes a bounded output, however long it lasts. -/
theorem C83_peak (sr room time damping : ℝ) (hsr : 0 ≤ sr) (hroom : 0 < room) (htime : 0 < time) (hd0 : 0 ≤ damping) (hd1 : damping ≤ 1)
    (hsmall : sr * room < 2 ^ 60) :
    ∃ C : ℝ, ∀ (x : Nat → Frame ℝ 2) (M : ℝ), (∀ k j, |x k j| ≤ M) → ∀ k j, |(reverbStereo _).stream (reverbStereoNew sr room time damping) x k j| ≤ C * M := by
  obtain ⟨h0, h1⟩ := loopGain_range hroom htime
  obtain ⟨C, hC, h⟩ := fdn_peak (p := 5) (n := 32) rfl (dampWeights damping (loopGain room time)) h0 h1 (dampWeights_sum hd0 hd1 h0.le)
    (fun i => samplesOf sr (delayTable.getD i.1 0 * room / 10)) (samplesOf sr (0.0082923 * room) + 2)
    (fun i => Nat.add_le_add_right (delay_range hsr hroom.le i).2 2) (samplesOf_small hsmall)
  refine ⟨Real.sqrt (4 * C), fun x M hx k j => ?_⟩
  have hM : 0 ≤ M := (abs_nonneg _).trans (hx 0 0)
  have he : ∀ k, en (x k) ≤ 2 * M ^ 2 := by
    intro k
    unfold en
    rw [Fin.sum_univ_two]
    have a0 := sq_le_sq' (abs_le.1 (hx k 0)).1 (abs_le.1 (hx k 0)).2
    have a1 := sq_le_sq' (abs_le.1 (hx k 1)).1 (abs_le.1 (hx k 1)).2
    linarith
  have h2 := h ((multiSplit 2 16).stream () x) (32 * M ^ 2) (fun k => by
    have := stereo_split x k
    have := he k
    exact (stereo_split x k).le.trans (by linarith)) k
  have h3 := stereo_stages (dampWeights damping (loopGain room time)) (fdnNew 5 32 _ (fun i => samplesOf sr (delayTable.getD i.1 0 * room / 10))) x k
  have h4 : en ((reverbStereo _).stream (reverbStereoNew sr room time damping) x k) ≤ 4 * C * M ^ 2 := h3.trans (by linarith)
  rw [← Real.sqrt_sq hM, ← Real.sqrt_mul (by positivity)]
  refine Real.abs_le_sqrt (le_trans ?_ h4)
  exact Finset.single_le_sum (f := fun j => (reverbStereo _).stream (reverbStereoNew sr room time damping) x k j ^ 2) (fun _ _ => sq_nonneg _) (Finset.mem_univ j)

/-- **C83, decay.** When the input has ended at sample `K`, each further stretch of the longest delay and 3 samples takes the remaining energy down by the
factor `a²`. -/
theorem C83_decay (sr room time damping : ℝ) (hsr : 0 ≤ sr) (hroom : 0 < room) (htime : 0 < time) (hd0 : 0 ≤ damping) (hd1 : damping ≤ 1)
    (hsmall : sr * room < 2 ^ 60) (x : Nat → Frame ℝ 2) (K : Nat) (hK : ∀ k, K ≤ k → x k = fun _ => 0) (m n : Nat) :
    ∑ k ∈ Ico (K + m * (samplesOf sr (0.0082923 * room) + 3)) n, ∑ j, (reverbStereo _).stream (reverbStereoNew sr room time damping) x k j ^ 2
      ≤ loopGain room time ^ (2 * m) * (2 * (loopGain room time / (1 - loopGain room time)) ^ 2 * energy x K) := by
  obtain ⟨h0, h1⟩ := loopGain_range hroom htime
  have hx : ∀ k, K ≤ k → (multiSplit 2 16).stream () x k = fun _ => 0 := by
    intro k hk
    have h : (multiSplit 2 16).stream () x k = fun c => x k _ := rfl
    rw [h, hK k hk]
  have hd := fdn_decay (p := 5) (n := 32) rfl (dampWeights damping (loopGain room time)) (dampWeights_sum hd0 hd1 h0.le)
    (fun i => samplesOf sr (delayTable.getD i.1 0 * room / 10)) (samplesOf sr (0.0082923 * room) + 2)
    (fun i => Nat.add_le_add_right (delay_range hsr hroom.le i).2 2) (samplesOf_small hsmall) ((multiSplit 2 16).stream () x) K hx m n
  have hg := fdn_gain (p := 5) (n := 32) rfl (dampWeights damping (loopGain room time)) h0 h1 (dampWeights_sum hd0 hd1 h0.le)
    (fun i => samplesOf sr (delayTable.getD i.1 0 * room / 10)) (samplesOf sr (0.0082923 * room) + 2)
    (fun i => Nat.add_le_add_right (delay_range hsr hroom.le i).2 2) (samplesOf_small hsmall) ((multiSplit 2 16).stream () x) n
  have e2 : ∑ k ∈ Ico 0 n, en ((multiSplit 2 16 : Node ℝ 2 32).stream () x k : Frame ℝ (1 * 32)) = 16 * energy x n := by
    rw [energy_eq, Finset.mul_sum]; exact Finset.sum_congr rfl fun k _ => stereo_split x k
  have e3 : energy x n ≤ energy x K := by
    rcases le_total n K with h | h
    · exact energy_mono x h
    · refine le_of_eq ?_
      unfold energy
      rw [← Finset.sum_Ico_consecutive _ (Nat.zero_le K) h]
      have : ∑ k ∈ Ico K n, ∑ j, x k j ^ 2 = 0 := Finset.sum_eq_zero fun k hk => by
        rw [hK k (Finset.mem_Ico.1 hk).1]; simp
      rw [this, add_zero]
  rw [e2] at hg
  rw [pow_mul]
  obtain ⟨G, hG⟩ : ∃ G, G = (loopGain room time / (1 - loopGain room time)) ^ 2 := ⟨_, rfl⟩
  obtain ⟨Y, hY⟩ : ∃ Y, Y = fun k => en ((fdn 5 32 (lineNode (dampWeights damping (loopGain room time)))).stream
            (fdnNew 5 32 _ (fun i => samplesOf sr (delayTable.getD i.1 0 * room / 10))) ((multiSplit 2 16).stream () x) k) := ⟨_, rfl⟩
  have hY0 : ∀ k, 0 ≤ Y k := fun k => by rw [hY]; exact en_nonneg _
  have hG0 : 0 ≤ G := by rw [hG]; positivity
  rw [← hG] at hg ⊢
  have hd' : ∑ k ∈ Ico (K + m * (samplesOf sr (0.0082923 * room) + 3)) n, Y k ≤ (loopGain room time ^ 2) ^ m * ∑ k ∈ Ico K n, Y k := by rw [hY]; exact hd
  have hg' : ∑ k ∈ Ico 0 n, Y k ≤ G * (16 * energy x n) := by rw [hY]; exact hg
  have hs : ∑ k ∈ Ico K n, Y k ≤ ∑ k ∈ Ico 0 n, Y k :=
    Finset.sum_le_sum_of_subset_of_nonneg (Finset.Ico_subset_Ico_left (Nat.zero_le K)) fun k _ _ => hY0 k
  have hs2 : ∑ k ∈ Ico K n, Y k ≤ G * (16 * energy x K) := hs.trans (hg'.trans (mul_le_mul_of_nonneg_left (by linarith) hG0))
  calc _ ≤ ∑ k ∈ Ico (K + m * (samplesOf sr (0.0082923 * room) + 3)) n, 1 / 8 * Y k :=
        Finset.sum_le_sum fun k _ => by rw [hY]; exact stereo_stages _ _ x k
    _ ≤ 1 / 8 * ((loopGain room time ^ 2) ^ m * (G * (16 * energy x K))) := by
      rw [← Finset.mul_sum]
      exact mul_le_mul_of_nonneg_left (hd'.trans (mul_le_mul_of_nonneg_left hs2 (by positivity))) (by norm_num)
    _ = _ := by ring

/-- **C83, -60 dB.** `m` of these stretches, where `0.003 room m` seconds are at least `time`, take the energy down by 60 dB. -/
theorem C83_rt60 (sr room time damping : ℝ) (hsr : 0 ≤ sr) (hroom : 0 < room) (htime : 0 < time) (hd0 : 0 ≤ damping) (hd1 : damping ≤ 1)
    (hsmall : sr * room < 2 ^ 60) (x : Nat → Frame ℝ 2) (K : Nat) (hK : ∀ k, K ≤ k → x k = fun _ => 0) (m : Nat) (hm : time ≤ 0.003 * room * m) (n : Nat) :
    ∑ k ∈ Ico (K + m * (samplesOf sr (0.0082923 * room) + 3)) n, ∑ j, (reverbStereo _).stream (reverbStereoNew sr room time damping) x k j ^ 2
      ≤ 1 / 10 ^ 6 * (2 * (loopGain room time / (1 - loopGain room time)) ^ 2 * energy x K) := by
  refine (C83_decay sr room time damping hsr hroom htime hd0 hd1 hsmall x K hK m n).trans ?_
  refine mul_le_mul_of_nonneg_right (loopGain_pow hroom htime m hm) ?_
  have : 0 ≤ energy x K := Finset.sum_nonneg fun _ _ => en_nonneg _
  positivity

/-- **C83, dying out.** The output of an input of finite energy tends to silence. -/
theorem C83_dies_out (sr room time damping : ℝ) (hsr : 0 ≤ sr) (hroom : 0 < room) (htime : 0 < time) (hd0 : 0 ≤ damping) (hd1 : damping ≤ 1)
    (hsmall : sr * room < 2 ^ 60) (x : Nat → Frame ℝ 2) (B : ℝ) (hB : ∀ n, energy x n ≤ B) (j : Fin 2) :
    _root_.Filter.Tendsto (fun k => (reverbStereo _).stream (reverbStereoNew sr room time damping) x k j) _root_.Filter.atTop (nhds 0) :=
  tendsto_of_energy _ (2 * (loopGain room time / (1 - loopGain room time)) ^ 2 * B)
    (fun n => (C83_stable sr room time damping hsr hroom htime hd0 hd1 hsmall x n).trans (mul_le_mul_of_nonneg_left (hB n) (by positivity))) j

/-- The network is silent until the shortest delay. -/
theorem fdn_onset (p n : Nat) (w : Frame ℝ 3) (d : Fin n → Nat) (hd : ∀ i, d i + 1 < 2 ^ 64) (L : Nat) (hL : ∀ i, L ≤ d i) (x : Nat → Frame ℝ (1 * n)) (k : Nat) (hk : k < L) :
    en ((fdn p n (lineNode w)).stream (fdnNew p n w d) x k) = 0 := by
  unfold en
  refine Finset.sum_eq_zero fun c _ => ?_
  rw [fdn_out, line_out _ (hd _)]
  have : ∀ i : Fin 3, pastInput 0 (fun j => (fed p x ((fdn p n (lineNode w)).stream (fdnNew p n w d) x) j).slice (nodeOf c) 0) k (d (nodeOf c) + (3 - 1 - i.1)) = 0 := by
    intro i
    unfold pastInput
    rw [if_neg]
    have := hL (nodeOf c)
    omega
  simp [this]

/-- **C83, onset.** Nothing is heard before the shortest of the delays. -/
theorem C83_onset (sr room time damping : ℝ) (hsr : 0 ≤ sr) (hroom : 0 < room) (hsmall : sr * room < 2 ^ 60) (x : Nat → Frame ℝ 2) (k : Nat)
    (hk : k < samplesOf sr (0.0036084 * room)) (j : Fin 2) : (reverbStereo _).stream (reverbStereoNew sr room time damping) x k j = 0 := by
  have h := fdn_onset 5 32 (dampWeights damping (loopGain room time)) (fun i => samplesOf sr (delayTable.getD i.1 0 * room / 10))
    (fun i => by have := (delay_range hsr hroom.le i).2; have := samplesOf_small hsmall; omega) _ (fun i => (delay_range hsr hroom.le i).1) ((multiSplit 2 16).stream () x) k hk
  have h2 := stereo_stages (dampWeights damping (loopGain room time)) (fdnNew 5 32 _ (fun i => samplesOf sr (delayTable.getD i.1 0 * room / 10))) x k
  have h2' : en ((reverbStereo _).stream (reverbStereoNew sr room time damping) x k) ≤ 1 / 8 * 0 := h2.trans (le_of_eq (congrArg (fun z => 1 / 8 * z) h))
  have h3 : (reverbStereo _).stream (reverbStereoNew sr room time damping) x k j ^ 2 ≤ en ((reverbStereo _).stream (reverbStereoNew sr room time damping) x k) :=
    Finset.single_le_sum (f := fun j => (reverbStereo _).stream (reverbStereoNew sr room time damping) x k j ^ 2) (fun _ _ => sq_nonneg _) (Finset.mem_univ j)
  have h4 : (reverbStereo _).stream (reverbStereoNew sr room time damping) x k j ^ 2 = 0 := le_antisymm (by linarith) (sq_nonneg _)
  exact pow_eq_zero_iff (two_ne_zero) |>.1 h4

/-! ## Blocks and reset -/

theorem fdn_block (p n : Nat) (X : Node ℝ 1 1) : BlockEqualsTick (fdn p n X) := (tickBlock_iff _).1 (tickBlock_ofTick _ _)

/-- The line as a graph. -/
def lineGraph (w : Frame ℝ 3) : Graph ℝ 1 1 := .pipe (.leaf (delayNode 0)) (.leaf (firNode 0 (· + ·) (· * ·) w))

theorem line_fresh (n : Nat) (w : Frame ℝ 3) (d : Fin n → Nat) : ResetFresh (multiStack n (lineNode w)) (fun i => lineNew (d i) w) :=
  C19_graph (.multiStack n (lineGraph w)) ⟨(C35_block 0 1).1, C43_block _ _ _ w⟩ _ (fun i => ⟨C19_delay 0 (d i), C19_fir 0 _ _ w⟩)

theorem fdn_fresh (p n : Nat) (w : Frame ℝ 3) (d : Fin n → Nat) : ResetFresh (fdn p n (lineNode w)) (fdnNew p n w d) :=
  C19_feedback 0 (· + ·) (hadFrame p) (multiStack n (lineNode w)) _ (line_fresh n w d)

/-- The panned sum as a graph. -/
def panGraph (n : Nat) : Graph ℝ (1 * (n + 1)) 2 := .binop (i := 1 * (n + 1)) (j := 0) (· * ·) (.reduce (· + ·) n (.leaf panner1)) (.constant 2)

theorem panner1_fresh (s : PanSt) : ResetFresh panner1 s :=
  TickFresh.resetFresh (tickFresh_of_eq (n := panner1) (fun t => t = s) rfl (fun _ _ h => h) (fun _ h => h)) (fun w cs hc => (C51_block_equals_tick 1 1).1 w cs hc s)

/-- `reverb_stereo` as a graph. -/
def stereoGraph (w : Frame ℝ 3) : Graph ℝ 2 2 := .pipe (j := 32) (.pipe (j := 32) (.multiSplit 2 16) (.leaf (fdn 5 32 (lineNode w)))) (panGraph 31)

/-- **C83, blocks.** The reverb may be run in any mix of blocks and ticks. -/
theorem C83_block (w : Frame ℝ 3) : BlockEqualsTick (reverbStereo w) :=
  C14_block_equals_tick (stereoGraph w) ⟨⟨trivial, fdn_block _ _ _⟩, (C51_block_equals_tick 1 1).1, trivial⟩

/-- **C83, reset.** A reset reverb is as new. -/
theorem C83_reset (sr room time damping : ℝ) : ResetFresh (reverbStereo _) (reverbStereoNew sr room time damping) :=
  C19_graph (stereoGraph (dampWeights damping (loopGain room time))) ⟨⟨trivial, fdn_block _ _ _⟩, (C51_block_equals_tick 1 1).1, trivial⟩ _
    ⟨⟨trivial, fdn_fresh _ _ _ _⟩, fun i => panner1_fresh _, trivial⟩

/-! ## `reverb4_stereo` -/

theorem pipe_stream {i j o : Nat} (X : Node ℝ i j) (Y : Node ℝ j o) (s : X.σ) (t : Y.σ) (w : Nat → Frame ℝ i) : (pipe X Y).stream (s, t) w = Y.stream t (X.stream s w) :=
  funext fun k => pipe_out X Y s t w k

theorem pipe_six {a b c d e f g : Nat} (X1 : Node ℝ a b) (X2 : Node ℝ b c) (X3 : Node ℝ c d) (X4 : Node ℝ d e) (X5 : Node ℝ e f) (X6 : Node ℝ f g)
    (s1 : X1.σ) (s2 : X2.σ) (s3 : X3.σ) (s4 : X4.σ) (s5 : X5.σ) (s6 : X6.σ) (w : Nat → Frame ℝ a) :
    (pipe (pipe (pipe (pipe (pipe X1 X2) X3) X4) X5) X6).stream (((((s1, s2), s3), s4), s5), s6) w
      = X6.stream s6 (X5.stream s5 (X4.stream s4 (X3.stream s3 (X2.stream s2 (X1.stream s1 w))))) := by
  refine (pipe_stream _ X6 _ s6 w).trans (congrArg _ ?_)
  refine (pipe_stream _ X5 _ s5 w).trans (congrArg _ ?_)
  refine (pipe_stream _ X4 _ s4 w).trans (congrArg _ ?_)
  refine (pipe_stream _ X3 _ s3 w).trans (congrArg _ ?_)
  exact pipe_stream X1 X2 s1 s2 w

/-- A pair of networks, as a signal. -/
theorem four_eq (a : ℝ) (f g : (fdn 4 16 (lineNode (negWeights a))).σ) (x : Nat → Frame ℝ 2) (k : Nat) :
    (reverb4Stereo a).stream ((((((), f), ()), ()), g), panSumNew 15, fun _ => 1 / 4) x k
      = (binop (i := 1 * 16) (j := 0) (· * ·) (panSum 15) (constant 2)).stream (panSumNew 15, fun _ => 1 / 4)
          ((fdn 4 16 (lineNode (negWeights a))).stream g ((multiSplit 2 8).stream () ((multiJoin 2 7 (fieldAvg ℝ 8)).stream ()
            ((fdn 4 16 (lineNode (negWeights a))).stream f ((multiSplit 2 8).stream () x))))) k :=
  congrFun (pipe_six (b := 16) (c := 16) (d := 2) (e := 16) (f := 16) (multiSplit 2 8) (fdn 4 16 (lineNode (negWeights a))) (multiJoin 2 7 (fieldAvg ℝ 8)) (multiSplit 2 8)
    (fdn 4 16 (lineNode (negWeights a))) (binop (i := 16) (j := 0) (· * ·) (panSum 15) (constant 2)) () f () () g (panSumNew 15, fun _ => 1 / 4) x) k

/-- The delays of `reverb4_stereo_delays` fit into memory. -/
theorem four_small {sr : ℝ} {d : Nat → ℝ} (hd : ∀ i, i < 32 → sr * d i < 2 ^ 60) (i : Nat) (hi : i < 32) : samplesOf sr (d i) + 2 ≤ 2 ^ 62 := by
  have : samplesOf sr (d i) < 2 ^ 61 := by
    refine (Nat.floor_lt' (by norm_num)).2 ?_
    have := hd i hi
    push_cast
    norm_num at this ⊢
    linarith
  omega

/-- **C83, structure of `reverb4_stereo_delays`.** Two 16 channel networks in series: even lines take the left and odd lines the right channel, the outputs of the
first network are averaged to stereo again, and those of the second are panned on an S curve. -/
theorem C83_four_network (sr time : ℝ) (d : Nat → ℝ) (hd : ∀ i, i < 32 → sr * d i < 2 ^ 60) (x : Nat → Frame ℝ 2) :
    ∃ u y v z : Nat → Fin 16 → ℝ,
      FdnEq 4 16 ![-loopGain 10 time / 4, -loopGain 10 time / 2, -loopGain 10 time / 4] (fun i => ⌊d i.1 * sr + 1 / 2⌋₊) (fun k i => x k (if i.1 % 2 = 0 then 0 else 1)) u y ∧
      FdnEq 4 16 ![-loopGain 10 time / 4, -loopGain 10 time / 2, -loopGain 10 time / 4] (fun i => ⌊d (16 + i.1) * sr + 1 / 2⌋₊)
        (fun k i => (∑ t : Fin 8, y k ⟨2 * t.1 + i.1 % 2, by omega⟩) / 8) v z ∧
      ∀ k, (reverb4Stereo _).stream (reverb4New sr time d) x k 0 = 1 / 4 * ∑ i : Fin 16, Real.cos (Real.pi / 2 * Math.smooth9 ((i.1 : ℝ) / 15)) * z k i ∧
        (reverb4Stereo _).stream (reverb4New sr time d) x k 1 = 1 / 4 * ∑ i : Fin 16, Real.sin (Real.pi / 2 * Math.smooth9 ((i.1 : ℝ) / 15)) * z k i := by
  obtain ⟨Y, hY⟩ : ∃ Y, Y = (fdn 4 16 (lineNode (negWeights (loopGain 10 time)))).stream (fdnNew 4 16 _ (fun i => samplesOf sr (d i.1))) ((multiSplit 2 8).stream () x) := ⟨_, rfl⟩
  obtain ⟨u, hu⟩ := fdn_network (p := 4) (n := 16) rfl (negWeights (loopGain 10 time)) (fun i => samplesOf sr (d i.1))
    (fun i => by have := four_small hd i.1 (by omega); omega) ((multiSplit 2 8).stream () x)
  obtain ⟨v, hv⟩ := fdn_network (p := 4) (n := 16) rfl (negWeights (loopGain 10 time)) (fun i => samplesOf sr (d (16 + i.1)))
    (fun i => by have := four_small hd (16 + i.1) (by omega); omega) ((multiSplit 2 8).stream () ((multiJoin 2 7 (fieldAvg ℝ 8)).stream () Y))
  refine ⟨u, fun k i => Y k (Fin.cast (Nat.one_mul 16).symm i), v,
    fun k i => (fdn 4 16 (lineNode (negWeights (loopGain 10 time)))).stream (fdnNew 4 16 _ (fun i => samplesOf sr (d (16 + i.1))))
      ((multiSplit 2 8).stream () ((multiJoin 2 7 (fieldAvg ℝ 8)).stream () Y)) k (Fin.cast (Nat.one_mul 16).symm i), ⟨fun k i => ?_, fun k i => ?_⟩, ⟨fun k i => ?_, fun k i => ?_⟩, fun k => ?_⟩
  · rw [hY]
    refine (hu.mix k i).trans ?_
    congr 1
    show x k ⟨i.1 % 2, _⟩ = _
    congr 1
    apply Fin.ext
    have := Nat.mod_two_eq_zero_or_one i.1
    split <;> simp_all
  · rw [hY]; exact hu.line k i
  · refine (hv.mix k i).trans ?_
    congr 1
    show (multiJoin 2 7 (fieldAvg ℝ 8)).stream () Y k ⟨i.1 % 2, _⟩ = _
    have e := foldl_add_sum (fun t : Fin 7 => Y k (multiIdx (m := 2) (n := 8) (⟨i.1 % 2, by omega⟩ : Fin 2) (t.1 + 1) (by omega : t.1 + 1 < 8)))
      (Y k (multiIdx (m := 2) (n := 8) (⟨i.1 % 2, by omega⟩ : Fin 2) 0 (by omega : 0 < 8)))
    rw [Fin.sum_univ_succ]
    show Fin.foldl 7 _ _ / ((8 : Nat) : ℝ) = _
    push_cast
    congr 1
    refine e.trans (congrArg₂ (· + ·) (congrArg (Y k) (Fin.ext ?_)) (Finset.sum_congr rfl fun t _ => congrArg (Y k) (Fin.ext ?_)))
    · simp [multiIdx]
    · simp [multiIdx, Fin.val_succ]; omega
  · exact hv.line k i
  · have h := panMix 15 (by norm_num) (1 / 4) ((fdn 4 16 (lineNode (negWeights (loopGain 10 time)))).stream (fdnNew 4 16 _ (fun i => samplesOf sr (d (16 + i.1))))
      ((multiSplit 2 8).stream () ((multiJoin 2 7 (fieldAvg ℝ 8)).stream () Y))) k
    have he := four_eq (loopGain 10 time) (fdnNew 4 16 _ (fun i => samplesOf sr (d i.1))) (fdnNew 4 16 _ (fun i => samplesOf sr (d (16 + i.1)))) x k
    rw [← hY] at he
    exact ⟨(congrFun he 0).trans (by exact_mod_cast h.1), (congrFun he 1).trans (by exact_mod_cast h.2)⟩

theorem four_split (x : Nat → Frame ℝ 2) (k : Nat) : en ((multiSplit 2 8).stream () x k) = 8 * en (x k) := by
  have := en_multiSplit 2 8 x k
  norm_num at this
  exact this

theorem four_join (x : Nat → Frame ℝ 16) (k : Nat) : en ((multiJoin 2 7 (fieldAvg ℝ 8)).stream () x k) ≤ 1 / 8 * en (x k) := by
  have := en_multiJoin 2 7 x k
  norm_num at this ⊢
  exact this

/-- **C83, stability of `reverb4_stereo_delays`.** -/
theorem C83_four_stable (sr time : ℝ) (htime : 0 < time) (d : Nat → ℝ) (hd : ∀ i, i < 32 → sr * d i < 2 ^ 60) (x : Nat → Frame ℝ 2) (n : Nat) :
    energy ((reverb4Stereo _).stream (reverb4New sr time d) x) n ≤ 8 * (loopGain 10 time / (1 - loopGain 10 time)) ^ 4 * energy x n := by
  obtain ⟨h0, h1⟩ := loopGain_range (by norm_num : (0 : ℝ) < 10) htime
  obtain ⟨G, hG⟩ : ∃ G, G = (loopGain 10 time / (1 - loopGain 10 time)) ^ 2 := ⟨_, rfl⟩
  have hG0 : 0 ≤ G := by rw [hG]; positivity
  obtain ⟨Y, hY⟩ : ∃ Y, Y = (fdn 4 16 (lineNode (negWeights (loopGain 10 time)))).stream (fdnNew 4 16 _ (fun i => samplesOf sr (d i.1))) ((multiSplit 2 8).stream () x) := ⟨_, rfl⟩
  have g1 := fdn_gain (p := 4) (n := 16) rfl (negWeights (loopGain 10 time)) h0 h1 (negWeights_sum h0.le) (fun i => samplesOf sr (d i.1)) (2 ^ 62)
    (fun i => four_small hd i.1 (by omega)) (by norm_num) ((multiSplit 2 8).stream () x) n
  have g2 := fdn_gain (p := 4) (n := 16) rfl (negWeights (loopGain 10 time)) h0 h1 (negWeights_sum h0.le) (fun i => samplesOf sr (d (16 + i.1))) (2 ^ 62)
    (fun i => four_small hd (16 + i.1) (by omega)) (by norm_num) ((multiSplit 2 8).stream () ((multiJoin 2 7 (fieldAvg ℝ 8)).stream () Y)) n
  rw [← hG] at g1 g2
  rw [← hY] at g1
  have e1 : ∑ k ∈ Ico 0 n, en ((multiSplit 2 8 : Node ℝ 2 16).stream () x k : Frame ℝ (1 * 16)) = 8 * energy x n := by
    rw [energy_eq, Finset.mul_sum]; exact Finset.sum_congr rfl fun k _ => four_split x k
  have e2 : ∑ k ∈ Ico 0 n, en ((multiSplit 2 8 : Node ℝ 2 16).stream () ((multiJoin 2 7 (fieldAvg ℝ 8)).stream () Y) k : Frame ℝ (1 * 16)) ≤ ∑ k ∈ Ico 0 n, en (Y k) := by
    refine Finset.sum_le_sum fun k _ => ?_
    refine (four_split _ k).le.trans ?_
    have := four_join Y k
    linarith
  rw [e1] at g1
  have e3 : (loopGain 10 time / (1 - loopGain 10 time)) ^ 4 = G * G := by rw [hG]; ring
  rw [e3]
  have hmul := mul_le_mul_of_nonneg_left (e2.trans g1) hG0
  have g3 := g2.trans hmul
  have hout : ∀ k, en ((reverb4Stereo _).stream (reverb4New sr time d) x k)
      ≤ en ((fdn 4 16 (lineNode (negWeights (loopGain 10 time)))).stream (fdnNew 4 16 _ (fun i => samplesOf sr (d (16 + i.1)))) ((multiSplit 2 8).stream () ((multiJoin 2 7 (fieldAvg ℝ 8)).stream () Y)) k) := by
    intro k
    have he := four_eq (loopGain 10 time) (fdnNew 4 16 _ (fun i => samplesOf sr (d i.1))) (fdnNew 4 16 _ (fun i => samplesOf sr (d (16 + i.1)))) x k
    rw [← hY] at he
    refine (congrArg en he).le.trans ((en_panSum 15 (1 / 4) _ k).trans (le_of_eq ?_))
    norm_num
  refine (Finset.sum_le_sum fun k _ => hout k).trans (g3.trans (le_of_eq ?_))
  ring

/-- **C83, peaks of `reverb4_stereo_delays`.** -/
theorem C83_four_peak (sr time : ℝ) (htime : 0 < time) (d : Nat → ℝ) (hd : ∀ i, i < 32 → sr * d i < 2 ^ 60) :
    ∃ C : ℝ, ∀ (x : Nat → Frame ℝ 2) (M : ℝ), (∀ k j, |x k j| ≤ M) → ∀ k j, |(reverb4Stereo _).stream (reverb4New sr time d) x k j| ≤ C * M := by
  obtain ⟨h0, h1⟩ := loopGain_range (by norm_num : (0 : ℝ) < 10) htime
  obtain ⟨C, hC, h⟩ := fdn_peak (p := 4) (n := 16) rfl (negWeights (loopGain 10 time)) h0 h1 (negWeights_sum h0.le) (fun i => samplesOf sr (d i.1)) (2 ^ 62)
    (fun i => four_small hd i.1 (by omega)) (by norm_num)
  obtain ⟨C', hC', h'⟩ := fdn_peak (p := 4) (n := 16) rfl (negWeights (loopGain 10 time)) h0 h1 (negWeights_sum h0.le) (fun i => samplesOf sr (d (16 + i.1))) (2 ^ 62)
    (fun i => four_small hd (16 + i.1) (by omega)) (by norm_num)
  refine ⟨Real.sqrt (16 * C * C'), fun x M hx k j => ?_⟩
  have hM : 0 ≤ M := (abs_nonneg _).trans (hx 0 0)
  have he : ∀ k, en (x k) ≤ 2 * M ^ 2 := by
    intro k
    unfold en
    rw [Fin.sum_univ_two]
    have a0 := sq_le_sq' (abs_le.1 (hx k 0)).1 (abs_le.1 (hx k 0)).2
    have a1 := sq_le_sq' (abs_le.1 (hx k 1)).1 (abs_le.1 (hx k 1)).2
    linarith
  obtain ⟨Y, hY⟩ : ∃ Y, Y = (fdn 4 16 (lineNode (negWeights (loopGain 10 time)))).stream (fdnNew 4 16 _ (fun i => samplesOf sr (d i.1))) ((multiSplit 2 8).stream () x) := ⟨_, rfl⟩
  have h2 : ∀ k, en (Y k) ≤ C * (16 * M ^ 2) := by
    intro k
    rw [hY]
    refine h ((multiSplit 2 8).stream () x) (16 * M ^ 2) (fun k => ?_) k
    exact (four_split x k).le.trans (by have := he k; linarith)
  have h3 := h' ((multiSplit 2 8).stream () ((multiJoin 2 7 (fieldAvg ℝ 8)).stream () Y)) (C * (16 * M ^ 2)) (fun k => by
    refine (four_split _ k).le.trans ?_
    have h5 := four_join Y k
    have h6 := h2 k
    have h7 : en (Y k : Frame ℝ 16) ≤ C * (16 * M ^ 2) := h6
    linarith) k
  have he4 := four_eq (loopGain 10 time) (fdnNew 4 16 _ (fun i => samplesOf sr (d i.1))) (fdnNew 4 16 _ (fun i => samplesOf sr (d (16 + i.1)))) x k
  rw [← hY] at he4
  have h4 : en ((reverb4Stereo _).stream (reverb4New sr time d) x k) ≤ 16 * C * C' * M ^ 2 := by
    refine (congrArg en he4).le.trans ((en_panSum 15 (1 / 4) _ k).trans ?_)
    norm_num
    refine h3.trans (le_of_eq (by ring))
  rw [← Real.sqrt_sq hM, ← Real.sqrt_mul (by positivity)]
  refine Real.abs_le_sqrt (le_trans ?_ h4)
  exact Finset.single_le_sum (f := fun j => (reverb4Stereo _).stream (reverb4New sr time d) x k j ^ 2) (fun _ _ => sq_nonneg _) (Finset.mem_univ j)

/-- **C83, dying out of `reverb4_stereo_delays`.** -/
theorem C83_four_dies_out (sr time : ℝ) (htime : 0 < time) (d : Nat → ℝ) (hd : ∀ i, i < 32 → sr * d i < 2 ^ 60) (x : Nat → Frame ℝ 2) (B : ℝ)
    (hB : ∀ n, energy x n ≤ B) (j : Fin 2) : _root_.Filter.Tendsto (fun k => (reverb4Stereo _).stream (reverb4New sr time d) x k j) _root_.Filter.atTop (nhds 0) := by
  obtain ⟨h0, h1⟩ := loopGain_range (by norm_num : (0 : ℝ) < 10) htime
  exact tendsto_of_energy _ (8 * (loopGain 10 time / (1 - loopGain 10 time)) ^ 4 * B)
    (fun n => (C83_four_stable sr time htime d hd x n).trans (mul_le_mul_of_nonneg_left (hB n) (by positivity))) j

/-- `reverb4_stereo_delays` as a graph. -/
def fourGraph (a : ℝ) : Graph ℝ 2 2 :=
  .pipe (j := 16) (.pipe (j := 16) (.pipe (j := 2) (.pipe (j := 16) (.pipe (j := 16) (.multiSplit 2 8) (.leaf (fdn 4 16 (lineNode (negWeights a)))))
    (.multiJoin 2 7 (fieldAvg ℝ 8))) (.multiSplit 2 8)) (.leaf (fdn 4 16 (lineNode (negWeights a))))) (panGraph 15)

theorem four_sound (a : ℝ) : (fourGraph a).Sound :=
  ⟨⟨⟨⟨⟨trivial, fdn_block _ _ _⟩, fieldAvg_exact ℝ 8⟩, trivial⟩, fdn_block _ _ _⟩, (C51_block_equals_tick 1 1).1, trivial⟩

/-- **C83, blocks.** -/
theorem C83_four_block (a : ℝ) : BlockEqualsTick (reverb4Stereo a) := C14_block_equals_tick (fourGraph a) (four_sound a)

/-- **C83, reset.** -/
theorem C83_four_reset (sr time : ℝ) (d : Nat → ℝ) : ResetFresh (reverb4Stereo _) (reverb4New sr time d) :=
  C19_graph (fourGraph (loopGain 10 time)) (four_sound _) _ ⟨⟨⟨⟨⟨trivial, fdn_fresh _ _ _ _⟩, trivial⟩, trivial⟩, fdn_fresh _ _ _ _⟩, fun i => panner1_fresh _, trivial⟩

/-! ## Cases -/

/-- A room of 10 meters at 44.1 kHz with a reverberation time of 2 seconds: nothing is heard in the first 1591 samples, and at most `10⁻⁶` of the energy bound
remains 67 stretches of 3660 samples after the end of the input. -/
example (x : Nat → Frame ℝ 2) (k : Nat) (hk : k < 1591) : (reverbStereo _).stream (reverbStereoNew 44100 10 2 0.5) x k 0 = 0 := by
  refine C83_onset 44100 10 2 0.5 (by norm_num) (by norm_num) (by norm_num) x k (lt_of_lt_of_le hk ?_) 0
  exact Nat.le_floor (by norm_num)

example (x : Nat → Frame ℝ 2) (hx : ∀ k, 1000 ≤ k → x k = fun _ => 0) (n : Nat) :
    ∑ k ∈ Ico (1000 + 67 * 3660) n, ∑ j, (reverbStereo _).stream (reverbStereoNew 44100 10 2 0.5) x k j ^ 2
      ≤ 1 / 10 ^ 6 * (2 * (loopGain 10 2 / (1 - loopGain 10 2)) ^ 2 * energy x 1000) := by
  have h := C83_rt60 44100 10 2 0.5 (by norm_num) (by norm_num) (by norm_num) (by norm_num) (by norm_num) (by norm_num) x 1000 hx 67 (by norm_num) n
  have e : samplesOf 44100 (0.0082923 * 10) = 3657 := by
    unfold samplesOf
    rw [Nat.floor_eq_iff (by norm_num)]
    norm_num
  rw [e] at h
  exact h

/-- An input of finite energy that is not silent. -/
example : ∃ (x : Nat → Frame ℝ 2) (B : ℝ), (∀ n, energy x n ≤ B) ∧ x 0 0 ≠ 0 := by
  refine ⟨fun k _ => if k = 0 then 1 else 0, 2, fun n => ?_, by simp⟩
  unfold energy
  cases n with
  | zero => simp
  | succ n => rw [Finset.sum_Ico_eq_sum_range]; simp

/-- The first network of `reverb4_stereo` with the delays for 15 meters meets the hypotheses. -/
example (x : Nat → Frame ℝ 2) (n : Nat) : energy ((reverb4Stereo _).stream (reverb4New 44100 3 (fun _ => 0.1)) x) n
    ≤ 8 * (loopGain 10 3 / (1 - loopGain 10 3)) ^ 4 * energy x n :=
  C83_four_stable 44100 3 (by norm_num) _ (fun _ _ => by norm_num) x n

end Fundsp.Effect
