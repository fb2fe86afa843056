import Verif.Effect.Props
/-! C112: the reverberation time of `reverb_stereo` without damping. The energy in the delay lines is followed exactly, with weights that make its fall per sample
known. -/

noncomputable section
namespace Fundsp.Effect
open Fundsp.Delay Fundsp.Filter Fundsp.Pan Finset

/-- Specification. The energy that the lines hold after sample `k`: the sum of the squares of everything that has gone into line `i` and has not been
around it, where going around takes `d i + 2` samples. -/
def held {n : Nat} (d : Fin n → Nat) (u : Nat → Fin n → ℝ) (k : Nat) : ℝ :=
  ∑ i, ∑ m ∈ range (d i + 2), if m ≤ k then u (k - m) i ^ 2 else 0

/-- The same with the weight `c i ^ m` on what went into line `i` `m` samples ago. -/
def weighted {n : Nat} (c : Fin n → ℝ) (d : Fin n → Nat) (u : Nat → Fin n → ℝ) (k : Nat) (i : Fin n) : ℝ :=
  ∑ m ∈ range (d i + 2), c i ^ m * if m ≤ k then u (k - m) i ^ 2 else 0

theorem past_nonneg (u : Nat → ℝ) (k m : Nat) : 0 ≤ (if m ≤ k then u (k - m) ^ 2 else 0) := by
  split
  · exact sq_nonneg _
  · exact le_rfl

theorem weighted_nonneg {n : Nat} {c : Fin n → ℝ} (hc : ∀ i, 0 ≤ c i) (d : Fin n → Nat) (u : Nat → Fin n → ℝ) (k : Nat) (i : Fin n) : 0 ≤ weighted c d u k i :=
  Finset.sum_nonneg fun m _ => mul_nonneg (pow_nonneg (hc i) m) (past_nonneg (fun k => u k i) k m)

/-- One sample without input: each line's weighted energy falls by the factor of the line, and all of it stays in the lines. -/
theorem weighted_step {p n : Nat} (hn : n = 2 ^ p) {a : ℝ} {d : Fin n → Nat} {x u y : Nat → Fin n → ℝ} (h : FdnEq p n ![0, a, 0] d x u y) {c : Fin n → ℝ}
    (hc : ∀ i, c i ^ (d i + 2) = a ^ 2) {k : Nat} (hx : x (k + 1) = fun _ => 0) :
    ∑ i, weighted c d u (k + 1) i = ∑ i, c i * weighted c d u k i := by
  have hu : ∑ i, u (k + 1) i ^ 2 = ∑ i, a ^ 2 * (if d i + 1 ≤ k then u (k - (d i + 1)) i ^ 2 else 0) := by
    have e : (fun i => u (k + 1) i) = hadFrame p (fun i => y k i) := by
      funext i
      rw [hadFrame_eq hn, h.mix, hx]
      simp
    have := en_hadFrame hn (fun i => y k i)
    rw [← e] at this
    unfold en at this
    rw [this]
    refine Finset.sum_congr rfl fun i _ => ?_
    show y k i ^ 2 = _
    rw [h.line]
    simp only [pastInput, Matrix.cons_val, zero_mul, add_zero, zero_add]
    split <;> simp [mul_pow]
  have e1 : ∀ i, weighted c d u (k + 1) i = u (k + 1) i ^ 2 + ∑ m ∈ range (d i + 1), c i ^ (m + 1) * (if m ≤ k then u (k - m) i ^ 2 else 0) := by
    intro i
    unfold weighted
    rw [Finset.sum_range_succ']
    simp only [Nat.add_le_add_iff_right, Nat.add_sub_add_right, pow_zero, Nat.zero_le, if_true, Nat.sub_zero, one_mul]
    ring
  have e2 : ∀ i, c i * weighted c d u k i = (∑ m ∈ range (d i + 1), c i ^ (m + 1) * (if m ≤ k then u (k - m) i ^ 2 else 0)) + a ^ 2 * (if d i + 1 ≤ k then u (k - (d i + 1)) i ^ 2 else 0) := by
    intro i
    unfold weighted
    rw [Finset.mul_sum, Finset.sum_range_succ, ← hc i]
    congr 1
    · refine Finset.sum_congr rfl fun m _ => ?_
      rw [pow_succ]; ring
    · rw [pow_succ (c i) (d i + 1)]; ring
  simp only [e1, e2, Finset.sum_add_distrib, hu]
  ring

theorem weighted_run {p n : Nat} (hn : n = 2 ^ p) {a : ℝ} {d : Fin n → Nat} {x u y : Nat → Fin n → ℝ} (h : FdnEq p n ![0, a, 0] d x u y) {c : Fin n → ℝ}
    (hc : ∀ i, c i ^ (d i + 2) = a ^ 2) {lo hi : ℝ} (h0 : 0 ≤ lo) (hlo : ∀ i, lo ≤ c i) (hhi : ∀ i, c i ≤ hi) {K : Nat} (hx : ∀ k, K < k → x k = fun _ => 0) (hh : 0 ≤ hi) (t : Nat) :
    lo ^ t * ∑ i, weighted c d u K i ≤ ∑ i, weighted c d u (K + t) i ∧ ∑ i, weighted c d u (K + t) i ≤ hi ^ t * ∑ i, weighted c d u K i := by
  have hc0 : ∀ i, 0 ≤ c i := fun i => h0.trans (hlo i)
  induction t with
  | zero => simp
  | succ t ih =>
    rw [← Nat.add_assoc, weighted_step hn h hc (hx _ (by omega)), pow_succ, pow_succ]
    constructor
    · calc lo ^ t * lo * ∑ i, weighted c d u K i = lo * (lo ^ t * ∑ i, weighted c d u K i) := by ring
        _ ≤ lo * ∑ i, weighted c d u (K + t) i := mul_le_mul_of_nonneg_left ih.1 h0
        _ ≤ _ := by
          rw [Finset.mul_sum]
          exact Finset.sum_le_sum fun i _ => mul_le_mul_of_nonneg_right (hlo i) (weighted_nonneg hc0 d u _ i)
    · calc _ ≤ hi * ∑ i, weighted c d u (K + t) i := by
            rw [Finset.mul_sum]
            exact Finset.sum_le_sum fun i _ => mul_le_mul_of_nonneg_right (hhi i) (weighted_nonneg hc0 d u _ i)
        _ ≤ hi * (hi ^ t * ∑ i, weighted c d u K i) := mul_le_mul_of_nonneg_left ih.2 hh
        _ = _ := by ring

/-- The weights are between `a²` and one. -/
theorem weighted_held {n : Nat} {a : ℝ} {d : Fin n → Nat} {c : Fin n → ℝ} (hc : ∀ i, c i ^ (d i + 2) = a ^ 2) (h0 : ∀ i, 0 ≤ c i) (h1 : ∀ i, c i ≤ 1) (u : Nat → Fin n → ℝ) (k : Nat) :
    a ^ 2 * held d u k ≤ ∑ i, weighted c d u k i ∧ ∑ i, weighted c d u k i ≤ held d u k := by
  unfold held weighted
  constructor
  · rw [Finset.mul_sum]
    refine Finset.sum_le_sum fun i _ => ?_
    rw [Finset.mul_sum]
    refine Finset.sum_le_sum fun m hm => mul_le_mul_of_nonneg_right ?_ (past_nonneg (fun k => u k i) k m)
    rw [← hc i]
    exact pow_le_pow_of_le_one (h0 i) (h1 i) (Finset.mem_range.1 hm).le
  · refine Finset.sum_le_sum fun i _ => Finset.sum_le_sum fun m _ => ?_
    exact mul_le_of_le_one_left (past_nonneg (fun k => u k i) k m) (pow_le_one₀ (h0 i) (h1 i))

/-- The fall of the energy in a network whose lines take between `lo + 2` and `hi + 2` samples. -/
theorem held_run {p n : Nat} (hn : n = 2 ^ p) {a : ℝ} (ha0 : 0 < a) (ha1 : a < 1) {d : Fin n → Nat} {x u y : Nat → Fin n → ℝ} (h : FdnEq p n ![0, a, 0] d x u y)
    {lo hi : Nat} (hlo : ∀ i, lo ≤ d i) (hhi : ∀ i, d i ≤ hi) {K : Nat} (hx : ∀ k, K < k → x k = fun _ => 0) (t : Nat) :
    a ^ (2 * (t : ℝ) / ((lo : ℝ) + 2) + 2) * held d u K ≤ held d u (K + t) ∧ held d u (K + t) ≤ a ^ (2 * (t : ℝ) / ((hi : ℝ) + 2) - 2) * held d u K := by
  obtain ⟨c, hcd⟩ : ∃ c : Fin n → ℝ, c = fun i => a ^ (2 / ((d i : ℝ) + 2)) := ⟨_, rfl⟩
  have ha2 : a ^ 2 = a ^ (2 : ℝ) := by rw [← Real.rpow_natCast]; norm_num
  have hc : ∀ i, c i ^ (d i + 2) = a ^ 2 := by
    intro i
    rw [hcd, ha2, ← Real.rpow_natCast, ← Real.rpow_mul ha0.le]
    congr 1
    push_cast
    field_simp
  have c0 : ∀ i, 0 ≤ c i := fun i => by rw [hcd]; exact (Real.rpow_pos_of_pos ha0 _).le
  have c1 : ∀ i, c i ≤ 1 := fun i => by rw [hcd]; exact Real.rpow_le_one ha0.le ha1.le (by positivity)
  have r := weighted_run hn h hc (lo := a ^ (2 / ((lo : ℝ) + 2))) (hi := a ^ (2 / ((hi : ℝ) + 2))) (Real.rpow_pos_of_pos ha0 _).le
    (fun i => by
      rw [hcd]
      refine Real.rpow_le_rpow_of_exponent_ge ha0 ha1.le ?_
      have : (lo : ℝ) ≤ d i := by exact_mod_cast hlo i
      exact div_le_div_of_nonneg_left (by norm_num) (by positivity) (by linarith))
    (fun i => by
      rw [hcd]
      refine Real.rpow_le_rpow_of_exponent_ge ha0 ha1.le ?_
      have : (d i : ℝ) ≤ hi := by exact_mod_cast hhi i
      exact div_le_div_of_nonneg_left (by norm_num) (by positivity) (by linarith)) hx (Real.rpow_pos_of_pos ha0 _).le t
  have pw : ∀ e : ℝ, (a ^ (2 / e)) ^ t = a ^ (2 * (t : ℝ) / e) := by
    intro e
    rw [← Real.rpow_natCast, ← Real.rpow_mul ha0.le]
    congr 1; ring
  rw [pw, pw] at r
  have w0 := weighted_held hc c0 c1 u K
  have w1 := weighted_held hc c0 c1 u (K + t)
  have p1 : 0 < a ^ (2 * (t : ℝ) / ((lo : ℝ) + 2)) := Real.rpow_pos_of_pos ha0 _
  have p2 : 0 < a ^ (2 * (t : ℝ) / ((hi : ℝ) + 2)) := Real.rpow_pos_of_pos ha0 _
  have a2 : 0 < a ^ 2 := by positivity
  constructor
  · rw [Real.rpow_add ha0, ← ha2, mul_assoc]
    exact ((mul_le_mul_of_nonneg_left w0.1 p1.le).trans r.1).trans w1.2
  · rw [Real.rpow_sub ha0, ← ha2, div_mul_eq_mul_div, le_div_iff₀ a2, mul_comm]
    exact (w1.1.trans r.2).trans (mul_le_mul_of_nonneg_left w0.2 p2.le)

/-! ## `reverb_stereo` -/

/-- Specification. `u` is what goes into the lines of `reverb_stereo(room, time, 0.0)` with input `x`, and `y` is what comes out of them: the equations of
the network and of the mix. -/
structure Tail (sr room time : ℝ) (x : Nat → Frame ℝ 2) (u y : Nat → Fin 32 → ℝ) : Prop where
  net : FdnEq 5 32 ![0, loopGain room time, 0] (fun i => ⌊delayTable.getD i.1 0 * room / 10 * sr + 1 / 2⌋₊) (fun k i => x k (if i.1 % 2 = 0 then 0 else 1)) u y
  left : ∀ k, (reverbStereo _).stream (reverbStereoNew sr room time 0) x k 0 = 1 / 16 * ∑ i : Fin 32, Real.cos (Real.pi / 2 * Math.smooth9 ((i.1 : ℝ) / 31)) * y k i
  right : ∀ k, (reverbStereo _).stream (reverbStereoNew sr room time 0) x k 1 = 1 / 16 * ∑ i : Fin 32, Real.sin (Real.pi / 2 * Math.smooth9 ((i.1 : ℝ) / 31)) * y k i

/-- **C112, the lines.** The reverb without damping has such signals in its lines. -/
theorem C112_lines (sr room time : ℝ) (hsr : 0 ≤ sr) (hroom : 0 < room) (hsmall : sr * room < 2 ^ 60) (x : Nat → Frame ℝ 2) : ∃ u y, Tail sr room time x u y := by
  obtain ⟨u, y, h1, h2⟩ := C83_network sr room time 0 hsr hroom hsmall x
  refine ⟨u, y, ?_, fun k => (h2 k).1, fun k => (h2 k).2⟩
  simpa using h1

theorem tail_run {sr room time : ℝ} (hsr : 0 ≤ sr) (hroom : 0 < room) (htime : 0 < time) {x : Nat → Frame ℝ 2} {u y : Nat → Fin 32 → ℝ} (h : Tail sr room time x u y)
    {K : Nat} (hK : ∀ k, K < k → x k = fun _ => 0) (t : Nat) :
    loopGain room time ^ (2 * (t : ℝ) / ((samplesOf sr (0.0036084 * room) : ℝ) + 2) + 2) * held (fun i : Fin 32 => samplesOf sr (delayTable.getD i.1 0 * room / 10)) u K
      ≤ held (fun i : Fin 32 => samplesOf sr (delayTable.getD i.1 0 * room / 10)) u (K + t) ∧
    held (fun i : Fin 32 => samplesOf sr (delayTable.getD i.1 0 * room / 10)) u (K + t)
      ≤ loopGain room time ^ (2 * (t : ℝ) / ((samplesOf sr (0.0082923 * room) : ℝ) + 2) - 2) * held (fun i : Fin 32 => samplesOf sr (delayTable.getD i.1 0 * room / 10)) u K := by
  obtain ⟨h0, h1⟩ := loopGain_range hroom htime
  exact held_run (p := 5) rfl h0 h1 h.net (fun i => (delay_range hsr hroom.le i).1) (fun i => (delay_range hsr hroom.le i).2)
    (fun k hk => by funext i; rw [hK k hk]) t

theorem loopGain_rpow {room time : ℝ} (e : ℝ) : loopGain room time ^ e = (10 : ℝ) ^ (-(0.009 * room / time * e)) := by
  unfold loopGain
  rw [← Real.rpow_mul (by norm_num), ← Real.rpow_mul (by norm_num)]
  congr 1
  ring

theorem held_nonneg {n : Nat} (d : Fin n → Nat) (u : Nat → Fin n → ℝ) (k : Nat) : 0 ≤ held d u k :=
  Finset.sum_nonneg fun i _ => Finset.sum_nonneg fun m _ => past_nonneg (fun k => u k i) k m

/-- Samples around line `i`, without the two samples of the filter and the feedback. -/
abbrev lineSamples (sr room : ℝ) (i : Fin 32) : Nat := ⌊delayTable.getD i.1 0 * room / 10 * sr + 1 / 2⌋₊

/-- **C112, reverberation time.** When the input of `reverb_stereo(room, time, 0.0)` has ended, the energy in its lines has fallen by 60 dB at the latest
after `time / (0.003 room) + 1` rounds of the longest line (2.77 times the reverberation time, and one round).
The full claim would be that it takes `time` seconds, about; `C112_violation` shows it takes longer. -/
theorem C112_time_partial {sr room time : ℝ} (hsr : 0 ≤ sr) (hroom : 0 < room) (htime : 0 < time) {x : Nat → Frame ℝ 2} {u y : Nat → Fin 32 → ℝ} (h : Tail sr room time x u y)
    {K : Nat} (hK : ∀ k, K < k → x k = fun _ => 0) (t : Nat) (ht : (time / (0.003 * room) + 1) * (0.0082923 * room * sr + 2.5) ≤ t) :
    held (lineSamples sr room) u (K + t) ≤ held (lineSamples sr room) u K / 10 ^ 6 := by
  refine (tail_run hsr hroom htime h hK t).2.trans ?_
  rw [show held (lineSamples sr room) u K / 10 ^ 6 = 1 / 10 ^ 6 * held (lineSamples sr room) u K by ring]
  refine mul_le_mul_of_nonneg_right ?_ (held_nonneg _ u K)
  rw [loopGain_rpow, show (1 / 10 ^ 6 : ℝ) = (10 : ℝ) ^ (-6 : ℝ) by rw [Real.rpow_neg (by norm_num), show (6 : ℝ) = ((6 : ℕ) : ℝ) by norm_num, Real.rpow_natCast]; norm_num]
  refine Real.rpow_le_rpow_of_exponent_le (by norm_num) (neg_le_neg ?_)
  have hs : ((samplesOf sr (0.0082923 * room) : ℕ) : ℝ) ≤ 0.0082923 * room * sr + 1 / 2 := Nat.floor_le (by positivity)
  obtain ⟨D, hD⟩ : ∃ D : ℝ, D = (samplesOf sr (0.0082923 * room) : ℕ) + 2 := ⟨_, rfl⟩
  rw [← hD]
  have hD0 : 0 < D := by rw [hD]; positivity
  have hD1 : D ≤ 0.0082923 * room * sr + 2.5 := by rw [hD]; norm_num at hs ⊢; linarith
  have h1 : (time / (0.003 * room) + 1) * D ≤ t := le_trans (mul_le_mul_of_nonneg_left hD1 (by positivity)) ht
  have h2 : time / (0.003 * room) + 1 ≤ t / D := by rw [le_div_iff₀ hD0]; exact h1
  have h3 : 2 * (time / (0.003 * room)) ≤ 2 * (t : ℝ) / D - 2 := by
    have : 2 * (t : ℝ) / D = 2 * (t / D) := by ring
    rw [this]; linarith
  have h4 : (6 : ℝ) = 0.009 * room / time * (2 * (time / (0.003 * room))) := by
    field_simp
    norm_num
  rw [h4]
  exact mul_le_mul_of_nonneg_left h3 (by positivity)

/-- **C112, violation.** Without damping, more than a millionth of the energy is in the lines until 1.16 times the reverberation time after the end of the
input, for reverberation times of at least a tenth of a second per meter of the room; at the reverberation time it is still above -52 dB. -/
theorem C112_violation {sr room time : ℝ} (hsr : 0 < sr) (hroom : 0 < room) (htime : 0.1 * room ≤ time) {x : Nat → Frame ℝ 2} {u y : Nat → Fin 32 → ℝ} (h : Tail sr room time x u y)
    {K : Nat} (hK : ∀ k, K < k → x k = fun _ => 0) (hE : 0 < held (lineSamples sr room) u K) (t : Nat) :
    ((t : ℝ) ≤ 1.16 * time * sr → held (lineSamples sr room) u K / 10 ^ 6 < held (lineSamples sr room) u (K + t)) ∧
    ((t : ℝ) ≤ time * sr → held (lineSamples sr room) u K * (10 : ℝ) ^ (-5.2 : ℝ) ≤ held (lineSamples sr room) u (K + t)) := by
  have ht0 : 0 < time := lt_of_lt_of_le (by positivity) htime
  have r := (tail_run hsr.le hroom ht0 h hK t).1
  rw [loopGain_rpow] at r
  obtain ⟨D, hD⟩ : ∃ D : ℝ, D = (samplesOf sr (0.0036084 * room) : ℕ) + 2 := ⟨_, rfl⟩
  rw [← hD] at r
  have hs : 0.0036084 * room * sr - 1 / 2 ≤ ((samplesOf sr (0.0036084 * room) : ℕ) : ℝ) := by
    have : 0.0036084 * room * sr + 1 / 2 < (samplesOf sr (0.0036084 * room) : ℕ) + 1 := Nat.lt_floor_add_one _
    linarith
  have hD1 : 0.0036084 * room * sr ≤ D := by rw [hD]; linarith
  have hp : 0 < 0.0036084 * room * sr := by positivity
  have key : ∀ q : ℝ, 0 ≤ q → (t : ℝ) ≤ q * time * sr → 0.009 * room / time * (2 * (t : ℝ) / D + 2) ≤ 6 * (q * 0.8314 + 0.03) := by
    intro q hq ht
    have e1 : 2 * (t : ℝ) / D ≤ 2 * (q * time * sr) / (0.0036084 * room * sr) :=
      div_le_div₀ (by positivity) (by linarith) hp hD1
    have e2 : 0.009 * room / time * (2 * (q * time * sr) / (0.0036084 * room * sr)) = q * (0.018 / 0.0036084) := by
      field_simp
      norm_num
      ring
    have e3 : 0.009 * room / time * 2 ≤ 0.18 := by
      rw [div_mul_eq_mul_div, div_le_iff₀ ht0]
      norm_num at htime ⊢
      linarith
    have e4 := mul_le_mul_of_nonneg_left e1 (by positivity : 0 ≤ 0.009 * room / time)
    rw [e2] at e4
    have e5 : q * (0.018 / 0.0036084) ≤ q * 4.9884 := mul_le_mul_of_nonneg_left (by norm_num) hq
    rw [mul_add]
    norm_num at *
    linarith
  constructor
  · intro ht
    refine lt_of_lt_of_le ?_ r
    rw [div_eq_mul_one_div, mul_comm]
    refine mul_lt_mul_of_pos_right ?_ hE
    rw [show (1 / 10 ^ 6 : ℝ) = (10 : ℝ) ^ (-6 : ℝ) by rw [Real.rpow_neg (by norm_num), show (6 : ℝ) = ((6 : ℕ) : ℝ) by norm_num, Real.rpow_natCast]; norm_num]
    refine Real.rpow_lt_rpow_of_exponent_lt (by norm_num) (neg_lt_neg (lt_of_le_of_lt (key 1.16 (by norm_num) ht) ?_))
    norm_num
  · intro ht
    refine le_trans ?_ r
    rw [mul_comm]
    refine mul_le_mul_of_nonneg_right ?_ hE.le
    refine Real.rpow_le_rpow_of_exponent_le (by norm_num) ?_
    have := key 1 (by norm_num) (by rw [one_mul]; exact ht)
    norm_num at this ⊢
    linarith

/-- The hypotheses are met by a click in a room of 10 meters with a reverberation time of 2 seconds: it puts energy in the lines. -/
example : ∃ x : Nat → Frame ℝ 2, (∀ k, 0 < k → x k = fun _ => 0) ∧ ∃ u y, Tail 44100 10 2 x u y ∧ 0 < held (lineSamples 44100 10) u 0 := by
  refine ⟨fun k _ => if k = 0 then 1 else 0, fun k hk => by funext c; exact if_neg (by omega), ?_⟩
  obtain ⟨u, y, h⟩ := C112_lines 44100 10 2 (by norm_num) (by norm_num) (by norm_num) (fun k _ => if k = 0 then 1 else 0)
  refine ⟨u, y, h, ?_⟩
  have hu : ∀ i, u 0 i = 1 := fun i => by rw [h.net.mix]; simp
  unfold held
  refine Finset.sum_pos (fun i _ => ?_) ⟨0, Finset.mem_univ _⟩
  rw [Finset.sum_range_succ']
  have : 0 ≤ ∑ m ∈ range (lineSamples 44100 10 i + 1), (if m + 1 ≤ 0 then u (0 - (m + 1)) i ^ 2 else 0) :=
    Finset.sum_nonneg fun m _ => past_nonneg (fun k => u k i) 0 (m + 1)
  simp only [Nat.le_refl, if_true, Nat.sub_zero, hu]
  linarith

end Fundsp.Effect
