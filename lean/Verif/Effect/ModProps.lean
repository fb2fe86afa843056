import Verif.Effect.Mod
import Verif.Effect.Props

/-!
# Flanger, chorus and phaser: property theorems (C84, C85)

The specification consists of `ago`, `cubic`, `readAt`, `confined`, `source` and `IsAllpass` (`Verif.Effect.Mod`), which speak of signals only. The
modulating oscillator is any node without inputs.
-/

noncomputable section
namespace Fundsp.Effect
open Fundsp.Delay Fundsp.Filter

/-! ## Flanger -/

/-- **C84, flanger.** The output is the input plus the wet signal. The wet signal is the signal in the loop, read at the delay given by the
oscillator at that step, confined to the range of the flanger. The signal in the loop is the input plus the shaped previous wet sample. -/
theorem C84_flanger (amount minD maxD sr : ℝ) (hsr : 0 < sr) (hbig : ⌈maxD * sr⌉₊ + 11 ≤ 2 ^ 31) (L : Node ℝ 0 1) (l : L.σ) (x : Nat → Frame ℝ 1) :
    let wet := fun k => (flanger amount (realTap minD maxD sr) L).stream (flangerNew amount minD maxD sr L l) x k 0 - x k 0
    let loop := fun k => x k 0 + Real.tanh (amount * ago wet k 1)
    ∀ k, wet k = readAt loop k (confined minD maxD sr (source L l k 0)) := by
  intro wet loop k
  set X := tapLoop (realTap minD maxD sr) L
  set Y := Shape.shaperNode (Shape.tanhS amount)
  set y := (feedback2Node (0 : ℝ) (· + ·) id X Y).ticks.out ((((), l), tapSetup 0 ⌈maxD * sr⌉₊), (), fun _ => 0) x with hy
  have hout : ∀ k, (flanger amount (realTap minD maxD sr) L).stream (flangerNew amount minD maxD sr L l) x k 0 = x k 0 + y k 0 :=
    fun k => congrFun (bus_out (· + ·) (multiPass 1) (feedback2Node (0 : ℝ) (· + ·) id X Y) () _ x k) 0
  have hwet : wet = fun k => y k 0 := funext fun k => by show _ - _ = _; rw [hout]; ring
  have h := congrFun (feedback2_from X Y ((((), l), tapSetup 0 ⌈maxD * sr⌉₊)) () x k) 0
  rw [← hy] at h
  rw [hwet]
  refine h.trans ((tapLoop_out minD maxD sr hsr hbig L l _ k 0).trans ?_)
  congr 1
  funext j
  show x j 0 + delayed (fun _ => 0) 1 (fun i => Y.ticks.out () y i) j 0 = x j 0 + Real.tanh (amount * ago wet j 1)
  rw [hwet]
  congr 1
  cases j with
  | zero => simp [delayed, ago]
  | succ j =>
    rw [ago_succ]
    exact tanh_out amount y j 0

/-- **C84, flanger.** Whatever the amount of feedback and the modulation, the output stays bounded. -/
theorem C84_flanger_bounded (amount minD maxD sr : ℝ) (hsr : 0 < sr) (hbig : ⌈maxD * sr⌉₊ + 11 ≤ 2 ^ 31) (L : Node ℝ 0 1) (l : L.σ)
    (x : Nat → Frame ℝ 1) (M : ℝ) (hx : ∀ k, |x k 0| ≤ M) (k : Nat) :
    |(flanger amount (realTap minD maxD sr) L).stream (flangerNew amount minD maxD sr L l) x k 0| ≤ M + 5 / 4 * (M + 1) := by
  have h := C84_flanger amount minD maxD sr hsr hbig L l x k
  simp only at h
  have hM : 0 ≤ M := (abs_nonneg _).trans (hx 0)
  have hb := readAt_bound (u := fun k => x k 0 + Real.tanh (amount * ago (fun k => (flanger amount (realTap minD maxD sr) L).stream
    (flangerNew amount minD maxD sr L l) x k 0 - x k 0) k 1)) (k := k) (M := M + 1) (confined_nonneg minD maxD sr (source L l k 0) hsr) (by linarith)
    (fun d _ _ => (abs_add_le _ _).trans (add_le_add (hx _) (Real.abs_tanh_lt_one _).le))
  rw [← h] at hb
  have := abs_add_le (x k 0) ((flanger amount (realTap minD maxD sr) L).stream (flangerNew amount minD maxD sr L l) x k 0 - x k 0)
  rw [add_sub_cancel] at this
  linarith [hx k]

/-- **C84, flanger.** With feedback of less than 4/5 the flanger falls silent after its input, whatever the modulation. -/
theorem C84_flanger_dies_out (amount minD maxD sr : ℝ) (hsr : 0 < sr) (hbig : ⌈maxD * sr⌉₊ + 11 ≤ 2 ^ 31) (ha : |amount| < 4 / 5) (L : Node ℝ 0 1) (l : L.σ)
    (x : Nat → Frame ℝ 1) (n : Nat) (hx : ∀ k, n ≤ k → x k 0 = 0) :
    _root_.Filter.Tendsto (fun k => (flanger amount (realTap minD maxD sr) L).stream (flangerNew amount minD maxD sr L l) x k 0) _root_.Filter.atTop (nhds 0) := by
  have heq := C84_flanger amount minD maxD sr hsr hbig L l x
  simp only at heq
  set wet : Nat → ℝ := fun k => (flanger amount (realTap minD maxD sr) L).stream (flangerNew amount minD maxD sr L l) x k 0 - x k 0 with hwet
  set loop : Nat → ℝ := fun k => x k 0 + Real.tanh (amount * ago wet k 1) with hloop
  change ∀ k, wet k = _ at heq
  set D := max ⌈maxD * sr⌉₊ 1
  have hp := fun k => confined_nonneg minD maxD sr (source L l k 0) hsr
  have hD := fun k => (confined_pos minD maxD sr (source L l k 0) hsr).2
  set M := ∑ j ∈ Finset.range n, |x j 0| with hM
  have hM0 : 0 ≤ M := Finset.sum_nonneg fun _ _ => abs_nonneg _
  have hxM : ∀ k, |x k 0| ≤ M := by
    intro k
    by_cases hk : k < n
    · exact Finset.single_le_sum (f := fun j => |x j 0|) (fun _ _ => abs_nonneg _) (Finset.mem_range.2 hk)
    · rw [hx k (by omega), abs_zero]; exact hM0
  have h0 : ∀ k, |loop k| ≤ M + 1 := fun k => (abs_add_le _ _).trans (add_le_add (hxM _) (Real.abs_tanh_lt_one _).le)
  have hw : ∀ (B : ℝ) (m : Nat), 0 ≤ B → (∀ k, m ≤ k → |loop k| ≤ B) → ∀ k, m + (D + 2) ≤ k → |wet k| ≤ 5 / 4 * B := by
    intro B m hB h k hk
    rw [heq k]
    refine readAt_bound (hp k) hB fun d hd _ => h _ ?_
    have := hD k
    omega
  set ρ := 5 / 4 * |amount| with hρ
  have hρ0 : 0 ≤ ρ := by positivity
  have hρ1 : ρ < 1 := by rw [hρ]; linarith
  have hdec : ∀ m k, n + m * (D + 3) ≤ k → |loop k| ≤ ρ ^ m * (M + 1) := by
    intro m
    induction m with
    | zero => intro k _; simpa using h0 k
    | succ m ih =>
      intro k hk
      have hk1 : n + m * (D + 3) + (D + 3) ≤ k := by rw [Nat.succ_mul] at hk; omega
      obtain ⟨j, rfl⟩ : ∃ j, k = j + 1 := ⟨k - 1, by omega⟩
      have hwj := hw (ρ ^ m * (M + 1)) _ (by positivity) ih j (by omega)
      have e : loop (j + 1) = Real.tanh (amount * wet j) := by rw [hloop]; simp only [ago_succ]; rw [hx (j + 1) (by omega), zero_add]
      rw [e]
      refine (abs_tanh_le _).trans ?_
      rw [abs_mul]
      calc |amount| * |wet j| ≤ |amount| * (5 / 4 * (ρ ^ m * (M + 1))) := by gcongr
        _ = ρ ^ (m + 1) * (M + 1) := by rw [hρ]; ring
  have hlim : _root_.Filter.Tendsto (fun m : ℕ => 5 / 4 * (ρ ^ m * (M + 1))) _root_.Filter.atTop (nhds 0) := by
    have := (tendsto_pow_atTop_nhds_zero_of_lt_one hρ0 hρ1).mul_const (M + 1) |>.const_mul (5 / 4)
    simpa using this
  rw [Metric.tendsto_atTop] at hlim ⊢
  intro ε hε
  obtain ⟨m, hm⟩ := hlim ε hε
  refine ⟨n + m * (D + 3) + (D + 2), fun k hk => ?_⟩
  have h1 := hw (ρ ^ m * (M + 1)) _ (by positivity) (hdec m) k hk
  have h2 := hm m le_rfl
  rw [Real.dist_eq, sub_zero] at h2 ⊢
  have e : (flanger amount (realTap minD maxD sr) L).stream (flangerNew amount minD maxD sr L l) x k 0 = wet k := by
    rw [hwet]; simp only []; rw [hx k (by omega), sub_zero]
  rw [e]
  exact h1.trans_lt ((le_abs_self _).trans_lt h2)

/-- The flanger as an expression. -/
def flangerGraph (amount : ℝ) (O : TapOps ℝ) (L : Node ℝ 0 1) : Graph ℝ 1 1 :=
  .bus (· + ·) (.multiPass 1) (.leaf (feedback2Node 0 (· + ·) id (tapLoop O L) (Shape.shaperNode (Shape.tanhS amount))))

/-- **C84, flanger.** Block processing equals ticking. -/
theorem C84_flanger_block (amount : ℝ) (O : TapOps ℝ) (L : Node ℝ 0 1) : BlockEqualsTick (flanger amount O L) :=
  C14_block_equals_tick (flangerGraph amount O L) ⟨trivial, (tickBlock_iff _).1 (tickBlock_ofTick _ _)⟩

theorem tap_from (minD maxD sr : ℝ) (hsr : 0 < sr) (hbig : ⌈maxD * sr⌉₊ + 11 ≤ 2 ^ 31) (n : Nat) :
    BlockEqualsTickFrom (tapNode (realTap minD maxD sr) n) (tapSetup 0 ⌈maxD * sr⌉₊) :=
  (C36_real minD maxD sr hsr hbig (realTap minD maxD sr) rfl rfl n).2

theorem tanh_fresh (h : ℝ) : ResetFresh (Shape.shaperNode (Shape.tanhS h)) () :=
  TickFresh.resetFresh (tickFresh_of_eq (n := Shape.shaperNode (Shape.tanhS h)) (fun _ => True) trivial (fun _ _ _ => trivial) (fun _ _ => rfl))
    (fun w cs hc => Shape.C72_block_equals_tick _ (Shape.C72_shapes h 0 0 id (Shape.tanhS h)).2.2.2.1 w cs hc ())

/-- **C84, flanger.** If the oscillator resets properly, a reset flanger is as new. -/
theorem C84_flanger_reset (amount minD maxD sr : ℝ) (hsr : 0 < sr) (hbig : ⌈maxD * sr⌉₊ + 11 ≤ 2 ^ 31) (L : Node ℝ 0 1) (l : L.σ)
    (hb : BlockEqualsTickFrom L l) (hl : ResetFresh L l) :
    ResetFresh (flanger amount (realTap minD maxD sr) L) (flangerNew amount minD maxD sr L l) := by
  have h1 : ResetFresh (tapLoop (realTap minD maxD sr) L) (((), l), tapSetup 0 ⌈maxD * sr⌉₊) :=
    C19_graph_at (.pipe (i := 1) (j := 2) (.stack (.multiPass 1) (.leaf L)) (.leaf (tapNode (realTap minD maxD sr) 1))) _
      ⟨⟨trivial, hb⟩, tap_from minD maxD sr hsr hbig 1⟩ ⟨⟨trivial, hl⟩, C19_tap (realTap minD maxD sr) 1 _⟩
  exact C19_graph (flangerGraph amount (realTap minD maxD sr) L) ⟨trivial, (tickBlock_iff _).1 (tickBlock_ofTick _ _)⟩ _
    ⟨trivial, C19_feedback2 0 (· + ·) id _ _ _ _ h1 (tanh_fresh amount)⟩

/-- A modulation for the examples: constant values. -/
example : source (constant 1 : Node ℝ 0 1) (fun _ => 0.007) 0 0 = 0.007 := rfl

theorem ceil_example : ⌈(0.01 : ℝ) * 48000⌉₊ = 480 := by
  rw [Nat.ceil_eq_iff (by norm_num)]; norm_num

/-- A flanger of 5 to 10 ms at 48 kHz whose delay rests at 7 ms and with strong feedback is bounded by 3.5 on inputs of magnitude one. -/
example (x : Nat → Frame ℝ 1) (hx : ∀ k, |x k 0| ≤ 1) (k : Nat) :
    |(flanger 100 (realTap 0.005 0.01 48000) (constant 1)).stream (flangerNew 100 0.005 0.01 48000 (constant 1) (fun _ => 0.007)) x k 0| ≤ 3.5 := by
  have := C84_flanger_bounded 100 0.005 0.01 48000 (by norm_num) (by rw [ceil_example]; norm_num) (constant 1) (fun _ => 0.007) x 1 hx k
  norm_num at this ⊢; linarith

/-- The delay of 7 ms is within its range. -/
example : confined 0.005 0.01 48000 0.007 = 336 := by
  unfold confined; norm_num

/-! ## Chorus -/

/-- **C84, chorus.** A fifth of the sum of the input and four copies of it, each read at its own delay. -/
theorem C84_chorus (separation variation sr : ℝ) (hsr : 0 < sr) (hbig : ⌈(separation * 4 + variation) * sr⌉₊ + 11 ≤ 2 ^ 31) (L : Node ℝ 0 4) (l : L.σ)
    (x : Nat → Frame ℝ 1) (k : Nat) :
    (chorus (realTap separation (separation * 4 + variation) sr) L).stream (chorusNew separation variation sr L l) x k 0
      = (x k 0 + ∑ i : Fin 4, readAt (fun j => x j 0) k (confined separation (separation * 4 + variation) sr (source L l k i))) / 5 := by
  set O := realTap separation (separation * 4 + variation) sr
  have h := congrFun (binop_out (i := 1) (j := 0) (· * ·) (bus (· + ·) (multiPass 1) (tapFour O L)) (constant 1)
    ((), ((), l), tapSetup 0 ⌈(separation * 4 + variation) * sr⌉₊) (fun _ => (0.2 : ℝ)) x k) 0
  refine h.trans ?_
  have hc : ∀ (v : Nat → Frame ℝ 0) j, ((constant 1 : Node ℝ 0 1).ticks.st (fun _ => (0.2 : ℝ)) v j : Frame ℝ 1) = fun _ => 0.2 := by
    intro v j
    induction j with
    | zero => rfl
    | succ j ih => exact ih
  have h2 : (constant 1 : Node ℝ 0 1).ticks.out (fun _ => (0.2 : ℝ)) (fun k => (x k).takeR (i := 1) (j := 0)) k 0 = 0.2 := congrFun (hc _ k) 0
  have h3 := congrFun (bus_out (· + ·) (multiPass 1) (tapFour O L) () (((), l), tapSetup 0 ⌈(separation * 4 + variation) * sr⌉₊) x k) 0
  have h4 := tapFour_out separation (separation * 4 + variation) sr hsr hbig L l x k 0
  refine (congrArg₂ (· * ·) (h3.trans (congrArg₂ (· + ·) rfl h4)) h2).trans ?_
  show (x k 0 + _) * (0.2 : ℝ) = _
  rw [div_eq_mul_inv]
  norm_num

/-- **C84, chorus.** The output is at most 6/5 of the peak of the input. -/
theorem C84_chorus_bounded (separation variation sr : ℝ) (hsr : 0 < sr) (hbig : ⌈(separation * 4 + variation) * sr⌉₊ + 11 ≤ 2 ^ 31) (L : Node ℝ 0 4) (l : L.σ)
    (x : Nat → Frame ℝ 1) (M : ℝ) (hx : ∀ k, |x k 0| ≤ M) (k : Nat) :
    |(chorus (realTap separation (separation * 4 + variation) sr) L).stream (chorusNew separation variation sr L l) x k 0| ≤ 6 / 5 * M := by
  rw [C84_chorus separation variation sr hsr hbig]
  have hM : 0 ≤ M := (abs_nonneg _).trans (hx 0)
  have hb := fun i : Fin 4 => readAt_bound (u := fun j => x j 0) (k := k) (M := M)
    (confined_nonneg separation (separation * 4 + variation) sr (source L l k i) hsr) hM (fun d _ _ => hx _)
  rw [abs_div, abs_of_pos (by norm_num : (0 : ℝ) < 5), div_le_iff₀ (by norm_num)]
  refine (abs_add_le _ _).trans ?_
  have hs : |∑ i : Fin 4, readAt (fun j => x j 0) k (confined separation (separation * 4 + variation) sr (source L l k i))| ≤ ∑ _i : Fin 4, 5 / 4 * M :=
    (Finset.abs_sum_le_sum_abs _ _).trans (Finset.sum_le_sum fun i _ => hb i)
  rw [Finset.sum_const, Finset.card_univ, Fintype.card_fin, nsmul_eq_mul] at hs
  push_cast at hs
  linarith [hx k]

/-- **C84, chorus.** Two samples after the longest delay of silence at the input the output is silent. -/
theorem C84_chorus_silent (separation variation sr : ℝ) (hsr : 0 < sr) (hbig : ⌈(separation * 4 + variation) * sr⌉₊ + 11 ≤ 2 ^ 31) (L : Node ℝ 0 4) (l : L.σ)
    (x : Nat → Frame ℝ 1) (n : Nat) (hx : ∀ k, n ≤ k → x k 0 = 0) (k : Nat) (hk : n + max ⌈(separation * 4 + variation) * sr⌉₊ 1 + 2 ≤ k) :
    (chorus (realTap separation (separation * 4 + variation) sr) L).stream (chorusNew separation variation sr L l) x k 0 = 0 := by
  rw [C84_chorus separation variation sr hsr hbig, hx k (by omega)]
  have hz : ∀ i : Fin 4, readAt (fun j => x j 0) k (confined separation (separation * 4 + variation) sr (source L l k i)) = 0 := by
    intro i
    have hD := (confined_pos separation (separation * 4 + variation) sr (source L l k i) hsr).2
    have := readAt_bound (u := fun j => x j 0) (k := k) (M := 0) (confined_nonneg separation (separation * 4 + variation) sr (source L l k i) hsr) le_rfl
      (fun d hd _ => by rw [hx _ (by omega), abs_zero])
    rw [mul_zero] at this
    exact abs_eq_zero.1 (le_antisymm this (abs_nonneg _))
  simp [hz]

/-- The chorus as an expression. -/
def chorusGraph (O : TapOps ℝ) (L : Node ℝ 0 4) : Graph ℝ 1 1 :=
  .binop (i := 1) (j := 0) (· * ·) (.bus (· + ·) (.multiPass 1) (.pipe (i := 1) (j := 5) (.stack (.multiPass 1) (.leaf L)) (.leaf (tapNode O 4)))) (.constant 1)

theorem chorusGraph_node (O : TapOps ℝ) (L : Node ℝ 0 4) : (chorusGraph O L).node = chorus O L := rfl

/-- **C84, chorus.** If it does so for the oscillator, block processing equals ticking. -/
theorem C84_chorus_block (separation variation sr : ℝ) (hsr : 0 < sr) (hbig : ⌈(separation * 4 + variation) * sr⌉₊ + 11 ≤ 2 ^ 31) (L : Node ℝ 0 4) (l : L.σ)
    (hb : BlockEqualsTickFrom L l) :
    BlockEqualsTickFrom (chorus (realTap separation (separation * 4 + variation) sr) L) (chorusNew separation variation sr L l) :=
  C14_from_state (chorusGraph (realTap separation (separation * 4 + variation) sr) L)
    (((), ((), l), tapSetup 0 ⌈(separation * 4 + variation) * sr⌉₊), fun _ => 0.2) ⟨⟨trivial, ⟨trivial, hb⟩, tap_from _ _ sr hsr hbig 4⟩, trivial⟩

/-- **C84, chorus.** If the oscillator resets properly, a reset chorus is as new. -/
theorem C84_chorus_reset (separation variation sr : ℝ) (hsr : 0 < sr) (hbig : ⌈(separation * 4 + variation) * sr⌉₊ + 11 ≤ 2 ^ 31) (L : Node ℝ 0 4) (l : L.σ)
    (hb : BlockEqualsTickFrom L l) (hl : ResetFresh L l) :
    ResetFresh (chorus (realTap separation (separation * 4 + variation) sr) L) (chorusNew separation variation sr L l) :=
  C19_graph_at (chorusGraph (realTap separation (separation * 4 + variation) sr) L)
    (((), ((), l), tapSetup 0 ⌈(separation * 4 + variation) * sr⌉₊), fun _ => 0.2) ⟨⟨trivial, ⟨trivial, hb⟩, tap_from _ _ sr hsr hbig 4⟩, trivial⟩
    ⟨⟨trivial, ⟨trivial, hl⟩, C19_tap (realTap separation (separation * 4 + variation) sr) 4 _⟩, trivial⟩

/-- The chorus of the documentation, `chorus(0, 0.015, 0.005, 0.5)` at 44.1 kHz, with resting delays: its block processing is as ticking. -/
example : BlockEqualsTickFrom (chorus (realTap 0.015 (0.015 * 4 + 0.005) 44100) (constant 4))
    (chorusNew 0.015 0.005 44100 (constant 4) ![0.015, 0.03, 0.045, 0.06]) :=
  C84_chorus_block 0.015 0.005 44100 (by norm_num)
    (by have : ⌈((0.015 : ℝ) * 4 + 0.005) * 44100⌉₊ = 2867 := by
          rw [Nat.ceil_eq_iff (by norm_num)]; norm_num
        rw [this]; norm_num) _ _
    (fun w cs hc => (tickBlock_iff _).1 (tickBlock_constant 4) w cs hc _)

/-! ## Phaser -/

/-- **C85.** The output is the input plus the signal fed back. The signal in the loop, which is the input plus the fed back signal of the step before,
passes ten first order allpasses; the delay of the `i`-th, counting from one, is the value of the oscillator plus `i` tenths of a sample. -/
theorem C85_phaser (amount : ℝ) (L : Node ℝ 0 1) (l : L.σ) (x : Nat → Frame ℝ 1) :
    ∃ z : Nat → Nat → ℝ, (∀ k, z 0 k = x k 0 + amount * ago (z 10) k 1) ∧
      (∀ i, i < 10 → IsAllpass (fun k => source L l k 0 + 0.1 * (i + 1 : ℕ)) (z i) (z (i + 1))) ∧
      ∀ k, (phaser L).stream (phaserNew amount L l) x k 0 = x k 0 + amount * z 10 k := by
  set X := phaserLoop L
  set a : X.σ := ((((), l), fun _ => (((), ![0, 0.1]), ⟨0, 0, 0⟩)), ((), fun _ => amount), ()) with ha
  set y := (feedbackNode (0 : ℝ) (· + ·) id X).ticks.out (a, fun _ => 0) x with hy
  set u : Nat → Frame ℝ 1 := fun j c => x j c + delayed (fun _ => 0) 1 (fun i => y i) j c with hu
  have hyk : ∀ k, y k 0 = stages (fun j => ![u j 0, source L l j 0]) 10 k 0 * amount := by
    intro k
    refine (congrFun (feedback_from X a x k) 0).trans ?_
    exact phaserLoop_out amount L l u k 0
  refine ⟨fun i k => stages (fun j => ![u j 0, source L l j 0]) i k 0, fun k => ?_, fun i _ => ?_, fun k => ?_⟩
  · show x k 0 + delayed (fun _ => 0) 1 (fun i => y i) k 0 = _
    congr 1
    cases k with
    | zero => simp [delayed, ago]
    | succ k => rw [ago_succ, mul_comm]; exact hyk k
  · exact stages_allpass (fun j => ![u j 0, source L l j 0]) i
  · rw [mul_comm, ← hyk]
    exact congrFun (bus_out (· + ·) (multiPass 1) (feedbackNode (0 : ℝ) (· + ·) id X) () _ x k) 0

/-- **C85.** While the modulation rests at `d`, feedback of less than one is stable: up to every step the energy of the output is at most
`1 / (1 - |amount|)²` times that of the input. -/
theorem C85_stable (amount : ℝ) (ha : |amount| < 1) (L : Node ℝ 0 1) (l : L.σ) (d : ℝ) (hd : 0 ≤ d) (hL : ∀ k, source L l k 0 = d) (x : Nat → Frame ℝ 1) (n : Nat) :
    energy ((phaser L).stream (phaserNew amount L l) x) n ≤ (1 / (1 - |amount|)) ^ 2 * energy x n := by
  obtain ⟨z, h0, h1, h2⟩ := C85_phaser amount L l x
  have hz : ∀ i, i ≤ 10 → ∀ n, ∑ k ∈ Finset.range n, z i k ^ 2 ≤ ∑ k ∈ Finset.range n, z 0 k ^ 2 := by
    intro i
    induction i with
    | zero => intro _ n; exact le_rfl
    | succ i ih =>
      intro hi n
      have h := h1 i (by omega)
      simp only [hL] at h
      exact (allpass_passive (by positivity) h n).trans (ih (by omega) n)
  have := scalar_loop (x := fun k => x k 0) ha h0 (hz 10 le_rfl) n
  simpa only [energy, ← Finset.range_eq_Ico, Fin.sum_univ_one, h2] using this

/-- **C85.** While the modulation rests, the phaser falls silent after its input. -/
theorem C85_dies_out (amount : ℝ) (ha : |amount| < 1) (L : Node ℝ 0 1) (l : L.σ) (d : ℝ) (hd : 0 ≤ d) (hL : ∀ k, source L l k 0 = d) (x : Nat → Frame ℝ 1) (n : Nat)
    (hx : ∀ k, n ≤ k → x k = fun _ => 0) :
    _root_.Filter.Tendsto (fun k => (phaser L).stream (phaserNew amount L l) x k 0) _root_.Filter.atTop (nhds 0) := by
  refine tendsto_of_energy _ ((1 / (1 - |amount|)) ^ 2 * energy x n) (fun m => (C85_stable amount ha L l d hd hL x m).trans ?_) 0
  refine mul_le_mul_of_nonneg_left ?_ (sq_nonneg _)
  unfold energy
  rw [← Finset.range_eq_Ico, ← Finset.range_eq_Ico]
  rcases le_total m n with h | h
  · exact Finset.sum_le_sum_of_subset_of_nonneg (Finset.range_subset_range.2 h) fun k _ _ => Finset.sum_nonneg fun _ _ => sq_nonneg _
  · rw [← Finset.sum_range_add_sum_Ico _ h]
    have : ∑ k ∈ Finset.Ico n m, ∑ c, x k c ^ 2 = 0 := Finset.sum_eq_zero fun k hk => by
      rw [hx k (Finset.mem_Ico.1 hk).1]; simp
    rw [this, add_zero]

/-- The phaser as an expression. -/
def phaserGraph (L : Node ℝ 0 1) : Graph ℝ 1 1 := .bus (· + ·) (.multiPass 1) (.leaf (feedbackNode 0 (· + ·) id (phaserLoop L)))

/-- **C85.** Block processing equals ticking. -/
theorem C85_block (L : Node ℝ 0 1) : BlockEqualsTick (phaser L) :=
  C14_block_equals_tick (phaserGraph L) ⟨trivial, (tickBlock_iff _).1 (tickBlock_ofTick _ _)⟩

/-- **C85.** If the oscillator resets properly, a reset phaser is as new. -/
theorem C85_reset (amount : ℝ) (L : Node ℝ 0 1) (l : L.σ) (hb : BlockEqualsTickFrom L l) (hl : ResetFresh L l) :
    ResetFresh (phaser L) (phaserNew amount L l) := by
  have hall : BlockEqualsTick (allpoleNode (K := ℝ) 1) := (tickBlock_iff _).1 (tickBlock_ofTick _ _)
  have h1 : ResetFresh (phaserLoop L) ((((), l), fun _ => (((), ![0, 0.1]), ⟨0, 0, 0⟩)), ((), fun _ => amount), ()) :=
    C19_graph_at (.pipe (i := 1) (j := 2) (o := 1) (.pipe (i := 1) (j := 2) (.stack (.multiPass 1) (.leaf L)) (.chain 9
        (.pipe (j := 2) (.binop (i := 2) (j := 0) (· + ·) (.multiPass 2) (.constant 2)) (.thru (.leaf (allpoleNode 1))))))
      (.stack (i := 1) (j := 1) (o := 1) (p := 0) (.binop (i := 1) (j := 0) (· * ·) (.multiPass 1) (.constant 1)) (.sink 1))) _
      ⟨⟨⟨trivial, hb⟩, fun _ => ⟨⟨trivial, trivial⟩, fun w cs hc => hall w cs hc _⟩⟩, ⟨trivial, trivial⟩, trivial⟩
      ⟨⟨⟨trivial, hl⟩, fun _ => ⟨⟨trivial, trivial⟩, C19_allpole 1 0⟩⟩, ⟨trivial, trivial⟩, trivial⟩
  exact C19_graph (phaserGraph L) ⟨trivial, (tickBlock_iff _).1 (tickBlock_ofTick _ _)⟩ _ ⟨trivial, C19_feedback 0 (· + ·) id _ _ h1⟩

theorem constant_source (d : ℝ) (k : Nat) : source (constant 1 : Node ℝ 0 1) (fun _ => d) k 0 = d := by
  have : ∀ j, ((constant 1 : Node ℝ 0 1).ticks.st (fun _ => d) (fun _ => Fin.elim0) j : Frame ℝ 1) = fun _ => d := by
    intro j
    induction j with
    | zero => rfl
    | succ j ih => exact ih
  exact congrFun (this k) 0

/-- A phaser at rest in the middle of its range with feedback 0.5: energy gain at most 4. -/
example (x : Nat → Frame ℝ 1) (n : Nat) : energy ((phaser (constant 1)).stream (phaserNew 0.5 (constant 1) (fun _ => 11)) x) n ≤ 4 * energy x n := by
  have := C85_stable 0.5 (by norm_num [abs_of_pos]) (constant 1) (fun _ => 11) 11 (by norm_num) (constant_source 11) x n
  norm_num [abs_of_pos] at this ⊢
  exact this

end Fundsp.Effect
