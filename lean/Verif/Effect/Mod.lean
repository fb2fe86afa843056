import Verif.Effect.Gain
import Verif.Effect.Model
import Verif.Delay.FeedbackProps
import Verif.Core.ResetLeaf
import Verif.Shape.Props
import Verif.Filter.RezProps
import Mathlib.Topology.Algebra.Order.LiminfLimsup
import Mathlib.Analysis.SpecificLimits.Basic

/-! # Flanger, chorus and phaser: helper lemmas -/

noncomputable section
namespace Fundsp.Effect
open Fundsp.Delay Fundsp.Filter
open Finset (sum_congr sum_le_sum)

/-- Specification: the sample `d` steps before step `k`, with silence before the start. -/
def ago (u : Nat → ℝ) (k d : Nat) : ℝ := if d ≤ k then u (k - d) else 0

/-- Specification: the cubic that passes through `b` at 0 and `c` at 1 with the slopes of the chords `a c` and `b d` (Catmull-Rom). -/
def cubic (a b c d t : ℝ) : ℝ :=
  (-t + 2 * t ^ 2 - t ^ 3) / 2 * a + (2 - 5 * t ^ 2 + 3 * t ^ 3) / 2 * b + (t + 4 * t ^ 2 - 3 * t ^ 3) / 2 * c + (-t ^ 2 + t ^ 3) / 2 * d

/-- Specification: the signal `u`, read `p` samples before step `k`. -/
def readAt (u : Nat → ℝ) (k : Nat) (p : ℝ) : ℝ :=
  cubic (ago u k (⌊p⌋₊ - 1)) (ago u k ⌊p⌋₊) (ago u k (⌊p⌋₊ + 1)) (ago u k (⌊p⌋₊ + 2)) (p - ⌊p⌋₊)

/-- Specification: `t` seconds as samples, confined to the range from `minD` to `maxD` seconds and at least 1.00001 samples. -/
def confined (minD maxD sr t : ℝ) : ℝ := min (max t (max minD (1.00001 / sr))) (max maxD (1.00001 / sr)) * sr

/-- Channel `i` of a node without inputs. -/
def source {n : Nat} (L : Node ℝ 0 n) (l : L.σ) (k : Nat) (i : Fin n) : ℝ := L.stream l (fun _ => Fin.elim0) k i

theorem cubic_spline (a b c d t : ℝ) : Math.spline a b c d t = cubic a b c d t := by
  unfold Math.spline cubic; ring

theorem cubic_bound {a b c d t M : ℝ} (h0 : 0 ≤ t) (h1 : t ≤ 1) (ha : |a| ≤ M) (hb : |b| ≤ M) (hc : |c| ≤ M) (hd : |d| ≤ M) :
    |cubic a b c d t| ≤ 5 / 4 * M := by
  have hM : 0 ≤ M := (abs_nonneg a).trans ha
  have w0 : |(-t + 2 * t ^ 2 - t ^ 3) / 2| = t * (1 - t) ^ 2 / 2 := by
    rw [abs_of_nonpos]
    · ring
    · have : 0 ≤ t * (1 - t) ^ 2 := by positivity
      nlinarith
  have w1 : |(2 - 5 * t ^ 2 + 3 * t ^ 3) / 2| = (2 - 5 * t ^ 2 + 3 * t ^ 3) / 2 := by
    rw [abs_of_nonneg]
    have : 0 ≤ (1 - t) * (2 + 2 * t - 3 * t ^ 2) := mul_nonneg (by linarith) (by nlinarith)
    nlinarith
  have w2 : |(t + 4 * t ^ 2 - 3 * t ^ 3) / 2| = (t + 4 * t ^ 2 - 3 * t ^ 3) / 2 := by
    rw [abs_of_nonneg]
    have : 0 ≤ t * (1 + 4 * t - 3 * t ^ 2) := mul_nonneg h0 (by nlinarith)
    nlinarith
  have w3 : |(-t ^ 2 + t ^ 3) / 2| = t ^ 2 * (1 - t) / 2 := by
    rw [abs_of_nonpos]
    · ring
    · have : 0 ≤ t ^ 2 * (1 - t) := mul_nonneg (by positivity) (by linarith)
      nlinarith
  unfold cubic
  calc |(-t + 2 * t ^ 2 - t ^ 3) / 2 * a + (2 - 5 * t ^ 2 + 3 * t ^ 3) / 2 * b + (t + 4 * t ^ 2 - 3 * t ^ 3) / 2 * c + (-t ^ 2 + t ^ 3) / 2 * d|
      ≤ |(-t + 2 * t ^ 2 - t ^ 3) / 2| * |a| + |(2 - 5 * t ^ 2 + 3 * t ^ 3) / 2| * |b| + |(t + 4 * t ^ 2 - 3 * t ^ 3) / 2| * |c| + |(-t ^ 2 + t ^ 3) / 2| * |d| := by
        rw [← abs_mul, ← abs_mul, ← abs_mul, ← abs_mul]
        refine (abs_add_le _ _).trans (add_le_add ((abs_add_le _ _).trans (add_le_add (abs_add_le _ _) le_rfl)) le_rfl)
    _ ≤ |(-t + 2 * t ^ 2 - t ^ 3) / 2| * M + |(2 - 5 * t ^ 2 + 3 * t ^ 3) / 2| * M + |(t + 4 * t ^ 2 - 3 * t ^ 3) / 2| * M + |(-t ^ 2 + t ^ 3) / 2| * M := by
        gcongr
    _ = (1 + t * (1 - t)) * M := by rw [w0, w1, w2, w3]; ring
    _ ≤ 5 / 4 * M := by
        apply mul_le_mul_of_nonneg_right _ hM
        nlinarith [sq_nonneg (t - 1 / 2)]

/-- Samples at least `n` in the past of those within reach of the delay. -/
theorem readAt_bound {u : Nat → ℝ} {k : Nat} {p M : ℝ} (hp : 0 ≤ p) (hM : 0 ≤ M) (hu : ∀ d, d ≤ ⌊p⌋₊ + 2 → d ≤ k → |u (k - d)| ≤ M) :
    |readAt u k p| ≤ 5 / 4 * M := by
  have h : ∀ d, d ≤ ⌊p⌋₊ + 2 → |ago u k d| ≤ M := by
    intro d hd
    unfold ago
    split
    · exact hu d hd ‹_›
    · simpa using hM
  have e0 := Nat.floor_le hp
  have e1 := Nat.lt_floor_add_one p
  exact cubic_bound (by linarith) (by linarith) (h _ (by omega)) (h _ (by omega)) (h _ (by omega)) (h _ (by omega))

theorem confined_pos (minD maxD sr t : ℝ) (hsr : 0 < sr) : 1 ≤ ⌊confined minD maxD sr t⌋₊ ∧ ⌊confined minD maxD sr t⌋₊ ≤ max ⌈maxD * sr⌉₊ 1 :=
  C36_clamped minD maxD sr t hsr

theorem confined_nonneg (minD maxD sr t : ℝ) (hsr : 0 < sr) : 0 ≤ confined minD maxD sr t := by
  have : 0 ≤ (1.00001 : ℝ) / sr := by positivity
  exact mul_nonneg (le_min (this.trans ((le_max_right _ _).trans (le_max_right _ _))) (this.trans (le_max_right _ _))) hsr.le

theorem foldl_finRange {n : Nat} (f : Fin n → ℝ) (x : ℝ) : (List.finRange n).foldl (fun acc i => acc + f i) x = x + ∑ i, f i := by
  induction n generalizing x with
  | zero => simp
  | succ n ih => rw [List.finRange_succ, List.foldl_cons, List.foldl_map, ih (fun i => f i.succ), Fin.sum_univ_succ]; ring

theorem tap_read (minD maxD sr : ℝ) (hsr : 0 < sr) (hbig : ⌈maxD * sr⌉₊ + 11 ≤ 2 ^ 31) (n : Nat) (w : Nat → Frame ℝ (n + 1)) (k : Nat) (c : Fin 1) :
    (tapNode (realTap minD maxD sr) n).ticks.out (tapSetup 0 ⌈maxD * sr⌉₊) w k c
      = ∑ i : Fin n, readAt (fun j => w j 0) k (confined minD maxD sr (w k i.succ)) := by
  rw [Fin.eq_zero c]
  refine ((C36_real minD maxD sr hsr hbig (realTap minD maxD sr) rfl rfl n).1 w k).trans ?_
  refine Eq.trans ?_ ((foldl_finRange (fun i => readAt (fun j => w j 0) k (confined minD maxD sr (w k i.succ))) 0).trans (zero_add _))
  refine foldl_congr_mem _ _ _ (fun acc t => ?_) _
  exact congrArg (acc + ·) (cubic_spline _ _ _ _ _)

theorem source_eq {n : Nat} (L : Node ℝ 0 n) (l : L.σ) (w : Nat → Frame ℝ 0) (k : Nat) (i : Fin n) : L.ticks.out l w k i = source L l k i := by
  have : w = fun _ => Fin.elim0 := funext fun _ => funext fun c => c.elim0
  rw [this]; rfl

theorem tapLoop_out (minD maxD sr : ℝ) (hsr : 0 < sr) (hbig : ⌈maxD * sr⌉₊ + 11 ≤ 2 ^ 31) (L : Node ℝ 0 1) (l : L.σ) (u : Nat → Frame ℝ 1) (k : Nat) (c : Fin 1) :
    (tapLoop (realTap minD maxD sr) L).ticks.out (((), l), tapSetup 0 ⌈maxD * sr⌉₊) u k c
      = readAt (fun j => u j 0) k (confined minD maxD sr (source L l k 0)) := by
  have h := pipe_out (stack (i := 1) (j := 0) (multiPass 1) L) (tapNode (realTap minD maxD sr) 1) ((), l) (tapSetup 0 ⌈maxD * sr⌉₊) u k
  refine (congrFun h c).trans ?_
  refine (tap_read minD maxD sr hsr hbig 1 _ k c).trans ?_
  have e : ∀ j, (stack (i := 1) (j := 0) (multiPass 1) L).stream ((), l) u j = Frame.join (u j) (source L l j) := by
    intro j
    refine (stack_out (multiPass 1) L () l u j).trans ?_
    refine congrArg₂ Frame.join rfl (funext fun i => source_eq L l _ j i)
  simp only [e]
  rw [Fin.sum_univ_one]
  rfl

theorem tapFour_out (minD maxD sr : ℝ) (hsr : 0 < sr) (hbig : ⌈maxD * sr⌉₊ + 11 ≤ 2 ^ 31) (L : Node ℝ 0 4) (l : L.σ) (u : Nat → Frame ℝ 1) (k : Nat) (c : Fin 1) :
    (tapFour (realTap minD maxD sr) L).ticks.out (((), l), tapSetup 0 ⌈maxD * sr⌉₊) u k c
      = ∑ i : Fin 4, readAt (fun j => u j 0) k (confined minD maxD sr (source L l k i)) := by
  have h := pipe_out (stack (i := 1) (j := 0) (multiPass 1) L) (tapNode (realTap minD maxD sr) 4) ((), l) (tapSetup 0 ⌈maxD * sr⌉₊) u k
  refine (congrFun h c).trans ?_
  refine (tap_read minD maxD sr hsr hbig 4 _ k c).trans ?_
  have e : ∀ j, (stack (i := 1) (j := 0) (multiPass 1) L).stream ((), l) u j = Frame.join (u j) (source L l j) := by
    intro j
    refine (stack_out (multiPass 1) L () l u j).trans ?_
    refine congrArg₂ Frame.join rfl (funext fun i => source_eq L l _ j i)
  simp only [e]
  rfl

theorem feedback2_from {n : Nat} (X Y : Node ℝ n n) (a : X.σ) (b : Y.σ) (w : Nat → Frame ℝ n) (k : Nat) :
    let y := (feedback2Node (0 : ℝ) (· + ·) id X Y).ticks.out (a, b, fun _ => 0) w
    y k = X.ticks.out a (fun j c => w j c + delayed (fun _ => 0) 1 (fun i => Y.ticks.out b y i) j c) k :=
  C38_feedback2 (0 : ℝ) (· + ·) id { X with reset := id } { Y with reset := id } (a, b, fun _ => 0) w k

theorem feedback_from {n : Nat} (X : Node ℝ n n) (a : X.σ) (w : Nat → Frame ℝ n) (k : Nat) :
    let y := (feedbackNode (0 : ℝ) (· + ·) id X).ticks.out (a, fun _ => 0) w
    y k = X.ticks.out a (fun j c => w j c + delayed (fun _ => 0) 1 (fun i => y i) j c) k :=
  C38_feedback (0 : ℝ) (· + ·) id { X with reset := id } (a, fun _ => 0) w k

theorem tanh_out (h : ℝ) (w : Nat → Frame ℝ 1) (k : Nat) (c : Fin 1) : (Shape.shaperNode (Shape.tanhS h)).ticks.out () w k c = Real.tanh (h * w k 0) := by
  rw [mul_comm]; rfl

theorem abs_tanh_le (z : ℝ) : |Real.tanh z| ≤ |z| := by
  have h := tanh_sector z
  by_cases h0 : Real.tanh z = 0
  · rw [h0, abs_zero]; exact abs_nonneg z
  · have hp : 0 < |Real.tanh z| := abs_pos.2 h0
    have : |Real.tanh z| * |Real.tanh z| ≤ |z| * |Real.tanh z| := by
      rw [← abs_mul, ← abs_mul]
      calc |Real.tanh z * Real.tanh z| = Real.tanh z ^ 2 := by rw [← sq, abs_of_nonneg (sq_nonneg _)]
        _ ≤ z * Real.tanh z := h
        _ ≤ _ := le_abs_self _
    exact le_of_mul_le_mul_right this hp

/-! ## Phaser -/

/-- Specification: `y` is the first order allpass response to `x` with a delay of `d k` samples at step `k`. -/
def IsAllpass (d x y : Nat → ℝ) : Prop := ∀ k, y k = (1 - d k) / (1 + d k) * (x k - ago y k 1) + ago x k 1

theorem ago_succ (u : Nat → ℝ) (k : Nat) : ago u (k + 1) 1 = u k := by simp [ago]
theorem ago_zero (u : Nat → ℝ) : ago u 0 1 = 0 := by simp [ago]

theorem allpole_isAllpass (w : Nat → Frame ℝ 2) (c : ℝ) :
    IsAllpass (fun k => w k 1) (fun k => w k 0) (fun k => (allpoleNode (K := ℝ) 1).ticks.out ⟨0, 0, c⟩ w k 0) := by
  have hst : ∀ k, ((allpoleNode (K := ℝ) 1).ticks.st ⟨0, 0, c⟩ w k : PoleZero ℝ).x1 = ago (fun k => w k 0) k 1 ∧
      ((allpoleNode (K := ℝ) 1).ticks.st ⟨0, 0, c⟩ w k : PoleZero ℝ).y1 = ago (fun k => (allpoleNode (K := ℝ) 1).ticks.out ⟨0, 0, c⟩ w k 0) k 1 := by
    intro k
    cases k with
    | zero => exact ⟨(ago_zero _).symm, (ago_zero _).symm⟩
    | succ k => rw [ago_succ, ago_succ]; exact ⟨rfl, rfl⟩
  intro k
  show (1 - w k 1) / (1 + w k 1) * (w k 0 - ((allpoleNode (K := ℝ) 1).ticks.st ⟨0, 0, c⟩ w k : PoleZero ℝ).y1)
    + ((allpoleNode (K := ℝ) 1).ticks.st ⟨0, 0, c⟩ w k : PoleZero ℝ).x1 = _
  rw [(hst k).1, (hst k).2]

/-- The state of a new stage. -/
def stageNew : phaserStage.σ := (((), ![0, 0.1]), ⟨0, 0, 0⟩)

theorem stage_in (w : Nat → Frame ℝ 2) (k : Nat) :
    (binop (i := 2) (j := 0) (o := 2) (· + ·) (multiPass 2 : Node ℝ 2 2) (constant 2)).stream ((), ![0, 0.1]) w k = ![w k 0, w k 1 + 0.1] := by
  have h := binop_out (· + ·) (multiPass 2 : Node ℝ 2 2) (constant 2) () (![0, 0.1] : Fin 2 → ℝ) w k
  refine h.trans ?_
  have hc : (constant 2 : Node ℝ 0 2).ticks.out (![0, 0.1] : Fin 2 → ℝ) (fun k => (w k).takeR (i := 2) (j := 0)) k = (![0, 0.1] : Fin 2 → ℝ) := by
    have : ∀ j, (constant 2 : Node ℝ 0 2).ticks.st (![0, 0.1] : Fin 2 → ℝ) (fun k => (w k).takeR (i := 2) (j := 0)) j = (![0, 0.1] : Fin 2 → ℝ) := by
      intro j
      induction j with
      | zero => rfl
      | succ j ih => exact ih
    exact this k
  rw [hc]
  funext c
  match c with
  | 0 => exact add_zero _
  | 1 => rfl

theorem stage_out (w : Nat → Frame ℝ 2) :
    IsAllpass (fun k => w k 1 + 0.1) (fun k => w k 0) (fun k => phaserStage.stream stageNew w k 0) ∧
    ∀ k, phaserStage.stream stageNew w k 1 = w k 1 + 0.1 := by
  have h : ∀ k, phaserStage.stream stageNew w k = (thru (allpoleNode (K := ℝ) 1)).ticks.out (⟨0, 0, 0⟩ : PoleZero ℝ) (fun k => ![w k 0, w k 1 + 0.1]) k := by
    intro k
    refine (pipe_out (binop (i := 2) (j := 0) (o := 2) (· + ·) (multiPass 2 : Node ℝ 2 2) (constant 2)) (thru (allpoleNode (K := ℝ) 1)) _ _ w k).trans ?_
    have e : (binop (i := 2) (j := 0) (o := 2) (· + ·) (multiPass 2 : Node ℝ 2 2) (constant 2)).stream ((), ![0, 0.1]) w = fun k => ![w k 0, w k 1 + 0.1] :=
      funext fun k => stage_in w k
    exact congrArg (fun v => (thru (allpoleNode (K := ℝ) 1)).ticks.out (⟨0, 0, 0⟩ : PoleZero ℝ) v k) e
  have h2 : ∀ k, phaserStage.stream stageNew w k = fun c => if h : c.1 < 1 then
      (allpoleNode (K := ℝ) 1).ticks.out ⟨0, 0, 0⟩ (fun k => ![w k 0, w k 1 + 0.1]) k ⟨c.1, h⟩ else (![w k 0, w k 1 + 0.1] : Frame ℝ 2) c :=
    fun k => (h k).trans (thru_out (allpoleNode (K := ℝ) 1) _ _ k)
  constructor
  · have := allpole_isAllpass (fun k => ![w k 0, w k 1 + 0.1]) 0
    have e : (fun k => phaserStage.stream stageNew w k 0) = fun k => (allpoleNode (K := ℝ) 1).ticks.out ⟨0, 0, 0⟩ (fun k => ![w k 0, w k 1 + 0.1]) k 0 :=
      funext fun k => by rw [h2]; rfl
    rw [e]
    exact this
  · intro k; rw [h2]; rfl

/-- The signals between the stages. -/
def stages (w : Nat → Frame ℝ 2) : Nat → Nat → Frame ℝ 2
  | 0 => w
  | n + 1 => phaserStage.stream stageNew (stages w n)

theorem chain_stages (n : Nat) (w : Nat → Frame ℝ 2) : chainStream phaserStage n (fun _ => stageNew) w = stages w n := by
  have h : ∀ n (w : Nat → Frame ℝ 2), stages (phaserStage.stream stageNew w) n = stages w (n + 1) := by
    intro n
    induction n with
    | zero => intro w; rfl
    | succ n ih => intro w; show phaserStage.stream stageNew _ = phaserStage.stream stageNew _; rw [ih]
  induction n generalizing w with
  | zero => rfl
  | succ n ih => exact (ih _).trans (h n w)

theorem stages_delay (w : Nat → Frame ℝ 2) (n k : Nat) : stages w n k 1 = w k 1 + 0.1 * n := by
  induction n with
  | zero => simp [stages]
  | succ n ih =>
    have := (stage_out (stages w n)).2 k
    refine this.trans ?_
    rw [ih]; push_cast; ring

theorem stages_allpass (w : Nat → Frame ℝ 2) (n : Nat) :
    IsAllpass (fun k => w k 1 + 0.1 * (n + 1 : ℕ)) (fun k => stages w n k 0) (fun k => stages w (n + 1) k 0) := by
  have := (stage_out (stages w n)).1
  have e : (fun k => stages w n k 1 + 0.1) = fun k => w k 1 + 0.1 * (n + 1 : ℕ) := funext fun k => by rw [stages_delay]; push_cast; ring
  rw [e] at this
  exact this

theorem phaserLoop_out (amount : ℝ) (L : Node ℝ 0 1) (l : L.σ) (u : Nat → Frame ℝ 1) (k : Nat) (c : Fin 1) :
    (phaserLoop L).ticks.out ((((), l), fun _ => (((), ![0, 0.1]), ⟨0, 0, 0⟩)), ((), fun _ => amount), ()) u k c
      = stages (fun j => ![u j 0, source L l j 0]) 10 k 0 * amount := by
  have hin : (pipe (i := 1) (j := 2) (stack (i := 1) (j := 0) (multiPass 1) L) (chain 9 phaserStage)).stream (((), l), fun _ => stageNew) u
      = stages (fun j => ![u j 0, source L l j 0]) 10 := by
    funext j
    refine (pipe_out (stack (i := 1) (j := 0) (multiPass 1) L) (chain 9 phaserStage) ((), l) (fun _ => stageNew) u j).trans ?_
    have e : (stack (i := 1) (j := 0) (multiPass 1) L).stream ((), l) u = fun j => ![u j 0, source L l j 0] := by
      funext j
      refine (stack_out (multiPass 1) L () l u j).trans ?_
      funext c
      match c with
      | 0 => rfl
      | 1 => exact source_eq L l _ j 0
    refine (congrArg (fun v => (chain 9 phaserStage).ticks.out (fun _ => stageNew) v j) e).trans ?_
    refine (chain_out 9 phaserStage (fun _ => stageNew) _ j).trans ?_
    rw [chain_stages]
  refine (congrFun (pipe_out (pipe (i := 1) (j := 2) (stack (i := 1) (j := 0) (multiPass 1) L) (chain 9 phaserStage))
    (stack (i := 1) (j := 1) (o := 1) (p := 0) (binop (i := 1) (j := 0) (· * ·) (multiPass 1) (constant 1)) (sink 1)) (((), l), fun _ => stageNew) (((), fun _ => amount), ()) u k) c).trans ?_
  refine (congrFun (congrArg (fun v => (stack (i := 1) (j := 1) (o := 1) (p := 0) (binop (i := 1) (j := 0) (· * ·) (multiPass 1 : Node ℝ 1 1) (constant 1)) (sink 1)).ticks.out (((), fun _ => amount), ()) v k) hin) c).trans ?_
  refine (congrFun (stack_out (binop (i := 1) (j := 0) (· * ·) (multiPass 1 : Node ℝ 1 1) (constant 1)) (sink 1) ((), fun _ => amount) () _ k) c).trans ?_
  rw [Fin.eq_zero c]
  refine (congrFun (binop_out (· * ·) (multiPass 1 : Node ℝ 1 1) (constant 1) () (fun _ => amount) _ k) 0).trans ?_
  have hc : ∀ (v : Nat → Frame ℝ 0) j, ((constant 1 : Node ℝ 0 1).ticks.st (fun _ => amount) v j : Frame ℝ 1) = fun _ => amount := by
    intro v j
    induction j with
    | zero => rfl
    | succ j ih => exact ih
  refine congrArg₂ (· * ·) rfl ?_
  exact congrFun (hc _ k) 0

/-- One allpass: no prefix of the response has more energy than that of the input. -/
theorem allpass_passive {d : ℝ} (hd : 0 < d) {x y : Nat → ℝ} (h : IsAllpass (fun _ => d) x y) (n : Nat) :
    ∑ k ∈ Finset.range n, y k ^ 2 ≤ ∑ k ∈ Finset.range n, x k ^ 2 := by
  set η := (1 - d) / (1 + d) with hη
  have h1 : 0 < 1 - η ^ 2 := by
    have : 1 - η ^ 2 = 4 * d / (1 + d) ^ 2 := by rw [hη]; field_simp; ring
    rw [this]; positivity
  have key : ∀ n, ∑ k ∈ Finset.range n, y k ^ 2 + (ago x n 1 - η * ago y n 1) ^ 2 / (1 - η ^ 2) = ∑ k ∈ Finset.range n, x k ^ 2 := by
    intro n
    induction n with
    | zero => simp [ago_zero]
    | succ n ih =>
      rw [Finset.sum_range_succ, Finset.sum_range_succ, ← ih, ago_succ, ago_succ]
      have e : y n = η * x n + (ago x n 1 - η * ago y n 1) := by rw [h n]; ring
      generalize ago x n 1 - η * ago y n 1 = s at *
      rw [e]
      field_simp
      ring
  have := key n
  have h2 : 0 ≤ (ago x n 1 - η * ago y n 1) ^ 2 / (1 - η ^ 2) := by positivity
  linarith

/-- Energy of a loop of gain below one. -/
theorem scalar_loop {a : ℝ} (ha : |a| < 1) {x u z : Nat → ℝ} (hu : ∀ k, u k = x k + a * ago z k 1)
    (hz : ∀ n, ∑ k ∈ Finset.range n, z k ^ 2 ≤ ∑ k ∈ Finset.range n, u k ^ 2) (n : Nat) :
    ∑ k ∈ Finset.range n, (x k + a * z k) ^ 2 ≤ (1 / (1 - |a|)) ^ 2 * ∑ k ∈ Finset.range n, x k ^ 2 := by
  set b := |a| with hb
  have hb0 : 0 ≤ b := abs_nonneg a
  have hab : a ^ 2 = b ^ 2 := (sq_abs a).symm
  have h1 : 0 < 1 - b := by linarith
  have hs : ∑ k ∈ Finset.range n, (ago z k 1) ^ 2 ≤ ∑ k ∈ Finset.range n, z k ^ 2 := by
    cases n with
    | zero => simp
    | succ n =>
      rw [Finset.sum_range_succ', Finset.sum_range_succ (fun k => z k ^ 2), ago_zero]
      simp only [ago_succ]
      nlinarith [sq_nonneg (z n)]
  have hE : b ^ 2 * ∑ k ∈ Finset.range n, z k ^ 2 ≤ (b / (1 - b)) ^ 2 * ∑ k ∈ Finset.range n, x k ^ 2 := by
    have hstep : ∀ k, b ^ 2 * u k ^ 2 ≤ b * (b ^ 2 * ago z k 1 ^ 2) + b ^ 2 / (1 - b) * x k ^ 2 := by
      intro k
      rw [hu k]
      rcases eq_or_lt_of_le hb0 with h0 | h0
      · rw [← h0]; simp
      · rw [div_mul_eq_mul_div, ← sub_nonneg]
        have e : b * (b ^ 2 * ago z k 1 ^ 2) + b ^ 2 * x k ^ 2 / (1 - b) - b ^ 2 * (x k + a * ago z k 1) ^ 2
            = b ^ 3 * (x k - (1 - b) / b * (a * ago z k 1)) ^ 2 / (1 - b) := by
          have hz2 : b ^ 2 * ago z k 1 ^ 2 = (a * ago z k 1) ^ 2 := by rw [mul_pow, hab]
          rw [hz2]
          generalize a * ago z k 1 = v
          field_simp
          ring
        rw [e]
        positivity
    have h3 : b ^ 2 * ∑ k ∈ Finset.range n, u k ^ 2 ≤ b * (b ^ 2 * ∑ k ∈ Finset.range n, z k ^ 2) + b ^ 2 / (1 - b) * ∑ k ∈ Finset.range n, x k ^ 2 := by
      calc b ^ 2 * ∑ k ∈ Finset.range n, u k ^ 2 ≤ ∑ k ∈ Finset.range n, (b * (b ^ 2 * ago z k 1 ^ 2) + b ^ 2 / (1 - b) * x k ^ 2) := by
            rw [Finset.mul_sum]; exact Finset.sum_le_sum fun k _ => hstep k
        _ = b * (b ^ 2 * ∑ k ∈ Finset.range n, ago z k 1 ^ 2) + b ^ 2 / (1 - b) * ∑ k ∈ Finset.range n, x k ^ 2 := by
            rw [Finset.sum_add_distrib, ← Finset.mul_sum, ← Finset.mul_sum, ← Finset.mul_sum]
        _ ≤ _ := by gcongr
    have h4 := mul_le_mul_of_nonneg_left (hz n) (sq_nonneg b)
    have h5 : (1 - b) * (b ^ 2 * ∑ k ∈ Finset.range n, z k ^ 2) ≤ b ^ 2 / (1 - b) * ∑ k ∈ Finset.range n, x k ^ 2 := by nlinarith
    have e : (b / (1 - b)) ^ 2 * ∑ k ∈ Finset.range n, x k ^ 2 = (b ^ 2 / (1 - b) * ∑ k ∈ Finset.range n, x k ^ 2) / (1 - b) := by field_simp
    rw [e, le_div_iff₀ h1]
    linarith
  rcases eq_or_lt_of_le hb0 with h0 | h0
  · have ha0 : a = 0 := abs_eq_zero.1 (hb ▸ h0.symm)
    rw [← h0, ha0]; simp
  · have hstep : ∀ k, (x k + a * z k) ^ 2 ≤ 1 / (1 - b) * x k ^ 2 + 1 / b * (b ^ 2 * z k ^ 2) := by
      intro k
      rw [← sub_nonneg]
      have hz2 : b ^ 2 * z k ^ 2 = (a * z k) ^ 2 := by rw [mul_pow, hab]
      rw [hz2]
      generalize a * z k = v
      have e : 1 / (1 - b) * x k ^ 2 + 1 / b * v ^ 2 - (x k + v) ^ 2 = (b * x k - (1 - b) * v) ^ 2 / (b * (1 - b)) := by
        field_simp
        ring
      rw [e]; positivity
    calc ∑ k ∈ Finset.range n, (x k + a * z k) ^ 2 ≤ ∑ k ∈ Finset.range n, (1 / (1 - b) * x k ^ 2 + 1 / b * (b ^ 2 * z k ^ 2)) :=
          Finset.sum_le_sum fun k _ => hstep k
      _ = 1 / (1 - b) * ∑ k ∈ Finset.range n, x k ^ 2 + 1 / b * (b ^ 2 * ∑ k ∈ Finset.range n, z k ^ 2) := by
          rw [Finset.sum_add_distrib, ← Finset.mul_sum, ← Finset.mul_sum, ← Finset.mul_sum]
      _ ≤ 1 / (1 - b) * ∑ k ∈ Finset.range n, x k ^ 2 + 1 / b * ((b / (1 - b)) ^ 2 * ∑ k ∈ Finset.range n, x k ^ 2) := by gcongr
      _ = _ := by field_simp; ring

end Fundsp.Effect
