import Verif.Param.Model
import Verif.Core.Props

/-!
# C90: parameters

Every way of giving a parameter to a unit has the same meaning: at each sample the unit computes its equation with the value of the parameter
that is in force then. For a unit with the parameter fixed this is the last value set, by the constructor or a setting, at the last sample rate set; for the form
of the unit with a parameter input it is the value at the input, whatever settings were made. Hence constant inputs, the constructor and settings agree.

Each equation is stated by a reference that takes the sequence of coefficients and the input.
-/

noncomputable section
namespace Fundsp.Param
open Fundsp.Filter

/-! ## Parameters in force -/

/-- The parameters after an event: `upd` gives the effect of a setting. -/
def heldStep {P : Type} (upd : P → Par → P) (p : P × ℝ) : Ev → P × ℝ
  | .set v => (upd p.1 v, p.2)
  | .rate sr => (p.1, sr)

/-- The parameters and sample rate in force at sample `k`: those after all events up to then, in order. -/
def held {P : Type} (upd : P → Par → P) (p : P × ℝ) (ev : Nat → List Ev) (k : Nat) : P × ℝ :=
  ((List.range (k + 1)).flatMap ev).foldl (heldStep upd) p

/-- The sample rate in force at sample `k`. -/
def rateAt (sr : ℝ) (ev : Nat → List Ev) (k : Nat) : ℝ :=
  ((List.range (k + 1)).flatMap ev).foldl (fun r e => match e with | .rate sr => sr | .set _ => r) sr

theorem held_zero {P : Type} (upd : P → Par → P) (p : P × ℝ) (ev : Nat → List Ev) : held upd p ev 0 = (ev 0).foldl (heldStep upd) p := by
  simp [held, List.range_succ]

theorem held_succ {P : Type} (upd : P → Par → P) (p : P × ℝ) (ev : Nat → List Ev) (k : Nat) :
    held upd p ev (k + 1) = (ev (k + 1)).foldl (heldStep upd) (held upd p ev k) := by
  unfold held
  rw [List.range_succ, List.flatMap_append, List.foldl_append]
  simp

theorem rateAt_eq {P : Type} (upd : P → Par → P) (p : P × ℝ) (ev : Nat → List Ev) (k : Nat) : (held upd p ev k).2 = rateAt p.2 ev k := by
  have : ∀ (l : List Ev) (p : P × ℝ), (l.foldl (heldStep upd) p).2 = l.foldl (fun r e => match e with | .rate sr => sr | .set _ => r) p.2 := by
    intro l
    induction l with
    | nil => intro p; rfl
    | cons e l ih => intro p; rw [List.foldl_cons, List.foldl_cons, ih]; cases e <;> rfl
  exact this _ _

/-- Without settings the parameters stay as they are. -/
theorem held_const {P : Type} (upd : P → Par → P) (p : P × ℝ) (ev : Nat → List Ev) (h : ∀ k, ∀ e ∈ ev k, ∀ v, e = .set v → ∀ q, upd q v = q) (k : Nat) :
    (held upd p ev k).1 = p.1 := by
  have : ∀ (l : List Ev) (p : P × ℝ), (∀ e ∈ l, ∀ v, e = .set v → ∀ q, upd q v = q) → (l.foldl (heldStep upd) p).1 = p.1 := by
    intro l
    induction l with
    | nil => intro p _; rfl
    | cons e l ih =>
      intro p h
      rw [List.foldl_cons, ih _ fun e he => h e (List.mem_cons_of_mem _ he)]
      cases e with
      | set v => exact h _ List.mem_cons_self v rfl _
      | rate sr => rfl
  refine this _ _ fun e he v hv q => ?_
  obtain ⟨j, -, hj⟩ := List.mem_flatMap.1 he
  exact h j e hj v hv q

/-- Folding a function of events. -/
theorem fold_events {H K : Type} (f : H → Ev → H) (g : K → Ev → K) (v : H → K) (h : ∀ a e, v (f a e) = g (v a) e) (l : List Ev) (a : H) :
    v (l.foldl f a) = l.foldl g (v a) := by
  induction l generalizing a with
  | nil => rfl
  | cons e l ih => rw [List.foldl_cons, List.foldl_cons, ih, h]

/-- What an observer `step` of the events has seen at sample `k`. -/
def seen {H : Type} (step : H → Ev → H) (h : H) (ev : Nat → List Ev) (k : Nat) : H := ((List.range (k + 1)).flatMap ev).foldl step h

theorem seen_zero {H : Type} (step : H → Ev → H) (h : H) (ev : Nat → List Ev) : seen step h ev 0 = (ev 0).foldl step h := by
  simp [seen, List.range_succ]

theorem seen_succ {H : Type} (step : H → Ev → H) (h : H) (ev : Nat → List Ev) (k : Nat) :
    seen step h ev (k + 1) = (ev (k + 1)).foldl step (seen step h ev k) := by
  unfold seen
  rw [List.range_succ, List.flatMap_append, List.foldl_append]
  simp

/-- A unit whose state consists of parameters `par`, and memory `mem`, and of caches that are right (`good`), computes with the parameters in force. -/
theorem run_seen {n o : Nat} {H M : Type} (C : Comp n o) (step : H → Ev → H) (par : C.σ → H) (mem : C.σ → M) (good : C.σ → Prop)
    (next : H → M → Frame ℝ n → M) (value : H → M → Frame ℝ n → Frame ℝ o)
    (hon : ∀ s e, good s → good (C.on s e) ∧ par (C.on s e) = step (par s) e ∧ mem (C.on s e) = mem s)
    (htick : ∀ s x, good s → good (C.tick s x).1 ∧ par (C.tick s x).1 = par s ∧ mem (C.tick s x).1 = next (par s) (mem s) x ∧
      (C.tick s x).2 = value (par s) (mem s) x)
    (s : C.σ) (hs : good s) (ev : Nat → List Ev) (x : Nat → Frame ℝ n) (m : Nat → M) (h0 : m 0 = mem s)
    (hm : ∀ k, m (k + 1) = next (seen step (par s) ev k) (m k) (x k)) (k : Nat) :
    C.out s ev x k = value (seen step (par s) ev k) (m k) (x k) := by
  have hf : ∀ (l : List Ev) (s : C.σ), good s → good (l.foldl C.on s) ∧ par (l.foldl C.on s) = l.foldl step (par s) ∧ mem (l.foldl C.on s) = mem s := by
    intro l
    induction l with
    | nil => intro s h; exact ⟨h, rfl, rfl⟩
    | cons e l ih =>
      intro s h
      obtain ⟨a, b, c⟩ := hon s e h
      obtain ⟨a', b', c'⟩ := ih _ a
      exact ⟨a', by rw [List.foldl_cons, b', b]; rfl, c'.trans c⟩
  have key : ∀ k, good ((ev k).foldl C.on (C.st s ev x k)) ∧ par ((ev k).foldl C.on (C.st s ev x k)) = seen step (par s) ev k ∧
      mem ((ev k).foldl C.on (C.st s ev x k)) = m k := by
    intro k
    induction k with
    | zero =>
      obtain ⟨a, b, c⟩ := hf (ev 0) s hs
      exact ⟨a, b.trans (seen_zero _ _ _).symm, c.trans h0.symm⟩
    | succ k ih =>
      obtain ⟨i1, i2, i3⟩ := ih
      obtain ⟨t1, t2, t3, -⟩ := htick _ (x k) i1
      obtain ⟨a, b, c⟩ := hf (ev (k + 1)) (C.st s ev x (k + 1)) t1
      refine ⟨a, ?_, ?_⟩
      · rw [b, seen_succ]
        exact congrArg (fun q => (ev (k + 1)).foldl step q) (t2.trans i2)
      · rw [c, hm k]
        exact t3.trans (by rw [i2, i3])
  obtain ⟨i1, i2, i3⟩ := key k
  have := (htick _ (x k) i1).2.2.2
  rw [i2, i3] at this
  exact this

theorem run_eq {n o : Nat} {P M : Type} (C : Comp n o) (upd : P → Par → P) (par : C.σ → P × ℝ) (mem : C.σ → M) (good : C.σ → Prop)
    (next : P × ℝ → M → Frame ℝ n → M) (value : P × ℝ → M → Frame ℝ n → Frame ℝ o)
    (hon : ∀ s e, good s → good (C.on s e) ∧ par (C.on s e) = heldStep upd (par s) e ∧ mem (C.on s e) = mem s)
    (htick : ∀ s x, good s → good (C.tick s x).1 ∧ par (C.tick s x).1 = par s ∧ mem (C.tick s x).1 = next (par s) (mem s) x ∧
      (C.tick s x).2 = value (par s) (mem s) x)
    (s : C.σ) (hs : good s) (ev : Nat → List Ev) (x : Nat → Frame ℝ n) (m : Nat → M) (h0 : m 0 = mem s)
    (hm : ∀ k, m (k + 1) = next (held upd (par s) ev k) (m k) (x k)) (k : Nat) :
    C.out s ev x k = value (held upd (par s) ev k) (m k) (x k) :=
  run_seen C (heldStep upd) par mem good next value hon htick s hs ev x m h0 hm k

/-- The setting in force does not depend on the sample rate. -/
def setStep {P : Type} (upd : P → Par → P) (p : P) : Ev → P
  | .set v => upd p v
  | .rate _ => p

theorem held_fst {P : Type} (upd : P → Par → P) (p : P × ℝ) (ev : Nat → List Ev) (k : Nat) : (held upd p ev k).1 = seen (setStep upd) p.1 ev k :=
  fold_events (heldStep upd) (setStep upd) Prod.fst (fun _ e => by cases e <;> rfl) _ _

def rateStep (r : ℝ) : Ev → ℝ
  | .rate sr => sr
  | .set _ => r

theorem rateAt_seen (sr : ℝ) (ev : Nat → List Ev) (k : Nat) : rateAt sr ev k = seen rateStep sr ev k := by
  unfold rateAt seen
  congr 1

/-! ## References -/

/-- One-pole lowpass: `y[k] = (1 - c[k]) x[k] + c[k] y[k - 1]`. -/
def lowpoleRef (c x : Nat → ℝ) : Nat → ℝ
  | 0 => (1 - c 0) * x 0
  | k + 1 => (1 - c (k + 1)) * x (k + 1) + c (k + 1) * lowpoleRef c x k

/-- DC blocker: `y[k] = x[k] - x[k - 1] + c[k] y[k - 1]`. -/
def dcRef (c x : Nat → ℝ) : Nat → ℝ
  | 0 => x 0
  | k + 1 => x (k + 1) - x k + c (k + 1) * dcRef c x k

/-- One-pole highpass: `y[k] = c[k] (y[k - 1] + x[k] - x[k - 1])`. -/
def highpoleRef (c x : Nat → ℝ) : Nat → ℝ
  | 0 => c 0 * x 0
  | k + 1 => c (k + 1) * (highpoleRef c x k + x (k + 1) - x k)

/-- First order allpass with delay `d` at DC: `y[k] = eta (x[k] - y[k - 1]) + x[k - 1]`. -/
def allpoleRef (d x : Nat → ℝ) : Nat → ℝ
  | 0 => (1 - d 0) / (1 + d 0) * x 0
  | k + 1 => (1 - d (k + 1)) / (1 + d (k + 1)) * (x (k + 1) - allpoleRef d x k) + x k

/-- The value `j` samples ago, zero before the start. -/
def past (j : Nat) (x : Nat → ℝ) (k : Nat) : ℝ := if j ≤ k then x (k - j) else 0

/-- `y` is the output of a biquad with coefficients `c k` at sample `k` on input `x`. -/
def BiquadEq (c : Nat → BiquadCoefs ℝ) (x y : Nat → ℝ) : Prop :=
  ∀ k, y k = (c k).b0 * x k + (c k).b1 * past 1 x k + (c k).b2 * past 2 x k - (c k).a1 * past 1 y k - (c k).a2 * past 2 y k

/-- The equation has one solution. -/
theorem BiquadEq.unique {c : Nat → BiquadCoefs ℝ} {x y z : Nat → ℝ} (hy : BiquadEq c x y) (hz : BiquadEq c x z) : y = z := by
  funext k
  induction k using Nat.strong_induction_on with
  | _ k ih =>
    have hp : ∀ j, 1 ≤ j → past j y k = past j z k := by
      intro j hj
      unfold past
      split
      · exact ih _ (by omega)
      · rfl
    rw [hy k, hz k, hp 1 le_rfl, hp 2 (by norm_num)]

/-- `y` is the output of the Moog ladder on input `x` with cutoff `f k` and resonance `q k` at sample `k` and sample rate `sr k`: four one-pole stages, the last
saturated and fed back. -/
def MoogEq (f q sr x y : Nat → ℝ) : Prop :=
  ∃ u a b c : Nat → ℝ, ∀ k,
    let w := 2 * f k / sr k
    let p := w * (1.8 - 0.8 * w)
    let h := 2 * Real.sin (w * Real.pi / 2) - 1
    let t := (1 - p) * 1.386249
    u k = x k - q k * (12 + t ^ 2 + 6 * t) / (12 + t ^ 2 - 6 * t) * past 1 y k ∧
    a k = (u k + past 1 u k) * p - h * past 1 a k ∧
    b k = (a k + past 1 a k) * p - h * past 1 b k ∧
    c k = (b k + past 1 b k) * p - h * past 1 c k ∧
    y k = Real.tanh ((c k + past 1 c k) * p - h * past 1 y k)

/-- `y` is the output of the resonant two-pole filter: two smoothers in series and a saturated feedback of their difference. -/
def RezEq (bandpass : ℝ) (f q sr x y : Nat → ℝ) : Prop :=
  ∃ a b : Nat → ℝ, ∀ k,
    let g := 2 * Real.sin (Real.pi * f k / sr k)
    a k = past 1 a k + g * (x k - past 1 a k + (q k + q k / (1 - g)) * Real.tanh (past 1 a k - past 1 b k)) ∧
    b k = past 1 b k + g * (a k - past 1 b k) ∧
    y k = b k - bandpass * a k

/-- Three smoothers in series, with coefficient one at the first sample. -/
def followRef (c x : Nat → ℝ) : Nat → ℝ × ℝ × ℝ
  | 0 => (x 0, x 0, x 0)
  | k + 1 =>
    let v := followRef c x k
    let v1 := v.1 + c (k + 1) * (x (k + 1) - v.1)
    let v2 := v.2.1 + c (k + 1) * (v1 - v.2.1)
    (v1, v2, v.2.2 + c (k + 1) * (v2 - v.2.2))

/-- A move from `y` towards `x` by the fraction `a` upwards or `r` downwards. -/
def toward (a r x y : ℝ) : ℝ := if y ≤ x then y + a * (x - y) else y + r * (x - y)

def afollowRef (a r x : Nat → ℝ) : Nat → ℝ × ℝ × ℝ
  | 0 => (x 0, x 0, x 0)
  | k + 1 =>
    let v := afollowRef a r x k
    let v1 := toward (a (k + 1)) (r (k + 1)) (x (k + 1)) v.1
    let v2 := toward (a (k + 1)) (r (k + 1)) v1 v.2.1
    (v1, v2, toward (a (k + 1)) (r (k + 1)) v2 v.2.2)

/-! ## Effects of settings -/

def updCenter (f : ℝ) : Par → ℝ
  | .center v => v
  | _ => f

def updCenterQ (p : ℝ × ℝ) : Par → ℝ × ℝ
  | .center v => (v, p.2)
  | .centerQ v q => (v, q)
  | _ => p

def updDelay (d : ℝ) : Par → ℝ
  | .delay v => v
  | _ => d

def updPan (p : ℝ) : Par → ℝ
  | .pan v => v
  | _ => p

def updTime (t : ℝ) : Par → ℝ
  | .time v => v
  | _ => t

def updTimes (t : ℝ × ℝ) : Par → ℝ × ℝ
  | .attackRelease a r => (a, r)
  | _ => t

def updCoefficient (e : ℝ) : Par → ℝ
  | .coefficient v => v
  | _ => e

def updBiquad (c : BiquadCoefs ℝ) : Par → BiquadCoefs ℝ
  | .biquad a1 a2 b0 b1 b2 => ⟨a1, a2, b0, b1, b2⟩
  | _ => c

/-- The signal input alone. -/
def sig {n : Nat} (x : Nat → Frame ℝ (n + 1)) (k : Nat) : ℝ := x k 0

/-! ## One-pole filters -/

theorem past_succ (x : Nat → ℝ) (k : Nat) : past 1 x (k + 1) = x k := by simp [past]
theorem past_zero (x : Nat → ℝ) : past 1 x 0 = 0 := by simp [past]
theorem past_two (x : Nat → ℝ) (k : Nat) : past 2 x (k + 1) = past 1 x k := by
  unfold past
  by_cases h : 1 ≤ k
  · rw [if_pos (by omega), if_pos h]; congr 1
  · rw [if_neg (by omega), if_neg h]

theorem lowpoleRef_eq (c x : Nat → ℝ) (k : Nat) : lowpoleRef c x k = (1 - c k) * x k + c k * past 1 (lowpoleRef c x) k := by
  cases k with
  | zero => rw [past_zero, mul_zero, add_zero]; rfl
  | succ k => rw [past_succ]; rfl

theorem dcRef_eq (c x : Nat → ℝ) (k : Nat) : dcRef c x k = x k - past 1 x k + c k * past 1 (dcRef c x) k := by
  cases k with
  | zero => rw [past_zero, past_zero, mul_zero, add_zero, sub_zero]; rfl
  | succ k => rw [past_succ, past_succ]; rfl

theorem highpoleRef_eq (c x : Nat → ℝ) (k : Nat) : highpoleRef c x k = c k * (past 1 (highpoleRef c x) k + x k - past 1 x k) := by
  cases k with
  | zero => rw [past_zero, past_zero, zero_add, sub_zero]; rfl
  | succ k => rw [past_succ, past_succ]; rfl

theorem allpoleRef_eq (d x : Nat → ℝ) (k : Nat) :
    allpoleRef d x k = (1 - d k) / (1 + d k) * (x k - past 1 (allpoleRef d x) k) + past 1 x k := by
  cases k with
  | zero => rw [past_zero, past_zero, add_zero, sub_zero]; rfl
  | succ k => rw [past_succ, past_succ]; rfl

/-- **C90, lowpole.** With a fixed cutoff, changed by settings and sample rate changes at will. -/
theorem C90_lowpole (f : ℝ) (ev : Nat → List Ev) (x : Nat → Frame ℝ 1) (k : Nat) :
    (lowpoleComp 0).out (lowpoleNew f) ev x k 0
      = lowpoleRef (fun k => Real.exp (-2 * Real.pi * (held updCenter (f, 44100) ev k).1 / (held updCenter (f, 44100) ev k).2)) (sig x) k := by
  have hc : ∀ p : ℝ × ℝ, Real.exp (-2 * Real.pi * p.1 / p.2) = poleCoeff p.2 p.1 := fun p => by rw [poleCoeff, neg_mul]
  simp only [hc]
  have := run_eq (lowpoleComp 0) updCenter (fun s : LowpoleFull => (s.base.cutoff, s.sr)) (fun s : LowpoleFull => s.base.value)
    (fun s : LowpoleFull => s.base.coeff = poleCoeff s.sr s.base.cutoff)
    (fun p m x => (1 - poleCoeff p.2 p.1) * x 0 + poleCoeff p.2 p.1 * m) (fun p m x _ => (1 - poleCoeff p.2 p.1) * x 0 + poleCoeff p.2 p.1 * m)
    (by
      intro s e h
      cases e with
      | rate sr => exact ⟨rfl, rfl, rfl⟩
      | set p => cases p <;> first | exact ⟨rfl, rfl, rfl⟩ | exact ⟨h, rfl, rfl⟩)
    (by
      intro s x h
      refine ⟨h, rfl, ?_, ?_⟩
      · show (1 - s.base.coeff) * x 0 + s.base.coeff * s.base.value = _
        rw [h]
      · funext _
        show (1 - s.base.coeff) * x 0 + s.base.coeff * s.base.value = _
        rw [h])
    (lowpoleNew f) rfl ev x
    (past 1 (lowpoleRef (fun k => poleCoeff (held updCenter (f, 44100) ev k).2 (held updCenter (f, 44100) ev k).1) (sig x)))
    (past_zero _) (fun k => by rw [past_succ, lowpoleRef_eq]; rfl) k
  rw [this, lowpoleRef_eq]
  rfl

/-- **C90, lowpole with a cutoff input.** The cutoff is that at the input; settings have no effect. -/
theorem C90_lowpole_input (f : ℝ) (ev : Nat → List Ev) (x : Nat → Frame ℝ 2) (k : Nat) :
    (lowpoleComp 1).out (lowpoleNew f) ev x k 0 = lowpoleRef (fun k => Real.exp (-2 * Real.pi * x k 1 / rateAt 44100 ev k)) (sig x) k := by
  have hc : ∀ f sr : ℝ, Real.exp (-2 * Real.pi * f / sr) = poleCoeff sr f := fun f sr => by rw [poleCoeff, neg_mul]
  simp only [hc]
  simp only [rateAt_seen]
  have := run_seen (lowpoleComp 1) rateStep (fun s : LowpoleFull => s.sr) (fun s : LowpoleFull => s.base.value)
    (fun s : LowpoleFull => s.base.coeff = poleCoeff s.sr s.base.cutoff)
    (fun r m x => (1 - poleCoeff r (x 1)) * x 0 + poleCoeff r (x 1) * m) (fun r m x _ => (1 - poleCoeff r (x 1)) * x 0 + poleCoeff r (x 1) * m)
    (by
      intro s e h
      cases e with
      | rate sr => exact ⟨rfl, rfl, rfl⟩
      | set p => cases p <;> first | exact ⟨rfl, rfl, rfl⟩ | exact ⟨h, rfl, rfl⟩)
    (by
      intro s x h
      have e : lowpoleTick (poleCoeff s.sr) 1 s.base x
          = (⟨(1 - poleCoeff s.sr (x 1)) * x 0 + poleCoeff s.sr (x 1) * s.base.value, poleCoeff s.sr (x 1), x 1⟩,
            fun _ => (1 - poleCoeff s.sr (x 1)) * x 0 + poleCoeff s.sr (x 1) * s.base.value) := by
        obtain ⟨⟨v, c, f⟩, sr⟩ := s
        simp only at h
        subst h
        by_cases hx : x 1 = f
        · subst hx
          simp [lowpoleTick]
        · simp [lowpoleTick, hx]
      refine ⟨?_, rfl, ?_, ?_⟩
      · show (lowpoleTick (poleCoeff s.sr) 1 s.base x).1.coeff = poleCoeff s.sr (lowpoleTick (poleCoeff s.sr) 1 s.base x).1.cutoff
        rw [e]
      · show (lowpoleTick (poleCoeff s.sr) 1 s.base x).1.value = _
        rw [e]
      · show (lowpoleTick (poleCoeff s.sr) 1 s.base x).2 = _
        rw [e])
    (lowpoleNew f) rfl ev x
    (past 1 (lowpoleRef (fun k => poleCoeff (seen rateStep 44100 ev k) (x k 1)) (sig x)))
    (past_zero _) (fun k => by rw [past_succ, lowpoleRef_eq]; rfl) k
  rw [this, lowpoleRef_eq]
  rfl

/-- **C90, DC blocker.** -/
theorem C90_dcblock (f : ℝ) (ev : Nat → List Ev) (x : Nat → Frame ℝ 1) (k : Nat) :
    dcComp.out (dcNew f) ev x k 0
      = dcRef (fun k => 1 - 2 * Real.pi * (held updCenter (f, 44100) ev k).1 / (held updCenter (f, 44100) ev k).2) (sig x) k := by
  have hc : ∀ p : ℝ × ℝ, 1 - 2 * Real.pi * p.1 / p.2 = dcCoeff p.2 p.1 := fun p => by rw [dcCoeff]; ring
  simp only [hc]
  have := run_eq dcComp updCenter (fun s : DcFull => (s.cutoff, s.sr)) (fun s : DcFull => (s.base.x1, s.base.y1))
    (fun s : DcFull => s.base.coeff = dcCoeff s.sr s.cutoff)
    (fun p m x => (x 0, x 0 - m.1 + dcCoeff p.2 p.1 * m.2)) (fun p m x _ => x 0 - m.1 + dcCoeff p.2 p.1 * m.2)
    (by
      intro s e h
      cases e with
      | rate sr => exact ⟨rfl, rfl, rfl⟩
      | set p => cases p <;> first | exact ⟨rfl, rfl, rfl⟩ | exact ⟨h, rfl, rfl⟩)
    (by
      intro s x h
      refine ⟨h, rfl, ?_, ?_⟩
      · show (x 0, x 0 - s.base.x1 + s.base.coeff * s.base.y1) = _
        rw [h]
      · funext _
        show x 0 - s.base.x1 + s.base.coeff * s.base.y1 = _
        rw [h])
    (dcNew f) rfl ev x
    (fun k => (past 1 (sig x) k, past 1 (dcRef (fun k => dcCoeff (held updCenter (f, 44100) ev k).2 (held updCenter (f, 44100) ev k).1) (sig x)) k))
    (by simp only [past_zero]; rfl) (fun k => by rw [past_succ, past_succ, dcRef_eq]; rfl) k
  rw [this, dcRef_eq]
  rfl

/-- **C90, highpole.** -/
theorem C90_highpole (f : ℝ) (ev : Nat → List Ev) (x : Nat → Frame ℝ 1) (k : Nat) :
    (highpoleComp 0).out (highpoleNew f) ev x k 0
      = highpoleRef (fun k => Real.exp (-2 * Real.pi * (held updCenter (f, 44100) ev k).1 / (held updCenter (f, 44100) ev k).2)) (sig x) k := by
  have hc : ∀ p : ℝ × ℝ, Real.exp (-2 * Real.pi * p.1 / p.2) = poleCoeff p.2 p.1 := fun p => by rw [poleCoeff, neg_mul]
  simp only [hc]
  have := run_eq (highpoleComp 0) updCenter (fun s : HighpoleFull => (s.cutoff, s.sr)) (fun s : HighpoleFull => (s.base.x1, s.base.y1))
    (fun s : HighpoleFull => s.base.coeff = poleCoeff s.sr s.cutoff)
    (fun p m x => (x 0, poleCoeff p.2 p.1 * (m.2 + x 0 - m.1))) (fun p m x _ => poleCoeff p.2 p.1 * (m.2 + x 0 - m.1))
    (by
      intro s e h
      cases e with
      | rate sr => exact ⟨rfl, rfl, rfl⟩
      | set p => cases p <;> first | exact ⟨rfl, rfl, rfl⟩ | exact ⟨h, rfl, rfl⟩)
    (by
      intro s x h
      refine ⟨h, rfl, ?_, ?_⟩
      · show (x 0, s.base.coeff * (s.base.y1 + x 0 - s.base.x1)) = _
        rw [h]
      · funext _
        show s.base.coeff * (s.base.y1 + x 0 - s.base.x1) = _
        rw [h])
    (highpoleNew f) rfl ev x
    (fun k => (past 1 (sig x) k, past 1 (highpoleRef (fun k => poleCoeff (held updCenter (f, 44100) ev k).2 (held updCenter (f, 44100) ev k).1) (sig x)) k))
    (by simp only [past_zero]; rfl) (fun k => by rw [past_succ, past_succ, highpoleRef_eq]; rfl) k
  rw [this, highpoleRef_eq]
  rfl

theorem highpole_follow (s : HighpoleFull) (h : s.base.coeff = poleCoeff s.sr s.cutoff) (x : Frame ℝ 2) : s.follow 1 x = s.setCutoff (x 1) := by
  obtain ⟨⟨x1, y1, c⟩, f, sr⟩ := s
  simp only at h
  subst h
  unfold HighpoleFull.follow HighpoleFull.setCutoff
  by_cases hx : x 1 = f
  · subst hx; simp
  · simp [hx]

/-- **C90, highpole with a cutoff input.** -/
theorem C90_highpole_input (f : ℝ) (ev : Nat → List Ev) (x : Nat → Frame ℝ 2) (k : Nat) :
    (highpoleComp 1).out (highpoleNew f) ev x k 0 = highpoleRef (fun k => Real.exp (-2 * Real.pi * x k 1 / rateAt 44100 ev k)) (sig x) k := by
  have hc : ∀ f sr : ℝ, Real.exp (-2 * Real.pi * f / sr) = poleCoeff sr f := fun f sr => by rw [poleCoeff, neg_mul]
  simp only [hc, rateAt_seen]
  have := run_seen (highpoleComp 1) rateStep (fun s : HighpoleFull => s.sr) (fun s : HighpoleFull => (s.base.x1, s.base.y1))
    (fun s : HighpoleFull => s.base.coeff = poleCoeff s.sr s.cutoff)
    (fun r m x => (x 0, poleCoeff r (x 1) * (m.2 + x 0 - m.1))) (fun r m x _ => poleCoeff r (x 1) * (m.2 + x 0 - m.1))
    (by
      intro s e h
      cases e with
      | rate sr => exact ⟨rfl, rfl, rfl⟩
      | set p => cases p <;> first | exact ⟨rfl, rfl, rfl⟩ | exact ⟨h, rfl, rfl⟩)
    (by
      intro s x h
      have e : (highpoleComp 1).tick s x = (let t := s.setCutoff (x 1)
          let r := highpoleNode.tick t.base (fun _ => x 0)
          ({ t with base := r.1 }, r.2)) := by
        rw [← highpole_follow s h x]; rfl
      rw [e]
      exact ⟨rfl, rfl, rfl, rfl⟩)
    (highpoleNew f) rfl ev x
    (fun k => (past 1 (sig x) k, past 1 (highpoleRef (fun k => poleCoeff (seen rateStep 44100 ev k) (x k 1)) (sig x)) k))
    (by simp only [past_zero]; rfl) (fun k => by rw [past_succ, past_succ, highpoleRef_eq]; rfl) k
  rw [this, highpoleRef_eq]
  rfl

/-- **C90, allpole.** -/
theorem C90_allpole (d : ℝ) (ev : Nat → List Ev) (x : Nat → Frame ℝ 1) (k : Nat) :
    (allpoleComp 0).out (allpoleNew d) ev x k 0 = allpoleRef (fun k => (held updDelay (d, 44100) ev k).1) (sig x) k := by
  have key : ∀ k, ((ev k).foldl (allpoleComp 0).on ((allpoleComp 0).st (allpoleNew d) ev x k) : PoleZero ℝ)
        = ⟨past 1 (sig x) k, past 1 (allpoleRef (fun k => (held updDelay (d, 44100) ev k).1) (sig x)) k, allpoleEta (held updDelay (d, 44100) ev k).1⟩ := by
    have hf : ∀ (l : List Ev) (a b d sr : ℝ), (l.foldl (allpoleComp 0).on (⟨a, b, allpoleEta d⟩ : PoleZero ℝ) : PoleZero ℝ)
        = ⟨a, b, allpoleEta (l.foldl (heldStep updDelay) (d, sr)).1⟩ := by
      intro l
      induction l with
      | nil => intro a b d sr; rfl
      | cons e l ih =>
        intro a b d sr
        cases e with
        | rate r => exact ih a b d r
        | set p =>
          cases p with
          | delay v => exact ih a b v sr
          | _ => exact ih a b d sr
    intro k
    induction k with
    | zero =>
      rw [past_zero, past_zero, held_zero]
      exact hf _ _ _ _ _
    | succ k ih =>
      have e : ((allpoleComp 0).st (allpoleNew d) ev x (k + 1) : PoleZero ℝ)
          = ⟨past 1 (sig x) (k + 1), past 1 (allpoleRef (fun k => (held updDelay (d, 44100) ev k).1) (sig x)) (k + 1), allpoleEta (held updDelay (d, 44100) ev k).1⟩ := by
        show (allpoleTick 0 ((ev k).foldl (allpoleComp 0).on ((allpoleComp 0).st (allpoleNew d) ev x k)) (x k)).1 = _
        rw [ih, past_succ, past_succ, allpoleRef_eq]
        rfl
      rw [e, held_succ]
      exact hf _ _ _ _ _
  show (allpoleTick 0 ((ev k).foldl (allpoleComp 0).on ((allpoleComp 0).st (allpoleNew d) ev x k)) (x k)).2 0 = _
  rw [key k, allpoleRef_eq]
  rfl

def noStep (u : Unit) (_ : Ev) : Unit := u

/-- **C90, allpole with a delay input.** -/
theorem C90_allpole_input (d : ℝ) (ev : Nat → List Ev) (x : Nat → Frame ℝ 2) (k : Nat) :
    (allpoleComp 1).out (allpoleNew d) ev x k 0 = allpoleRef (fun k => x k 1) (sig x) k := by
  have := run_seen (allpoleComp 1) noStep (fun _ : PoleZero ℝ => ()) (fun s : PoleZero ℝ => (s.x1, s.y1)) (fun _ => True)
    (fun _ m x => (x 0, (1 - x 1) / (1 + x 1) * (x 0 - m.2) + m.1)) (fun _ m x _ => (1 - x 1) / (1 + x 1) * (x 0 - m.2) + m.1)
    (by
      intro s e h
      cases e with
      | rate sr => exact ⟨h, rfl, rfl⟩
      | set p => cases p <;> exact ⟨h, rfl, rfl⟩)
    (fun s x h => ⟨h, rfl, rfl, rfl⟩) (allpoleNew d) trivial ev x
    (fun k => (past 1 (sig x) k, past 1 (allpoleRef (fun k => x k 1) (sig x)) k))
    (by simp only [past_zero]; rfl) (fun k => by rw [past_succ, past_succ, allpoleRef_eq]; rfl) k
  rw [this, allpoleRef_eq]
  rfl

/-! ## Biquads -/

/-- Memory of a biquad with the coefficients `c`. -/
def biquadMem (c : Nat → BiquadCoefs ℝ) (x : Nat → ℝ) : Nat → BiquadSt ℝ
  | 0 => ⟨0, 0, 0, 0⟩
  | k + 1 => (biquadTick (c k) (biquadMem c x k) (x k)).1

theorem biquad_eq (c : Nat → BiquadCoefs ℝ) (x : Nat → ℝ) : BiquadEq c x (fun k => (biquadTick (c k) (biquadMem c x k) (x k)).2) := by
  have hm : ∀ k, biquadMem c x k = ⟨past 1 x k, past 2 x k, past 1 (fun k => (biquadTick (c k) (biquadMem c x k) (x k)).2) k,
      past 2 (fun k => (biquadTick (c k) (biquadMem c x k) (x k)).2) k⟩ := by
    intro k
    induction k with
    | zero => simp [past, biquadMem]
    | succ k ih =>
      rw [past_succ, past_two, past_succ, past_two]
      show (biquadTick (c k) (biquadMem c x k) (x k)).1 = _
      have h1 : (biquadMem c x k).x1 = past 1 x k := by rw [ih]
      have h2 : (biquadMem c x k).y1 = past 1 (fun k => (biquadTick (c k) (biquadMem c x k) (x k)).2) k := congrArg BiquadSt.y1 ih
      rw [← h1, ← h2]
      rfl
  intro k
  show (biquadTick (c k) (biquadMem c x k) (x k)).2 = _
  conv_lhs => rw [hm k]
  rfl

/-- **C90, biquad.** Coefficients are those of the constructor or the last setting. -/
theorem C90_biquad (c : BiquadCoefs ℝ) (ev : Nat → List Ev) (x : Nat → Frame ℝ 1) :
    BiquadEq (fun k => (held updBiquad (c, 44100) ev k).1) (sig x) (fun k => biquadComp.out (biquadNew c) ev x k 0) := by
  simp only [held_fst]
  have := run_seen biquadComp (setStep updBiquad) (fun s : BiquadFull => s.coefs) (fun s : BiquadFull => s.base) (fun _ => True)
    (fun c m x => (biquadTick c m (x 0)).1) (fun c m x _ => (biquadTick c m (x 0)).2)
    (by
      intro s e h
      cases e with
      | rate sr => exact ⟨h, rfl, rfl⟩
      | set p => cases p <;> exact ⟨h, rfl, rfl⟩)
    (fun s x h => ⟨h, rfl, rfl, rfl⟩) (biquadNew c) trivial ev x
    (biquadMem (fun k => seen (setStep updBiquad) c ev k) (sig x)) rfl (fun k => rfl)
  simp only [this]
  exact biquad_eq _ _

/-- **C90, Butterworth lowpass.** -/
theorem C90_butterpass (f : ℝ) (ev : Nat → List Ev) (x : Nat → Frame ℝ 1) :
    BiquadEq (fun k => butterLowpass (held updCenter (f, 44100) ev k).2 (held updCenter (f, 44100) ev k).1) (sig x)
      (fun k => (butterComp 0).out (butterNew f) ev x k 0) := by
  have := run_eq (butterComp 0) updCenter (fun s : ButterFull => (s.cutoff, s.sr)) (fun s : ButterFull => s.biquad.base)
    (fun s : ButterFull => s.biquad.coefs = butterLowpass s.sr s.cutoff)
    (fun p m x => (biquadTick (butterLowpass p.2 p.1) m (x 0)).1) (fun p m x _ => (biquadTick (butterLowpass p.2 p.1) m (x 0)).2)
    (by
      intro s e h
      cases e with
      | rate sr => exact ⟨rfl, rfl, rfl⟩
      | set p => cases p <;> first | exact ⟨rfl, rfl, rfl⟩ | exact ⟨h, rfl, rfl⟩)
    (by
      intro s x h
      refine ⟨h, rfl, ?_, ?_⟩
      · show (biquadTick s.biquad.coefs s.biquad.base (x 0)).1 = _
        rw [h]
      · funext _
        show (biquadTick s.biquad.coefs s.biquad.base (x 0)).2 = _
        rw [h])
    (butterNew f) rfl ev x
    (biquadMem (fun k => butterLowpass (held updCenter (f, 44100) ev k).2 (held updCenter (f, 44100) ev k).1) (sig x)) rfl (fun k => rfl)
  simp only [this]
  exact biquad_eq _ _

theorem butter_follow (s : ButterFull) (h : s.biquad.coefs = butterLowpass s.sr s.cutoff) (x : Frame ℝ 2) : s.follow 1 x = s.setCutoff (x 1) := by
  obtain ⟨⟨b, c⟩, sr, f⟩ := s
  simp only at h
  subst h
  unfold ButterFull.follow ButterFull.setCutoff
  by_cases hx : x 1 = f
  · subst hx; simp
  · simp [hx]

/-- **C90, Butterworth lowpass with a cutoff input.** -/
theorem C90_butterpass_input (f : ℝ) (ev : Nat → List Ev) (x : Nat → Frame ℝ 2) :
    BiquadEq (fun k => butterLowpass (rateAt 44100 ev k) (x k 1)) (sig x) (fun k => (butterComp 1).out (butterNew f) ev x k 0) := by
  simp only [rateAt_seen]
  have := run_seen (butterComp 1) rateStep (fun s : ButterFull => s.sr) (fun s : ButterFull => s.biquad.base)
    (fun s : ButterFull => s.biquad.coefs = butterLowpass s.sr s.cutoff)
    (fun r m x => (biquadTick (butterLowpass r (x 1)) m (x 0)).1) (fun r m x _ => (biquadTick (butterLowpass r (x 1)) m (x 0)).2)
    (by
      intro s e h
      cases e with
      | rate sr => exact ⟨rfl, rfl, rfl⟩
      | set p => cases p <;> first | exact ⟨rfl, rfl, rfl⟩ | exact ⟨h, rfl, rfl⟩)
    (by
      intro s x h
      have e : (butterComp 1).tick s x = (let t := s.setCutoff (x 1)
          let r := t.biquad.step (x 0)
          ({ t with biquad := r.1 }, fun _ => r.2)) := by
        rw [← butter_follow s h x]; rfl
      rw [e]
      exact ⟨rfl, rfl, rfl, rfl⟩)
    (butterNew f) rfl ev x
    (biquadMem (fun k => butterLowpass (seen rateStep 44100 ev k) (x k 1)) (sig x)) rfl (fun k => rfl)
  simp only [this]
  exact biquad_eq _ _

/-- **C90, resonator.** Sample rate changes take effect. Missing: the settings, see `C90_violation_resonator`. -/
theorem C90_resonator_partial (f q : ℝ) (ev : Nat → List Ev) (x : Nat → Frame ℝ 1) :
    BiquadEq (fun k => resonatorCoefs (rateAt 44100 ev k) f q) (sig x) (fun k => (resonatorComp 0).out (resonatorNew f q) ev x k 0) := by
  simp only [rateAt_seen]
  have := run_seen (resonatorComp 0) rateStep (fun s : ResonatorFull => s.sr) (fun s : ResonatorFull => s.biquad.base)
    (fun s : ResonatorFull => s.biquad.coefs = resonatorCoefs s.sr s.center s.q ∧ s.center = f ∧ s.q = q)
    (fun r m x => (biquadTick (resonatorCoefs r f q) m (x 0)).1) (fun r m x _ => (biquadTick (resonatorCoefs r f q) m (x 0)).2)
    (by
      intro s e h
      cases e with
      | rate sr => exact ⟨⟨rfl, h.2⟩, rfl, rfl⟩
      | set p => exact ⟨h, rfl, rfl⟩)
    (by
      intro s x h
      refine ⟨h, rfl, ?_, ?_⟩
      · show (biquadTick s.biquad.coefs s.biquad.base (x 0)).1 = _
        rw [h.1, h.2.1, h.2.2]
      · funext _
        show (biquadTick s.biquad.coefs s.biquad.base (x 0)).2 = _
        rw [h.1, h.2.1, h.2.2])
    (resonatorNew f q) ⟨rfl, rfl, rfl⟩ ev x
    (biquadMem (fun k => resonatorCoefs (seen rateStep 44100 ev k) f q) (sig x)) rfl (fun k => rfl)
  simp only [this]
  exact biquad_eq _ _

/-- **C90 is violated by the resonator**: the documented setting of center and bandwidth does nothing. The same settings move the resonant two-pole and Moog
filters. -/
theorem C90_violation_resonator : ∃ (f q f' q' : ℝ) (ev : Nat → List Ev) (x : Nat → Frame ℝ 1), ev = (fun k => if k = 0 then [.set (.centerQ f' q')] else []) ∧
    ¬ BiquadEq (fun k => resonatorCoefs (held updCenterQ ((f, q), 44100) ev k).2 (held updCenterQ ((f, q), 44100) ev k).1.1 (held updCenterQ ((f, q), 44100) ev k).1.2)
      (sig x) (fun k => (resonatorComp 0).out (resonatorNew f q) ev x k 0) := by
  refine ⟨440, 1, 880, 1, _, fun _ _ => 1, rfl, fun h => ?_⟩
  have h1 := C90_resonator_partial 440 1 (fun k => if k = 0 then [.set (.centerQ 880 1)] else []) (fun _ _ => 1)
  have a := h 0
  have b := h1 0
  have hh : held updCenterQ ((440, 1), 44100) (fun k => if k = 0 then [Ev.set (.centerQ 880 1)] else []) 0 = (((880 : ℝ), 1), 44100) := by
    rw [held_zero]; rfl
  have hr : rateAt 44100 (fun k => if k = 0 then [Ev.set (.centerQ 880 1)] else []) 0 = 44100 := by
    rw [rateAt_seen, seen_zero]; rfl
  rw [b] at a
  simp only [hh, hr, past, sig, resonatorCoefs] at a
  norm_num at a
  set r1 := Real.exp (-(Real.pi * 440) / 44100) with e1
  set r2 := Real.exp (-(Real.pi * 880) / 44100) with e2
  have hlt : r2 < r1 := Real.exp_lt_exp.2 (by have := Real.pi_pos; linarith)
  have h2 : 0 < r2 := Real.exp_pos _
  have hr1 : r1 < 1 := Real.exp_lt_one_iff.2 (by have := Real.pi_pos; linarith)
  have : √(1 - r1 * r1) < √(1 - r2 * r2) := Real.sqrt_lt_sqrt (by nlinarith) (by nlinarith)
  linarith

theorem resonator_follow (s : ResonatorFull) (h : s.biquad.coefs = resonatorCoefs s.sr s.center s.q) (x : Frame ℝ 3) :
    s.follow 2 x = s.setCenterQ (x 1) (x 2) := by
  obtain ⟨⟨b, c⟩, sr, f, q⟩ := s
  simp only at h
  subst h
  unfold ResonatorFull.follow ResonatorFull.setCenterQ
  by_cases hx : x 1 = f ∧ x 2 = q
  · obtain ⟨rfl, rfl⟩ := hx; simp
  · have : x 1 ≠ f ∨ x 2 ≠ q := by tauto
    simp [this]

/-- **C90, resonator with parameter inputs.** -/
theorem C90_resonator_input (f q : ℝ) (ev : Nat → List Ev) (x : Nat → Frame ℝ 3) :
    BiquadEq (fun k => resonatorCoefs (rateAt 44100 ev k) (x k 1) (x k 2)) (sig x) (fun k => (resonatorComp 2).out (resonatorNew f q) ev x k 0) := by
  simp only [rateAt_seen]
  have := run_seen (resonatorComp 2) rateStep (fun s : ResonatorFull => s.sr) (fun s : ResonatorFull => s.biquad.base)
    (fun s : ResonatorFull => s.biquad.coefs = resonatorCoefs s.sr s.center s.q)
    (fun r m x => (biquadTick (resonatorCoefs r (x 1) (x 2)) m (x 0)).1) (fun r m x _ => (biquadTick (resonatorCoefs r (x 1) (x 2)) m (x 0)).2)
    (by
      intro s e h
      cases e with
      | rate sr => exact ⟨rfl, rfl, rfl⟩
      | set p => exact ⟨h, rfl, rfl⟩)
    (by
      intro s x h
      have e : (resonatorComp 2).tick s x = (let t := s.setCenterQ (x 1) (x 2)
          let r := t.biquad.step (x 0)
          ({ t with biquad := r.1 }, fun _ => r.2)) := by
        rw [← resonator_follow s h x]; rfl
      rw [e]
      exact ⟨rfl, rfl, rfl, rfl⟩)
    (resonatorNew f q) rfl ev x
    (biquadMem (fun k => resonatorCoefs (seen rateStep 44100 ev k) (x k 1) (x k 2)) (sig x)) rfl (fun k => rfl)
  simp only [this]
  exact biquad_eq _ _

/-! ## Moog and resonant two-pole filters -/

/-- The ladder computed by `moogTick` satisfies the equations, with any sequence of coefficients. -/
theorem moog_eq (f q sr x : Nat → ℝ) (s : Nat → MoogSt)
    (h0 : (s 0).s0 = 0 ∧ (s 0).s1 = 0 ∧ (s 0).s2 = 0 ∧ (s 0).s3 = 0 ∧ (s 0).px = 0 ∧ (s 0).ps0 = 0 ∧ (s 0).ps1 = 0 ∧ (s 0).ps2 = 0)
    (hs : ∀ k, s (k + 1) = (moogTick (moogSet (sr k) (f k) (q k) (s k)) (x k)).1) :
    MoogEq f q sr x (fun k => (moogTick (moogSet (sr k) (f k) (q k) (s k)) (x k)).2) := by
  refine ⟨fun k => (s (k + 1)).px, fun k => (s (k + 1)).s0, fun k => (s (k + 1)).s1, fun k => (s (k + 1)).s2, ?_⟩
  have hp : ∀ (g : MoogSt → ℝ), g (s 0) = 0 → ∀ k, past 1 (fun k => g (s (k + 1))) k = g (s k) := by
    intro g hg k
    cases k with
    | zero => rw [past_zero, hg]
    | succ k => rw [past_succ]
  have hy : (fun k => (moogTick (moogSet (sr k) (f k) (q k) (s k)) (x k)).2) = fun k => (s (k + 1)).s3 := by
    funext k; rw [hs k]; rfl
  obtain ⟨a0, a1, a2, a3, ax, b0, b1, b2⟩ := h0
  have hprev : ∀ k, (s k).ps0 = (s k).s0 ∧ (s k).ps1 = (s k).s1 ∧ (s k).ps2 = (s k).s2 := by
    intro k
    cases k with
    | zero => rw [a0, a1, a2, b0, b1, b2]; exact ⟨rfl, rfl, rfl⟩
    | succ k => rw [hs k]; exact ⟨rfl, rfl, rfl⟩
  intro k
  rw [hy]
  simp only [hp MoogSt.px ax k, hp MoogSt.s0 a0 k, hp MoogSt.s1 a1 k, hp MoogSt.s2 a2 k, hp MoogSt.s3 a3 k]
  obtain ⟨p0, p1, p2⟩ := hprev k
  rw [← p0, ← p1, ← p2, hs k]
  simp only [moogTick, moogSet]
  have hh : 2 * f k / sr k * Real.pi * 0.5 = 2 * f k / sr k * Real.pi / 2 := by ring
  refine ⟨?_, ?_, ?_, ?_, ?_⟩
  · rw [sq]; ring
  · rw [hh, p0]
  · rw [hh, p1]
  · rw [hh, p2]
  · rw [hh]

/-- The memory of the ladder, without the coefficients. -/
def strip (s : MoogSt) : MoogSt := { s with rez := 0, p := 0, k := 0 }

def moogMem (f q sr x : Nat → ℝ) : Nat → MoogSt
  | 0 => ⟨0, 0, 0, 0, 0, 0, 0, 0, 0, 0, 0⟩
  | k + 1 => strip (moogTick (moogSet (sr k) (f k) (q k) (moogMem f q sr x k)) (x k)).1

theorem moogMem_eq (f q sr x : Nat → ℝ) : MoogEq f q sr x (fun k => (moogTick (moogSet (sr k) (f k) (q k) (moogMem f q sr x k)) (x k)).2) := by
  let s : Nat → MoogSt := fun k => Nat.rec ⟨0, 0, 0, 0, 0, 0, 0, 0, 0, 0, 0⟩ (fun k t => (moogTick (moogSet (sr k) (f k) (q k) t) (x k)).1) k
  have hs : ∀ k, strip (s k) = moogMem f q sr x k := by
    intro k
    induction k with
    | zero => rfl
    | succ k ih =>
      show strip (moogTick (moogSet (sr k) (f k) (q k) (s k)) (x k)).1 = strip (moogTick (moogSet (sr k) (f k) (q k) (moogMem f q sr x k)) (x k)).1
      rw [← ih]; rfl
  have h := moog_eq f q sr x s ⟨rfl, rfl, rfl, rfl, rfl, rfl, rfl, rfl⟩ (fun k => rfl)
  have e : (fun k => (moogTick (moogSet (sr k) (f k) (q k) (moogMem f q sr x k)) (x k)).2) = fun k => (moogTick (moogSet (sr k) (f k) (q k) (s k)) (x k)).2 := by
    funext k
    rw [← hs k]; rfl
  rw [e]
  exact h

/-- **C90, Moog filter.** -/
theorem C90_moog (f q : ℝ) (ev : Nat → List Ev) (x : Nat → Frame ℝ 1) :
    MoogEq (fun k => (held updCenterQ ((f, q), 44100) ev k).1.1) (fun k => (held updCenterQ ((f, q), 44100) ev k).1.2)
      (fun k => (held updCenterQ ((f, q), 44100) ev k).2) (sig x) (fun k => (moogComp 0).out (moogNew f q) ev x k 0) := by
  have := run_eq (moogComp 0) updCenterQ (fun s : MoogFull => ((s.cutoff, s.q), s.sr)) (fun s : MoogFull => strip s.base)
    (fun s : MoogFull => s.base = moogSet s.sr s.cutoff s.q (strip s.base))
    (fun p m x => strip (moogTick (moogSet p.2 p.1.1 p.1.2 m) (x 0)).1) (fun p m x _ => (moogTick (moogSet p.2 p.1.1 p.1.2 m) (x 0)).2)
    (by
      intro s e h
      cases e with
      | rate sr => exact ⟨rfl, rfl, rfl⟩
      | set p => cases p <;> first | exact ⟨rfl, rfl, rfl⟩ | exact ⟨h, rfl, rfl⟩)
    (by
      intro s x h
      refine ⟨?_, rfl, ?_, ?_⟩
      · show (moogTick s.base (x 0)).1 = moogSet s.sr s.cutoff s.q (strip (moogTick s.base (x 0)).1)
        rw [h]; rfl
      · show strip (moogTick s.base (x 0)).1 = _
        conv_lhs => rw [h]
      · funext _
        show (moogTick s.base (x 0)).2 = _
        conv_lhs => rw [h])
    (moogNew f q) rfl ev x
    (moogMem (fun k => (held updCenterQ ((f, q), 44100) ev k).1.1) (fun k => (held updCenterQ ((f, q), 44100) ev k).1.2)
      (fun k => (held updCenterQ ((f, q), 44100) ev k).2) (sig x)) rfl (fun k => rfl)
  simp only [this]
  exact moogMem_eq _ _ _ _

/-- **C90, Moog filter with parameter inputs.** -/
theorem C90_moog_input (f q : ℝ) (ev : Nat → List Ev) (x : Nat → Frame ℝ 3) :
    MoogEq (fun k => x k 1) (fun k => x k 2) (rateAt 44100 ev) (sig x) (fun k => (moogComp 2).out (moogNew f q) ev x k 0) := by
  have hr : rateAt 44100 ev = seen rateStep 44100 ev := funext (rateAt_seen _ _)
  rw [hr]
  have := run_seen (moogComp 2) rateStep (fun s : MoogFull => s.sr) (fun s : MoogFull => strip s.base) (fun _ => True)
    (fun r m x => strip (moogTick (moogSet r (x 1) (x 2) m) (x 0)).1) (fun r m x _ => (moogTick (moogSet r (x 1) (x 2) m) (x 0)).2)
    (by
      intro s e h
      cases e with
      | rate sr => exact ⟨h, rfl, rfl⟩
      | set p => cases p <;> exact ⟨h, rfl, rfl⟩)
    (fun s x h => ⟨h, rfl, rfl, rfl⟩)
    (moogNew f q) trivial ev x (moogMem (fun k => x k 1) (fun k => x k 2) (seen rateStep 44100 ev) (sig x)) rfl (fun k => rfl)
  simp only [this]
  exact moogMem_eq _ _ _ _

/-! The resonant two-pole filter. -/

/-- The two stages. -/
def rezNext (f q sr x : ℝ) (m : ℝ × ℝ) : ℝ × ℝ :=
  let g := 2 * Real.sin (Real.pi * f / sr)
  let a := m.1 + g * (x - m.1 + (q + q / (1 - g)) * Real.tanh (m.1 - m.2))
  (a, m.2 + g * (a - m.2))

def rezMem (f q sr x : Nat → ℝ) : Nat → ℝ × ℝ
  | 0 => (0, 0)
  | k + 1 => rezNext (f k) (q k) (sr k) (x k) (rezMem f q sr x k)

theorem rezMem_eq (bp : ℝ) (f q sr x y : Nat → ℝ) (hy : ∀ k, y k = (rezMem f q sr x (k + 1)).2 - bp * (rezMem f q sr x (k + 1)).1) : RezEq bp f q sr x y := by
  refine ⟨fun k => (rezMem f q sr x (k + 1)).1, fun k => (rezMem f q sr x (k + 1)).2, fun k => ?_⟩
  have h1 : past 1 (fun k => (rezMem f q sr x (k + 1)).1) k = (rezMem f q sr x k).1 := by
    cases k with
    | zero => rw [past_zero]; rfl
    | succ k => rw [past_succ]
  have h2 : past 1 (fun k => (rezMem f q sr x (k + 1)).2) k = (rezMem f q sr x k).2 := by
    cases k with
    | zero => rw [past_zero]; rfl
    | succ k => rw [past_succ]
  simp only [h1, h2, hy, and_true]
  exact ⟨rfl, rfl⟩

theorem rez_step (s : RezSt) (h : s.f = 2 * Real.sin (Real.pi * s.cutoff / s.sampleRate) ∧ s.fb = s.q + s.q / (1 - s.f)) (x : ℝ) :
    (s.step x).1 = { s with
      buf0 := s.buf0 + s.f * (x - s.buf0 + (s.q + s.q / (1 - s.f)) * Real.tanh (s.buf0 - s.buf1)),
      buf1 := s.buf1 + s.f * (s.buf0 + s.f * (x - s.buf0 + (s.q + s.q / (1 - s.f)) * Real.tanh (s.buf0 - s.buf1)) - s.buf1) } ∧
    (s.step x).2 = (s.step x).1.buf1 - s.bandpass * (s.step x).1.buf0 := by
  rw [← h.2]
  exact ⟨rfl, rfl⟩

/-- **C90, resonant two-pole filter.** -/
theorem C90_rez (bp f q : ℝ) (ev : Nat → List Ev) (x : Nat → Frame ℝ 1) :
    RezEq bp (fun k => (held updCenterQ ((f, q), 44100) ev k).1.1) (fun k => (held updCenterQ ((f, q), 44100) ev k).1.2)
      (fun k => (held updCenterQ ((f, q), 44100) ev k).2) (sig x) (fun k => rezComp1.out (rezNew bp f q) ev x k 0) := by
  have := run_eq rezComp1 updCenterQ (fun s : RezSt => ((s.cutoff, s.q), s.sampleRate)) (fun s : RezSt => (s.buf0, s.buf1))
    (fun s : RezSt => (s.f = 2 * Real.sin (Real.pi * s.cutoff / s.sampleRate) ∧ s.fb = s.q + s.q / (1 - s.f)) ∧ s.bandpass = bp)
    (fun p m x => rezNext p.1.1 p.1.2 p.2 (x 0) m) (fun p m x _ => (rezNext p.1.1 p.1.2 p.2 (x 0) m).2 - bp * (rezNext p.1.1 p.1.2 p.2 (x 0) m).1)
    (by
      intro s e h
      cases e with
      | rate sr => exact ⟨⟨⟨rfl, rfl⟩, h.2⟩, rfl, rfl⟩
      | set p => cases p <;> first | exact ⟨⟨⟨rfl, rfl⟩, h.2⟩, rfl, rfl⟩ | exact ⟨h, rfl, rfl⟩)
    (by
      intro s x h
      obtain ⟨h1, h2⟩ := rez_step s h.1 (x 0)
      have e1 : (rezComp1.tick s x).1 = (s.step (x 0)).1 := rfl
      have e2 : (rezComp1.tick s x).2 = fun _ => (s.step (x 0)).2 := rfl
      rw [e1, e2, h2, h1]
      refine ⟨h, rfl, ?_, ?_⟩
      · simp only [rezNext, ← h.1.1]
      · funext _
        simp only [rezNext, ← h.1.1, h.2])
    (rezNew bp f q) ⟨⟨rfl, rfl⟩, rfl⟩ ev x
    (rezMem (fun k => (held updCenterQ ((f, q), 44100) ev k).1.1) (fun k => (held updCenterQ ((f, q), 44100) ev k).1.2)
      (fun k => (held updCenterQ ((f, q), 44100) ev k).2) (sig x)) rfl (fun k => rfl)
  refine rezMem_eq _ _ _ _ _ _ fun k => ?_
  rw [this]
  rfl

/-- **C90, resonant two-pole filter with parameter inputs.** -/
theorem C90_rez_input (bp f q : ℝ) (ev : Nat → List Ev) (x : Nat → Frame ℝ 3) :
    RezEq bp (fun k => x k 1) (fun k => x k 2) (rateAt 44100 ev) (sig x) (fun k => rezComp3.out (rezNew bp f q) ev x k 0) := by
  have hr : rateAt 44100 ev = seen rateStep 44100 ev := funext (rateAt_seen _ _)
  rw [hr]
  have hf : ∀ (s : RezSt), (s.f = 2 * Real.sin (Real.pi * s.cutoff / s.sampleRate) ∧ s.fb = s.q + s.q / (1 - s.f)) → ∀ c q, s.follow c q = s.setCutoffQ c q := by
    intro s h c q
    obtain ⟨b0, b1, g, fb, c', q', sr, bp'⟩ := s
    simp only at h
    obtain ⟨rfl, rfl⟩ := h
    unfold RezSt.follow RezSt.setCutoffQ
    split
    · rfl
    · rename_i hn
      push Not at hn
      obtain ⟨rfl, rfl⟩ := hn
      rfl
  have := run_seen rezComp3 rateStep (fun s : RezSt => s.sampleRate) (fun s : RezSt => (s.buf0, s.buf1))
    (fun s : RezSt => (s.f = 2 * Real.sin (Real.pi * s.cutoff / s.sampleRate) ∧ s.fb = s.q + s.q / (1 - s.f)) ∧ s.bandpass = bp)
    (fun r m x => rezNext (x 1) (x 2) r (x 0) m) (fun r m x _ => (rezNext (x 1) (x 2) r (x 0) m).2 - bp * (rezNext (x 1) (x 2) r (x 0) m).1)
    (by
      intro s e h
      cases e with
      | rate sr => exact ⟨⟨⟨rfl, rfl⟩, h.2⟩, rfl, rfl⟩
      | set p => cases p <;> first | exact ⟨⟨⟨rfl, rfl⟩, h.2⟩, rfl, rfl⟩ | exact ⟨h, rfl, rfl⟩)
    (by
      intro s x h
      obtain ⟨h1, h2⟩ := rez_step (s.setCutoffQ (x 1) (x 2)) ⟨rfl, rfl⟩ (x 0)
      have e1 : (rezComp3.tick s x).1 = ((s.setCutoffQ (x 1) (x 2)).step (x 0)).1 := by
        rw [← hf s h.1]; rfl
      have e2 : (rezComp3.tick s x).2 = fun _ => ((s.setCutoffQ (x 1) (x 2)).step (x 0)).2 := by
        rw [← hf s h.1]; rfl
      rw [e1, e2, h2, h1]
      refine ⟨⟨⟨rfl, rfl⟩, h.2⟩, rfl, rfl, ?_⟩
      funext _
      rw [← h.2]
      rfl)
    (rezNew bp f q) ⟨⟨rfl, rfl⟩, rfl⟩ ev x
    (rezMem (fun k => x k 1) (fun k => x k 2) (seen rateStep 44100 ev) (sig x)) rfl (fun k => rfl)
  refine rezMem_eq _ _ _ _ _ _ fun k => ?_
  rw [this]
  rfl

/-! ## Panner -/

/-- The equal power gains of a pan value. -/
def panGain (v : ℝ) : Fin 2 → ℝ := ![Real.cos ((max (-1) (min 1 v) + 1) * Real.pi / 4), Real.sin ((max (-1) (min 1 v) + 1) * Real.pi / 4)]

theorem panGain_eq (v : ℝ) : panGain v = ![(Pan.PanSt.ofPan v).left, (Pan.PanSt.ofPan v).right] := by
  have h : min (max v (-1)) 1 = max (-1) (min 1 v) := by
    rw [max_comm, min_comm, max_min_distrib_left, max_eq_right (show (-1 : ℝ) ≤ 1 by norm_num)]
  have e : (Fundsp.Math.clamp11 v + 1) * (Real.pi * 0.25) = (max (-1) (min 1 v) + 1) * Real.pi / 4 := by
    rw [Fundsp.Math.clamp11, h]; ring
  unfold panGain Pan.PanSt.ofPan Pan.panWeights
  simp only [e]

/-- **C90, panner.** -/
theorem C90_pan (v : ℝ) (ev : Nat → List Ev) (x : Nat → Frame ℝ 1) (k : Nat) (c : Fin 2) :
    panComp1.out (Pan.PanSt.ofPan v) ev x k c = panGain (held updPan (v, 44100) ev k).1 c * x k 0 := by
  rw [held_fst]
  have hs : ∀ (l : List Ev) (v : ℝ), l.foldl panComp1.on (Pan.PanSt.ofPan v : Pan.PanSt) = Pan.PanSt.ofPan (l.foldl (setStep updPan) v) := by
    intro l
    induction l with
    | nil => intro v; rfl
    | cons e l ih =>
      intro v
      cases e with
      | rate sr => exact ih v
      | set p =>
        cases p with
        | pan w => exact ih w
        | _ => exact ih v
  have key : ∀ k, (ev k).foldl panComp1.on (panComp1.st (Pan.PanSt.ofPan v : Pan.PanSt) ev x k) = Pan.PanSt.ofPan (seen (setStep updPan) v ev k) := by
    intro k
    induction k with
    | zero => rw [seen_zero]; exact hs _ _
    | succ k ih =>
      rw [seen_succ, ← hs, ← ih]
      rfl
  have e : panComp1.out (Pan.PanSt.ofPan v : Pan.PanSt) ev x k = (panComp1.tick ((ev k).foldl panComp1.on (panComp1.st (Pan.PanSt.ofPan v : Pan.PanSt) ev x k)) (x k)).2 := rfl
  rw [e, key k, panGain_eq]
  fin_cases c <;> rfl

/-- **C90, panner with a pan input.** -/
theorem C90_pan_input (s : Pan.PanSt) (ev : Nat → List Ev) (x : Nat → Frame ℝ 2) (k : Nat) (c : Fin 2) :
    panComp2.out s ev x k c = panGain (x k 1) c * x k 0 := by
  rw [panGain_eq]
  fin_cases c <;> rfl

/-! ## Followers -/

theorem halfwayCoeff_lt (t : ℝ) : halfwayCoeff t < 1 := by
  unfold halfwayCoeff
  have h0 : 0 ≤ Real.log (max 1 t) := Real.log_nonneg (le_max_left _ _)
  have h1 : Real.exp (0 - (Real.log (max 1 t) - 0.861624594696583)) ≤ Real.exp 1 := Real.exp_le_exp.2 (by linarith)
  have h2 := Real.exp_one_lt_d9
  have h4 := Real.exp_pos (0 - (Real.log (max 1 t) - 0.861624594696583))
  have h3 : (1 : ℝ) / 4 ≤ logistic (Real.log (max 1 t) - 0.861624594696583) := by
    unfold logistic
    rw [div_le_div_iff₀ (by norm_num) (by linarith)]
    linarith
  have : 0 < min (0.9999999 : ℝ) (logistic (Real.log (max 1 t) - 0.861624594696583) * 1.13228543863477 - 0.1322853859) := lt_min (by norm_num) (by linarith)
  linarith

/-- **C90, follower.** The first sample is passed on whatever settings precede it; from then on the coefficient is that of the response time and sample rate in
force. -/
theorem C90_follow (t : ℝ) (ev : Nat → List Ev) (x : Nat → Frame ℝ 1) (k : Nat) :
    followComp.out (followNew t) ev x k 0
      = (followRef (fun k => halfwayCoeff ((held updTime (t, 44100) ev k).1 * (held updTime (t, 44100) ev k).2)) (sig x) k).2.2 := by
  have := run_eq followComp updTime (fun s : FollowFull => (s.time, s.sr)) (fun s : FollowFull => (s.base.v1, s.base.v2, s.base.v3, decide (s.base.coeffNow = 1)))
    (fun s : FollowFull => s.base.coeff = halfwayCoeff (s.time * s.sr) ∧ (s.base.coeffNow = 1 ∨ s.base.coeffNow = s.base.coeff))
    (fun p m x =>
      let c := if m.2.2.2 then 1 else halfwayCoeff (p.1 * p.2)
      let v1 := c * x 0 + (1 - c) * m.1
      let v2 := c * v1 + (1 - c) * m.2.1
      (v1, v2, c * v2 + (1 - c) * m.2.2.1, false))
    (fun p m x _ =>
      let c := if m.2.2.2 then 1 else halfwayCoeff (p.1 * p.2)
      let v1 := c * x 0 + (1 - c) * m.1
      let v2 := c * v1 + (1 - c) * m.2.1
      c * v2 + (1 - c) * m.2.2.1)
    (by
      have hset : ∀ (s : FollowFull) (t : ℝ), (s.base.coeffNow = 1 ∨ s.base.coeffNow < 1) →
          ((s.setTime t).base.coeff = halfwayCoeff ((s.setTime t).time * (s.setTime t).sr) ∧
            ((s.setTime t).base.coeffNow = 1 ∨ (s.setTime t).base.coeffNow = (s.setTime t).base.coeff)) ∧
          ((s.setTime t).base.v1, (s.setTime t).base.v2, (s.setTime t).base.v3, decide ((s.setTime t).base.coeffNow = 1))
            = (s.base.v1, s.base.v2, s.base.v3, decide (s.base.coeffNow = 1)) := by
        intro s t h
        have hlt := halfwayCoeff_lt (t * s.sr)
        rcases h with h | h
        · have e : (s.setTime t).base.coeffNow = 1 := by
            show (if s.base.coeffNow < 1 then _ else s.base.coeffNow) = 1
            rw [if_neg (by rw [h]; exact lt_irrefl _), h]
          rw [e, h]
          exact ⟨⟨rfl, Or.inl rfl⟩, rfl⟩
        · have e : (s.setTime t).base.coeffNow = halfwayCoeff (t * s.sr) := by
            show (if s.base.coeffNow < 1 then _ else s.base.coeffNow) = _
            rw [if_pos h]
          rw [e]
          refine ⟨⟨rfl, Or.inr rfl⟩, ?_⟩
          rw [decide_eq_false (ne_of_lt hlt), decide_eq_false (ne_of_lt h)]
          rfl
      intro s e h
      have hl : s.base.coeffNow = 1 ∨ s.base.coeffNow < 1 := by
        rcases h.2 with h2 | h2
        · exact Or.inl h2
        · right; rw [h2, h.1]; exact halfwayCoeff_lt _
      cases e with
      | rate sr =>
        have := hset { s with sr := sr } s.time hl
        exact ⟨this.1, rfl, this.2⟩
      | set p =>
        cases p with
        | time t =>
          have := hset s t hl
          exact ⟨this.1, rfl, this.2⟩
        | _ => exact ⟨h, rfl, rfl⟩)
    (by
      intro s x h
      have hc : (if decide (s.base.coeffNow = 1) = true then 1 else halfwayCoeff (s.time * s.sr)) = s.base.coeffNow := by
        by_cases h1 : s.base.coeffNow = 1
        · rw [if_pos (by simpa using h1), h1]
        · rw [if_neg (by simpa using h1), ← h.1]
          exact ((h.2.resolve_left h1)).symm
      refine ⟨⟨h.1, Or.inr rfl⟩, rfl, ?_, ?_⟩
      · simp only [hc]
        have hne : s.base.coeff ≠ 1 := by rw [h.1]; exact ne_of_lt (halfwayCoeff_lt _)
        show (_, _, _, decide (s.base.coeff = 1)) = _
        rw [decide_eq_false hne]
        rfl
      · funext _
        simp only [hc]
        rfl)
    (followNew t)
    (by
      refine ⟨rfl, Or.inl ?_⟩
      show (if (1 : ℝ) < 1 then _ else (1 : ℝ)) = 1
      rw [if_neg (lt_irrefl _)]) ev x
    (fun k => match k with
      | 0 => (0, 0, 0, true)
      | k + 1 =>
        let v := followRef (fun k => halfwayCoeff ((held updTime (t, 44100) ev k).1 * (held updTime (t, 44100) ev k).2)) (sig x) k
        (v.1, v.2.1, v.2.2, false))
    (by
      show _ = ((0 : ℝ), (0 : ℝ), (0 : ℝ), decide ((if (1 : ℝ) < 1 then _ else (1 : ℝ)) = 1))
      rw [if_neg (lt_irrefl _), decide_eq_true rfl])
    (fun k => by
      cases k with
      | zero => simp [followRef, sig]
      | succ k =>
        simp only [followRef, sig]
        have e : ∀ c a b : ℝ, b + c * (a - b) = c * a + (1 - c) * b := fun c a b => by ring
        simp only [e]
        rfl) k
  rw [this]
  cases k with
  | zero => simp [followRef, sig]
  | succ k =>
    simp only [followRef, sig]
    have e : ∀ c a b : ℝ, b + c * (a - b) = c * a + (1 - c) * b := fun c a b => by ring
    simp only [e]
    rfl

theorem filterPole_toward (a r x y : ℝ) : filterPole x y a r = toward a r x y := by
  unfold filterPole toward
  split
  · rename_i h
    rw [max_eq_right (by linarith), max_eq_left (by linarith)]; ring
  · rename_i h
    rw [max_eq_left (by linarith), max_eq_right (by linarith)]; ring

theorem toward_one (x y : ℝ) : toward 1 1 x y = x := by
  unfold toward
  split <;> ring

/-- **C90, follower with attack and release.** -/
theorem C90_afollow (a r : ℝ) (ev : Nat → List Ev) (x : Nat → Frame ℝ 1) (k : Nat) :
    afollowComp.out (afollowNew a r) ev x k 0
      = (afollowRef (fun k => halfwayCoeff ((held updTimes ((a, r), 44100) ev k).1.1 * (held updTimes ((a, r), 44100) ev k).2))
          (fun k => halfwayCoeff ((held updTimes ((a, r), 44100) ev k).1.2 * (held updTimes ((a, r), 44100) ev k).2)) (sig x) k).2.2 := by
  have := run_eq afollowComp updTimes (fun s : AFollowFull => ((s.atime, s.rtime), s.sr))
    (fun s : AFollowFull => (s.base.v1, s.base.v2, s.base.v3, decide (s.base.acoeffNow = 1)))
    (fun s : AFollowFull => (s.base.acoeff = halfwayCoeff (s.atime * s.sr) ∧ s.base.rcoeff = halfwayCoeff (s.rtime * s.sr)) ∧
      ((s.base.acoeffNow = 1 ∧ s.base.rcoeffNow = 1) ∨ (s.base.acoeffNow = s.base.acoeff ∧ s.base.rcoeffNow = s.base.rcoeff)))
    (fun p m x =>
      let a := if m.2.2.2 then 1 else halfwayCoeff (p.1.1 * p.2)
      let r := if m.2.2.2 then 1 else halfwayCoeff (p.1.2 * p.2)
      let v1 := toward a r (x 0) m.1
      let v2 := toward a r v1 m.2.1
      (v1, v2, toward a r v2 m.2.2.1, false))
    (fun p m x _ =>
      let a := if m.2.2.2 then 1 else halfwayCoeff (p.1.1 * p.2)
      let r := if m.2.2.2 then 1 else halfwayCoeff (p.1.2 * p.2)
      let v1 := toward a r (x 0) m.1
      let v2 := toward a r v1 m.2.1
      toward a r v2 m.2.2.1)
    (by
      have hset : ∀ (s : AFollowFull) (a r : ℝ), ((s.base.acoeffNow = 1 ∧ s.base.rcoeffNow = 1) ∨ s.base.acoeffNow < 1) →
          (((s.setTime a r).base.acoeff = halfwayCoeff ((s.setTime a r).atime * (s.setTime a r).sr) ∧
            (s.setTime a r).base.rcoeff = halfwayCoeff ((s.setTime a r).rtime * (s.setTime a r).sr)) ∧
            (((s.setTime a r).base.acoeffNow = 1 ∧ (s.setTime a r).base.rcoeffNow = 1) ∨
              ((s.setTime a r).base.acoeffNow = (s.setTime a r).base.acoeff ∧ (s.setTime a r).base.rcoeffNow = (s.setTime a r).base.rcoeff))) ∧
          ((s.setTime a r).base.v1, (s.setTime a r).base.v2, (s.setTime a r).base.v3, decide ((s.setTime a r).base.acoeffNow = 1))
            = (s.base.v1, s.base.v2, s.base.v3, decide (s.base.acoeffNow = 1)) := by
        intro s a r h
        have hlt := halfwayCoeff_lt (a * s.sr)
        rcases h with ⟨h, h'⟩ | h
        · have e : (s.setTime a r).base.acoeffNow = 1 := by
            show (if s.base.acoeffNow < 1 then _ else s.base.acoeffNow) = 1
            rw [if_neg (by rw [h]; exact lt_irrefl _), h]
          have e' : (s.setTime a r).base.rcoeffNow = 1 := by
            show (if s.base.acoeffNow < 1 then _ else s.base.rcoeffNow) = 1
            rw [if_neg (by rw [h]; exact lt_irrefl _), h']
          rw [e, e', h]
          exact ⟨⟨⟨rfl, rfl⟩, Or.inl ⟨rfl, rfl⟩⟩, rfl⟩
        · have e : (s.setTime a r).base.acoeffNow = halfwayCoeff (a * s.sr) := by
            show (if s.base.acoeffNow < 1 then _ else s.base.acoeffNow) = _
            rw [if_pos h]
          have e' : (s.setTime a r).base.rcoeffNow = halfwayCoeff (r * s.sr) := by
            show (if s.base.acoeffNow < 1 then _ else s.base.rcoeffNow) = _
            rw [if_pos h]
          rw [e, e']
          refine ⟨⟨⟨rfl, rfl⟩, Or.inr ⟨rfl, rfl⟩⟩, ?_⟩
          rw [decide_eq_false (ne_of_lt hlt), decide_eq_false (ne_of_lt h)]
          rfl
      intro s e h
      have hl : (s.base.acoeffNow = 1 ∧ s.base.rcoeffNow = 1) ∨ s.base.acoeffNow < 1 := by
        rcases h.2 with h2 | h2
        · exact Or.inl h2
        · right; rw [h2.1, h.1.1]; exact halfwayCoeff_lt _
      cases e with
      | rate sr =>
        have := hset { s with sr := sr } s.atime s.rtime hl
        exact ⟨this.1, rfl, this.2⟩
      | set p =>
        cases p with
        | attackRelease a r =>
          have := hset s a r hl
          exact ⟨this.1, rfl, this.2⟩
        | _ => exact ⟨h, rfl, rfl⟩)
    (by
      intro s x h
      have hc : (if decide (s.base.acoeffNow = 1) = true then 1 else halfwayCoeff (s.atime * s.sr)) = s.base.acoeffNow ∧
          (if decide (s.base.acoeffNow = 1) = true then 1 else halfwayCoeff (s.rtime * s.sr)) = s.base.rcoeffNow := by
        have hlt := halfwayCoeff_lt (s.atime * s.sr)
        rcases h.2 with ⟨h1, h2⟩ | ⟨h1, h2⟩
        · rw [h1, h2]; simp
        · have : s.base.acoeffNow ≠ 1 := by rw [h1, h.1.1]; exact ne_of_lt hlt
          rw [if_neg (by simpa using this), if_neg (by simpa using this), h1, h2, h.1.1, h.1.2]
          exact ⟨rfl, rfl⟩
      refine ⟨⟨h.1, Or.inr ⟨rfl, rfl⟩⟩, rfl, ?_, ?_⟩
      · simp only [hc.1, hc.2, ← filterPole_toward]
        have hne : s.base.acoeff ≠ 1 := by rw [h.1.1]; exact ne_of_lt (halfwayCoeff_lt _)
        show (_, _, _, decide (s.base.acoeff = 1)) = _
        rw [decide_eq_false hne]
        rfl
      · funext _
        simp only [hc.1, hc.2, ← filterPole_toward]
        rfl)
    (afollowNew a r)
    (by
      refine ⟨⟨rfl, rfl⟩, Or.inl ⟨?_, ?_⟩⟩
      · show (if (1 : ℝ) < 1 then _ else (1 : ℝ)) = 1
        rw [if_neg (lt_irrefl _)]
      · show (if (1 : ℝ) < 1 then _ else (1 : ℝ)) = 1
        rw [if_neg (lt_irrefl _)]) ev x
    (fun k => match k with
      | 0 => (0, 0, 0, true)
      | k + 1 =>
        let v := afollowRef (fun k => halfwayCoeff ((held updTimes ((a, r), 44100) ev k).1.1 * (held updTimes ((a, r), 44100) ev k).2))
          (fun k => halfwayCoeff ((held updTimes ((a, r), 44100) ev k).1.2 * (held updTimes ((a, r), 44100) ev k).2)) (sig x) k
        (v.1, v.2.1, v.2.2, false))
    (by
      show _ = ((0 : ℝ), (0 : ℝ), (0 : ℝ), decide ((if (1 : ℝ) < 1 then _ else (1 : ℝ)) = 1))
      rw [if_neg (lt_irrefl _), decide_eq_true rfl])
    (fun k => by
      cases k with
      | zero => simp [afollowRef, sig, toward_one]
      | succ k => simp only [afollowRef, sig]; rfl) k
  rw [this]
  cases k with
  | zero => simp [afollowRef, sig, toward_one]
  | succ k => simp only [afollowRef, sig]; rfl

/-! ## Constant, oscillator and nested allpass -/

/-- **C90, constant.** The output is the frame of the constructor until a value is set, then that value on all channels. -/
theorem C90_constant {n : Nat} (v : Frame ℝ n) (ev : Nat → List Ev) (x : Nat → Frame ℝ 0) (k : Nat) :
    (constComp n).out v ev x k = (held (fun v p => match p with | .value a => fun _ => a | _ => v) (v, 44100) ev k).1 := by
  rw [held_fst]
  exact run_seen (constComp n) (setStep (fun v p => match p with | .value a => fun _ => a | _ => v)) (fun s : Frame ℝ n => s) (fun _ => ()) (fun _ => True)
    (fun _ _ _ => ()) (fun v _ _ => v)
    (by
      intro s e h
      cases e with
      | rate sr => exact ⟨h, rfl, rfl⟩
      | set p => cases p <;> exact ⟨h, rfl, rfl⟩)
    (fun s x h => ⟨h, rfl, rfl, rfl⟩) v trivial ev x (fun _ => ()) rfl (fun _ => rfl) k

/-- A unit that turns an input into a setting before each sample. -/
theorem input_as_setting {n m o : Nat} (S : Type) (set : S → Par → S) (rate : S → ℝ → S) (t2 : S → Frame ℝ n → S × Frame ℝ o) (t1 : S → Frame ℝ m → S × Frame ℝ o)
    (g : Frame ℝ n → Par) (f : Frame ℝ n → Frame ℝ m) (h : ∀ s x, t2 s x = t1 (set s (g x)) (f x)) (s : S) (ev : Nat → List Ev) (x : Nat → Frame ℝ n) (k : Nat) :
    Comp.out ⟨S, set, rate, t2⟩ s ev x k = Comp.out ⟨S, set, rate, t1⟩ s (fun k => ev k ++ [Ev.set (g (x k))]) (fun k => f (x k)) k := by
  have hon : ∀ (s : S) (e : Ev), Comp.on ⟨S, set, rate, t2⟩ s e = Comp.on ⟨S, set, rate, t1⟩ s e := fun s e => by cases e <;> rfl
  have hfold : ∀ (l : List Ev) (s : S), l.foldl (Comp.on ⟨S, set, rate, t2⟩) s = l.foldl (Comp.on ⟨S, set, rate, t1⟩) s := by
    intro l
    induction l with
    | nil => intro s; rfl
    | cons e l ih => intro s; exact (ih _).trans (congrArg (fun s => l.foldl (Comp.on ⟨S, set, rate, t1⟩) s) (hon s e))
  have hstep : ∀ (k : Nat) (s : S), t2 ((ev k).foldl (Comp.on ⟨S, set, rate, t2⟩) s) (x k)
      = t1 ((ev k ++ [Ev.set (g (x k))]).foldl (Comp.on ⟨S, set, rate, t1⟩) s) (f (x k)) := by
    intro k s
    rw [List.foldl_append, h, hfold]
    rfl
  have hst : ∀ k, Comp.st ⟨S, set, rate, t2⟩ s ev x k = Comp.st ⟨S, set, rate, t1⟩ s (fun k => ev k ++ [Ev.set (g (x k))]) (fun k => f (x k)) k := by
    intro k
    induction k with
    | zero => rfl
    | succ k ih => exact (congrArg Prod.fst (hstep k _)).trans (congrArg (fun s => (t1 ((ev k ++ [Ev.set (g (x k))]).foldl (Comp.on ⟨S, set, rate, t1⟩) s) (f (x k))).1) ih)
  exact (congrArg Prod.snd (hstep k _)).trans (congrArg (fun s => (t1 ((ev k ++ [Ev.set (g (x k))]).foldl (Comp.on ⟨S, set, rate, t1⟩) s) (f (x k))).2) (hst k))

/-- **C90, DSF oscillator.** The roughness input acts like a setting before every sample. -/
theorem C90_dsf_input (rnd : BitVec 64 → ℝ) (s : Osc.DsfSt) (ev : Nat → List Ev) (x : Nat → Frame ℝ 2) (k : Nat) :
    (dsfComp2 rnd).out s ev x k = (dsfComp1 rnd).out s (fun k => ev k ++ [Ev.set (.roughness (x k 1))]) (fun k _ => x k 0) k :=
  input_as_setting Osc.DsfSt (dsfComp1 rnd).set (dsfComp1 rnd).rate (dsfComp2 rnd).tick (dsfComp1 rnd).tick (fun x => .roughness (x 1)) (fun x _ => x 0)
    (fun _ _ => rfl) s ev x k

/-- **C90, DSF oscillator.** The constructor's roughness is that of a setting made before the first sample. -/
theorem C90_dsf_new (rnd : BitVec 64 → ℝ) (spacing r r' : ℝ) : (dsfComp1 rnd).set (Osc.DsfSt.new rnd spacing r') (.roughness r) = Osc.DsfSt.new rnd spacing r := rfl

/-- The events a nested unit is told about: changes of sample rate. -/
def rates (ev : Nat → List Ev) (k : Nat) : List Ev := (ev k).filter fun e => match e with | .rate _ => true | .set _ => false

theorem allnest_fold (X : Comp 1 1) (n : Nat) (l : List Ev) (s : AllNestSt X.node) :
    l.foldl (allnestComp X n).on s = (⟨(l.filter fun e => match e with | .rate _ => true | .set _ => false).foldl X.on s.x,
      l.foldl (setStep updCoefficient) s.eta, s.z⟩ : AllNestSt X.node) := by
  induction l generalizing s with
  | nil => rfl
  | cons e l ih =>
    cases e with
    | rate sr => exact ih _
    | set p => cases p <;> exact ih _

/-- **C90, nested allpass.** -/
theorem C90_allnest (X : Comp 1 1) (c : ℝ) (x0 : X.σ) (ev : Nat → List Ev) (x : Nat → Frame ℝ 1) :
    ∃ v z : Nat → ℝ, z 0 = 0 ∧ ∀ k, v k = x k 0 - (held updCoefficient (c, 44100) ev k).1 * z k ∧
      (allnestComp X 0).out (allnestNew X c x0) ev x k 0 = (held updCoefficient (c, 44100) ev k).1 * v k + z k ∧
      z (k + 1) = X.out x0 (rates ev) (fun k _ => v k) k 0 := by
  obtain ⟨S, hS⟩ : ∃ S : Nat → AllNestSt X.node, S = (allnestComp X 0).st (allnestNew X c x0) ev x := ⟨_, rfl⟩
  obtain ⟨η, hη⟩ : ∃ η : Nat → ℝ, η = fun k => (held updCoefficient (c, 44100) ev k).1 := ⟨_, rfl⟩
  have h0 : S 0 = ⟨x0, c, 0⟩ := by rw [hS]; rfl
  have hf : ∀ k, (ev k).foldl (allnestComp X 0).on (S k) = (⟨(rates ev k).foldl X.on (S k).x, (ev k).foldl (setStep updCoefficient) (S k).eta, (S k).z⟩ : AllNestSt X.node) :=
    fun k => allnest_fold X 0 (ev k) (S k)
  have hs : ∀ k, S (k + 1) = (allnestTick X.node 0 ⟨(rates ev k).foldl X.on (S k).x, (ev k).foldl (setStep updCoefficient) (S k).eta, (S k).z⟩ (x k)).1 := fun k => by
    have : S (k + 1) = ((allnestComp X 0).tick ((ev k).foldl (allnestComp X 0).on (S k)) (x k)).1 := by rw [hS]; rfl
    exact this.trans (congrArg (fun s => ((allnestComp X 0).tick s (x k)).1) (hf k))
  have ho : ∀ k, (allnestComp X 0).out (allnestNew X c x0) ev x k
      = (allnestTick X.node 0 ⟨(rates ev k).foldl X.on (S k).x, (ev k).foldl (setStep updCoefficient) (S k).eta, (S k).z⟩ (x k)).2 := fun k => by
    have : (allnestComp X 0).out (allnestNew X c x0) ev x k = ((allnestComp X 0).tick ((ev k).foldl (allnestComp X 0).on (S k)) (x k)).2 := by rw [hS]; rfl
    exact this.trans (congrArg (fun s => ((allnestComp X 0).tick s (x k)).2) (hf k))
  have hη0 : ∀ k, (ev k).foldl (setStep updCoefficient) (S k).eta = η k := by
    have hst : ∀ k, (S (k + 1)).eta = (ev k).foldl (setStep updCoefficient) (S k).eta := fun k => by rw [hs]; rfl
    intro k
    rw [hη]
    simp only [held_fst]
    induction k with
    | zero => rw [seen_zero, h0]
    | succ k ih => rw [seen_succ, hst, ih]
  have hst : ∀ k, S (k + 1) = ⟨(X.tick ((rates ev k).foldl X.on (S k).x) (fun _ => x k 0 - η k * (S k).z)).1, η k,
      (X.tick ((rates ev k).foldl X.on (S k).x) (fun _ => x k 0 - η k * (S k).z)).2 0⟩ := fun k => by
    rw [hs, hη0]; rfl
  refine ⟨fun k => x k 0 - η k * (S k).z, fun k => (S k).z, congrArg (fun s => s.z) h0, fun k => ?_⟩
  have hx : ∀ k, (S k).x = X.st x0 (rates ev) (fun k _ => x k 0 - η k * (S k).z) k := by
    intro k
    induction k with
    | zero => rw [h0]; rfl
    | succ k ih => rw [hst, ih]; rfl
  refine ⟨by rw [hη], ?_, ?_⟩
  · rw [ho, hη0, hη]; rfl
  · show (S (k + 1)).z = _
    rw [hst, hx]; rfl

/-- **C90, nested allpass** with coefficient input. -/
theorem C90_allnest_input (X : Comp 1 1) (c : ℝ) (x0 : X.σ) (ev : Nat → List Ev) (x : Nat → Frame ℝ 2) :
    ∃ v z : Nat → ℝ, z 0 = 0 ∧ ∀ k, v k = x k 0 - x k 1 * z k ∧
      (allnestComp X 1).out (allnestNew X c x0) ev x k 0 = x k 1 * v k + z k ∧
      z (k + 1) = X.out x0 (rates ev) (fun k _ => v k) k 0 := by
  obtain ⟨S, hS⟩ : ∃ S : Nat → AllNestSt X.node, S = (allnestComp X 1).st (allnestNew X c x0) ev x := ⟨_, rfl⟩
  have h0 : S 0 = ⟨x0, c, 0⟩ := by rw [hS]; rfl
  have hf : ∀ k, (ev k).foldl (allnestComp X 1).on (S k) = (⟨(rates ev k).foldl X.on (S k).x, (ev k).foldl (setStep updCoefficient) (S k).eta, (S k).z⟩ : AllNestSt X.node) :=
    fun k => allnest_fold X 1 (ev k) (S k)
  have hs : ∀ k, S (k + 1) = (allnestTick X.node 1 ⟨(rates ev k).foldl X.on (S k).x, (ev k).foldl (setStep updCoefficient) (S k).eta, (S k).z⟩ (x k)).1 := fun k => by
    have : S (k + 1) = ((allnestComp X 1).tick ((ev k).foldl (allnestComp X 1).on (S k)) (x k)).1 := by rw [hS]; rfl
    exact this.trans (congrArg (fun s => ((allnestComp X 1).tick s (x k)).1) (hf k))
  have ho : ∀ k, (allnestComp X 1).out (allnestNew X c x0) ev x k
      = (allnestTick X.node 1 ⟨(rates ev k).foldl X.on (S k).x, (ev k).foldl (setStep updCoefficient) (S k).eta, (S k).z⟩ (x k)).2 := fun k => by
    have : (allnestComp X 1).out (allnestNew X c x0) ev x k = ((allnestComp X 1).tick ((ev k).foldl (allnestComp X 1).on (S k)) (x k)).2 := by rw [hS]; rfl
    exact this.trans (congrArg (fun s => ((allnestComp X 1).tick s (x k)).2) (hf k))
  have hst : ∀ k, S (k + 1) = ⟨(X.tick ((rates ev k).foldl X.on (S k).x) (fun _ => x k 0 - x k 1 * (S k).z)).1, x k 1,
      (X.tick ((rates ev k).foldl X.on (S k).x) (fun _ => x k 0 - x k 1 * (S k).z)).2 0⟩ := fun k => by
    rw [hs]; rfl
  refine ⟨fun k => x k 0 - x k 1 * (S k).z, fun k => (S k).z, congrArg (fun s => s.z) h0, fun k => ?_⟩
  have hx : ∀ k, (S k).x = X.st x0 (rates ev) (fun k _ => x k 0 - x k 1 * (S k).z) k := by
    intro k
    induction k with
    | zero => rw [h0]; rfl
    | succ k ih => rw [hst, ih]; rfl
  refine ⟨rfl, ?_, ?_⟩
  · rw [ho]; rfl
  · show (S (k + 1)).z = _
    rw [hst, hx]; rfl

/-! ## A constant at a parameter input is as good as the constructor argument -/

/-- No settings are made, only the sample rate changes. -/
def OnlyRates (ev : Nat → List Ev) : Prop := ∀ k, ∀ e ∈ ev k, ∃ sr, e = .rate sr

theorem held_onlyRates {P : Type} (upd : P → Par → P) (p : P) (sr : ℝ) {ev : Nat → List Ev} (h : OnlyRates ev) (k : Nat) :
    held upd (p, sr) ev k = (p, rateAt sr ev k) :=
  Prod.ext (held_const upd (p, sr) ev (fun k e he v hv => by obtain ⟨r, hr⟩ := h k e he; rw [hr] at hv; cases hv) k) (rateAt_eq upd (p, sr) ev k)

/-- **C90.** The lowpole, highpole and allpole filters with a constant at the parameter input are those made with that parameter. -/
theorem C90_constant_input_first (f f' : ℝ) {ev : Nat → List Ev} (h : OnlyRates ev) (x : Nat → ℝ) (k : Nat) :
    (lowpoleComp 1).out (lowpoleNew f') ev (fun k => ![x k, f]) k 0 = (lowpoleComp 0).out (lowpoleNew f) ev (fun k _ => x k) k 0 ∧
    (highpoleComp 1).out (highpoleNew f') ev (fun k => ![x k, f]) k 0 = (highpoleComp 0).out (highpoleNew f) ev (fun k _ => x k) k 0 ∧
    (allpoleComp 1).out (allpoleNew f') ev (fun k => ![x k, f]) k 0 = (allpoleComp 0).out (allpoleNew f) ev (fun k _ => x k) k 0 := by
  refine ⟨?_, ?_, ?_⟩
  · rw [C90_lowpole, C90_lowpole_input]; simp only [held_onlyRates _ _ _ h]; rfl
  · rw [C90_highpole, C90_highpole_input]; simp only [held_onlyRates _ _ _ h]; rfl
  · rw [C90_allpole, C90_allpole_input]; simp only [held_onlyRates _ _ _ h]; rfl

/-- **C90.** The Butterworth filter and the resonator with constants at the parameter inputs are those made with these parameters. -/
theorem C90_constant_input_biquad (f q f' q' : ℝ) {ev : Nat → List Ev} (h : OnlyRates ev) (x : Nat → ℝ) (k : Nat) :
    (butterComp 1).out (butterNew f') ev (fun k => ![x k, f]) k 0 = (butterComp 0).out (butterNew f) ev (fun k _ => x k) k 0 ∧
    (resonatorComp 2).out (resonatorNew f' q') ev (fun k => ![x k, f, q]) k 0 = (resonatorComp 0).out (resonatorNew f q) ev (fun k _ => x k) k 0 := by
  constructor
  · have h1 := C90_butterpass_input f' ev (fun k => ![x k, f])
    have h2 := C90_butterpass f ev (fun k _ => x k)
    simp only [held_onlyRates _ _ _ h] at h2
    exact congrFun (h1.unique h2) k
  · have h1 := C90_resonator_input f' q' ev (fun k => ![x k, f, q])
    have h2 := C90_resonator_partial f q ev (fun k _ => x k)
    exact congrFun (h1.unique h2) k

theorem past_congr {a b : Nat → ℝ} {k : Nat} (h : ∀ j, j < k → a j = b j) : past 1 a k = past 1 b k := by
  unfold past
  split
  · exact h _ (by omega)
  · rfl

theorem moogEq_unique {f q sr x y z : Nat → ℝ} (hy : MoogEq f q sr x y) (hz : MoogEq f q sr x z) : y = z := by
  obtain ⟨u, a, b, c, h⟩ := hy
  obtain ⟨u', a', b', c', h'⟩ := hz
  have key : ∀ k, u k = u' k ∧ a k = a' k ∧ b k = b' k ∧ c k = c' k ∧ y k = z k := by
    intro k
    induction k using Nat.strong_induction_on with
    | _ k ih =>
      have pu := past_congr fun j hj => (ih j hj).1
      have pa := past_congr fun j hj => (ih j hj).2.1
      have pb := past_congr fun j hj => (ih j hj).2.2.1
      have pc := past_congr fun j hj => (ih j hj).2.2.2.1
      have py := past_congr fun j hj => (ih j hj).2.2.2.2
      obtain ⟨h1, h2, h3, h4, h5⟩ := h k
      obtain ⟨g1, g2, g3, g4, g5⟩ := h' k
      have e1 : u k = u' k := by rw [h1, g1, py]
      have e2 : a k = a' k := by rw [h2, g2, e1, pu, pa]
      have e3 : b k = b' k := by rw [h3, g3, e2, pa, pb]
      have e4 : c k = c' k := by rw [h4, g4, e3, pb, pc]
      exact ⟨e1, e2, e3, e4, by rw [h5, g5, e4, pc, py]⟩
  exact funext fun k => (key k).2.2.2.2

theorem rezEq_unique {bp : ℝ} {f q sr x y z : Nat → ℝ} (hy : RezEq bp f q sr x y) (hz : RezEq bp f q sr x z) : y = z := by
  obtain ⟨a, b, h⟩ := hy
  obtain ⟨a', b', h'⟩ := hz
  have key : ∀ k, a k = a' k ∧ b k = b' k := by
    intro k
    induction k using Nat.strong_induction_on with
    | _ k ih =>
      have pa := past_congr fun j hj => (ih j hj).1
      have pb := past_congr fun j hj => (ih j hj).2
      obtain ⟨h1, h2, -⟩ := h k
      obtain ⟨g1, g2, -⟩ := h' k
      have e1 : a k = a' k := by rw [h1, g1, pa, pb]
      exact ⟨e1, by rw [h2, g2, e1, pb]⟩
  exact funext fun k => by rw [(h k).2.2, (h' k).2.2, (key k).1, (key k).2]

/-- **C90.** The Moog filter and the resonant two-pole filter with constants at the parameter inputs are those made with these parameters. -/
theorem C90_constant_input_resonant (bp f q f' q' : ℝ) {ev : Nat → List Ev} (h : OnlyRates ev) (x : Nat → ℝ) (k : Nat) :
    (moogComp 2).out (moogNew f' q') ev (fun k => ![x k, f, q]) k 0 = (moogComp 0).out (moogNew f q) ev (fun k _ => x k) k 0 ∧
    rezComp3.out (rezNew bp f' q') ev (fun k => ![x k, f, q]) k 0 = rezComp1.out (rezNew bp f q) ev (fun k _ => x k) k 0 := by
  constructor
  · have h1 := C90_moog_input f' q' ev (fun k => ![x k, f, q])
    have h2 := C90_moog f q ev (fun k _ => x k)
    simp only [held_onlyRates _ _ _ h] at h2
    exact congrFun (moogEq_unique h1 h2) k
  · have h1 := C90_rez_input bp f' q' ev (fun k => ![x k, f, q])
    have h2 := C90_rez bp f q ev (fun k _ => x k)
    simp only [held_onlyRates _ _ _ h] at h2
    exact congrFun (rezEq_unique h1 h2) k

/-- **C90.** The panner with a constant pan input is `pan`. -/
theorem C90_constant_input_pan (s : Pan.PanSt) (v : ℝ) {ev : Nat → List Ev} (h : OnlyRates ev) (x : Nat → ℝ) (k : Nat) (c : Fin 2) :
    panComp2.out s ev (fun k => ![x k, v]) k c = panComp1.out (Pan.PanSt.ofPan v) ev (fun k _ => x k) k c := by
  rw [C90_pan, C90_pan_input, held_onlyRates _ _ _ h]
  rfl

/-! ## Shorthands -/

theorem constant_stream {α : Type} {m : Nat} (v : Frame α m) (w : Nat → Frame α 0) (k : Nat) : (constant m : Node α 0 m).stream v w k = v := by
  have hst : ∀ k, (constant m : Node α 0 m).ticks.st v w k = v := by
    intro k
    induction k with
    | zero => rfl
    | succ k ih => exact ih
  exact hst k

/-- **C90, shorthands** with constants after some inputs: `moog_q`, `lowpass_q` and the other `_q` filters, `lowrez_q`, `bandrez_q`, `morph_hz` and `hold_hz` are
the unit with the constants at its last inputs (`prelude.rs:556,839,2108-2523,2555,2579,2605`). -/
theorem C90_shorthand_append {α : Type} {n m o : Nat} (X : Node α (n + m) o) (v : Frame α m) (s : X.σ) (w : Nat → Frame α (n + 0)) :
    (pipe (stack (multiPass n) (constant m)) X).stream (((), v), s) w
      = X.stream s (fun k => Fin.append (w k) v) := by
  refine (C15_pipe _ _ _ _ _).trans (congrArg _ (funext fun k => funext fun c => ?_))
  obtain ⟨h1, h2⟩ := C15_stack (multiPass n) (constant m) () v w k
  refine Fin.addCases (fun c => ?_) (fun c => ?_) c
  · rw [h1, Fin.append_left]; rfl
  · rw [h2, Fin.append_right, constant_stream]

/-- **C90, shorthands** without inputs: `sine_hz`, `ramp_hz`, `saw_hz`, `poly_pulse_hz` and so on are the unit with constant inputs
(`prelude.rs:346,359,2032-2070,3099-3131`). -/
theorem C90_shorthand_constant {α : Type} {m o : Nat} (X : Node α m o) (v : Frame α m) (s : X.σ) (w : Nat → Frame α 0) :
    (pipe (constant m) X).stream (v, s) w = X.stream s (fun _ => v) := by
  exact (C15_pipe _ _ _ _ _).trans (congrArg _ (funext fun k => constant_stream v w k))

/-! ## Concrete cases -/

/-- The cutoff of a lowpole is set from 100 Hz to 1000 Hz before sample 2. -/
example : (held updCenter ((100 : ℝ), 44100) (fun k => if k = 2 then [.set (.center 1000)] else []) 1).1 = 100 ∧
    (held updCenter ((100 : ℝ), 44100) (fun k => if k = 2 then [.set (.center 1000)] else []) 2).1 = 1000 := by
  constructor <;> rfl

/-- A setting of another kind leaves the cutoff alone; a sample rate change is seen. -/
example : held updCenter ((100 : ℝ), 44100) (fun k => if k = 0 then [.set (.pan 1), .rate 48000] else []) 0 = (100, 48000) := rfl

example : OnlyRates (fun k => if k = 3 then [.rate 48000] else []) := by
  intro k e he
  by_cases h : k = 3
  · simp only [h, if_true, List.mem_singleton] at he; exact ⟨48000, he⟩
  · simp [h] at he

/-- The allpole filter with unit delay set from its input delays by one sample. -/
example (x : Nat → ℝ) (k : Nat) (d : ℝ) : (allpoleComp 1).out (allpoleNew d) (fun _ => []) (fun k => ![x k, 1]) (k + 1) 0 = x k := by
  rw [C90_allpole_input]
  simp [allpoleRef, sig]

end Fundsp.Param
