import Verif.Reverb.Model
import Verif.Delay.Props
import Mathlib.Tactic.NormNum.Prime
/-! Property C76, continued: the reverb as a set of difference equations. -/

namespace Fundsp.Reverb
open Fundsp.Filter Delay

/-! ## Specification -/

/-- Schroeder allpass with coefficient `c` and delay `d`: `y(n) = c x(n) + x(n - d) - c y(n - d)`. -/
def Allpass (c : ℝ) (d : ℕ) (x y : ℕ → ℝ) : Prop := ∀ n, y n = c * x n + delayed 0 d x n - c * delayed 0 d y n

/-- Allpass filters in series. -/
def Diffused (c : ℝ) : List ℕ → (ℕ → ℝ) → (ℕ → ℝ) → Prop
  | [], x, y => ∀ n, y n = x n
  | d :: ds, x, y => ∃ m, Allpass c d x m ∧ Diffused c ds m y

/-- `y` is what the loop filter makes of `x`, starting in state `f`. -/
def Filtered (F : Node ℝ 1 1) (f : F.σ) (x y : ℕ → ℝ) : Prop := ∀ n, y n = F.ticks.out f (fun k _ => x k) n 0

/-- One of the eight parts of the loop: what comes from the previous part is delayed by `d` samples, scaled by `a`, the left input is added, and the sum is diffused and
filtered to give the left signal. The left signal is scaled by `a`, the right input is added, and the sum is diffused and filtered to give the right signal. -/
def LoopPart (F : Node ℝ 1 1) (f : F.σ) (a c : ℝ) (dl dr : List ℕ) (d : ℕ) (prev inL inR L R : ℕ → ℝ) : Prop :=
  (∃ m, Diffused c dl (fun n => a * delayed 0 d prev n + inL n) m ∧ Filtered F f m L) ∧
  (∃ m, Diffused c dr (fun n => a * L n + inR n) m ∧ Filtered F f m R)

/-! ## Parts as stream functions -/

theorem delayed_succ (d : ℕ) (x : ℕ → ℝ) (n : ℕ) : delayed 0 (d + 1) x (n + 1) = delayed 0 d x n := by
  simp only [delayed, Nat.add_sub_add_right, Nat.add_le_add_iff_right]

noncomputable def schSt (s : Sch) (x : ℕ → ℝ) : ℕ → Sch
  | 0 => s
  | n + 1 => (Sch.tick (schSt s x n) (x n)).1

noncomputable def schOut (s : Sch) (x : ℕ → ℝ) (n : ℕ) : ℝ := (Sch.tick (schSt s x n) (x n)).2

theorem sch_allpass (c : ℝ) (d : ℕ) (hd : d + 1 < 2 ^ 64) (x : ℕ → ℝ) : Allpass c (d + 1) x (schOut (Sch.new c d) x) := by
  obtain ⟨v, hv⟩ : ∃ v : ℕ → ℝ, ∀ n, v n = x n - c * (schSt (Sch.new c d) x n).z := ⟨_, fun _ => rfl⟩
  have key : ∀ n, (schSt (Sch.new c d) x n).eta = c ∧
      (schSt (Sch.new c d) x n).x = (delayNode (0 : ℝ)).ticks.st (delaySetup 0 d) (fun k _ => v k) n ∧
      (schSt (Sch.new c d) x n).z = delayed 0 (d + 1) v n := by
    intro n
    induction n with
    | zero => exact ⟨rfl, rfl, by simp [delayed, schSt, Sch.new]⟩
    | succ n ih =>
      obtain ⟨e1, e2, e3⟩ := ih
      obtain ⟨t, ht⟩ : ∃ t, t = schSt (Sch.new c d) x n := ⟨_, rfl⟩
      have hv' := hv n
      have es : schSt (Sch.new c d) x (n + 1) = (Sch.tick t (x n)).1 := by rw [ht]; rfl
      rw [← ht] at e1 e2 e3 hv'
      have ev : x n - t.eta * t.z = v n := by rw [hv', e1]
      have e4 : (Sch.tick t (x n)).1 = ⟨((delayNode (0 : ℝ)).tick t.x (fun _ => x n - t.eta * t.z)).1, t.eta, ((delayNode (0 : ℝ)).tick t.x (fun _ => x n - t.eta * t.z)).2 0⟩ := rfl
      rw [es, e4, ev]
      refine ⟨e1, ?_, ?_⟩
      · show ((delayNode (0 : ℝ)).tick t.x (fun _ => v n)).1 = _
        rw [e2]; rfl
      · show ((delayNode (0 : ℝ)).tick t.x (fun _ => v n)).2 0 = _
        rw [delayed_succ, ← C35_delay (0 : ℝ) d hd (fun k _ => v k) n, e2]
        rfl
  have out : ∀ n, schOut (Sch.new c d) x n = c * v n + delayed 0 (d + 1) v n := by
    intro n
    obtain ⟨e1, _, e3⟩ := key n
    have : schOut (Sch.new c d) x n = (schSt (Sch.new c d) x n).eta * (x n - (schSt (Sch.new c d) x n).eta * (schSt (Sch.new c d) x n).z) + (schSt (Sch.new c d) x n).z := rfl
    rw [this, e1, ← hv, e3]
  have vx : ∀ n, v n = x n - c * delayed 0 (d + 1) v n := fun n => by rw [hv, (key n).2.2]
  intro n
  rw [out]
  by_cases h : d + 1 ≤ n
  · have o := out (n - (d + 1))
    have w := vx (n - (d + 1))
    have u := vx n
    simp only [delayed, if_pos h] at o w u ⊢
    rw [o]
    linear_combination c * u + w
  · have u := vx n
    simp only [delayed, if_neg h] at u ⊢
    linear_combination c * u

noncomputable def chainSt (l : List Sch) (x : ℕ → ℝ) : ℕ → List Sch
  | 0 => l
  | n + 1 => (chainTick (chainSt l x n) (x n)).1

noncomputable def chainOut (l : List Sch) (x : ℕ → ℝ) (n : ℕ) : ℝ := (chainTick (chainSt l x n) (x n)).2

theorem chain_cons (s : Sch) (l : List Sch) (x : ℕ → ℝ) (n : ℕ) : chainSt (s :: l) x n = schSt s x n :: chainSt l (schOut s x) n := by
  induction n with
  | zero => rfl
  | succ n ih =>
    show (chainTick (chainSt (s :: l) x n) (x n)).1 = _
    rw [ih]; rfl

theorem chain_diffused (c : ℝ) (ds : List ℕ) (h : ∀ d ∈ ds, 1 ≤ d ∧ d < 2 ^ 64) (x : ℕ → ℝ) :
    Diffused c ds x (chainOut (ds.map fun d => Sch.new c (d - 1)) x) := by
  induction ds generalizing x with
  | nil =>
    intro n
    have e : ∀ n, chainSt [] x n = [] := by
      intro n
      induction n with
      | zero => rfl
      | succ n ih => show (chainTick (chainSt [] x n) (x n)).1 = _; rw [ih]; rfl
    show (chainTick (chainSt [] x n) (x n)).2 = x n
    rw [e]; rfl
  | cons d ds ih =>
    have hd := h d List.mem_cons_self
    refine ⟨schOut (Sch.new c (d - 1)) x, ?_, ?_⟩
    · have := sch_allpass c (d - 1) (by omega) x
      rwa [Nat.sub_add_cancel hd.1] at this
    · have e : chainOut ((d :: ds).map fun d => Sch.new c (d - 1)) x = chainOut (ds.map fun d => Sch.new c (d - 1)) (schOut (Sch.new c (d - 1)) x) := by
        funext n
        show (chainTick (chainSt (Sch.new c (d - 1) :: ds.map fun d => Sch.new c (d - 1)) x n) (x n)).2 = _
        rw [chain_cons]; rfl
      rw [e]
      exact ih (fun d hd => h d (List.mem_cons_of_mem _ hd)) _

variable {F : Node ℝ 1 1}

noncomputable def fltSt (f : F.σ) (x : ℕ → ℝ) (n : ℕ) : F.σ := F.ticks.st f (fun k _ => x k) n
noncomputable def fltOut (f : F.σ) (x : ℕ → ℝ) (n : ℕ) : ℝ := F.ticks.out f (fun k _ => x k) n 0

/-- Signals inside a block. -/
noncomputable def sumL (a : ℝ) (b : RBlock F) (v iL : ℕ → ℝ) (n : ℕ) : ℝ := a * (delayNode (0 : ℝ)).ticks.out b.delay (fun k _ => v k) n 0 + iL n
noncomputable def outL (a : ℝ) (b : RBlock F) (v iL : ℕ → ℝ) : ℕ → ℝ := fltOut b.filter0 (chainOut b.allpass0 (sumL a b v iL))
noncomputable def sumR (a : ℝ) (b : RBlock F) (v iL iR : ℕ → ℝ) (n : ℕ) : ℝ := a * outL a b v iL n + iR n
noncomputable def outR (a : ℝ) (b : RBlock F) (v iL iR : ℕ → ℝ) : ℕ → ℝ := fltOut b.filter1 (chainOut b.allpass1 (sumR a b v iL iR))

/-- State of a block after `n` samples, in terms of the signals. -/
noncomputable def blockSt (a : ℝ) (b : RBlock F) (v iL iR : ℕ → ℝ) (n : ℕ) : RBlock F :=
  ⟨chainSt b.allpass0 (sumL a b v iL) n, chainSt b.allpass1 (sumR a b v iL iR) n, fltSt b.filter0 (chainOut b.allpass0 (sumL a b v iL)) n,
    fltSt b.filter1 (chainOut b.allpass1 (sumR a b v iL iR)) n, (delayNode (0 : ℝ)).ticks.st b.delay (fun k _ => v k) n⟩

theorem block_tick (a : ℝ) (b : RBlock F) (v iL iR : ℕ → ℝ) (n : ℕ) :
    RBlock.tick a (blockSt a b v iL iR n) (v n) (iL n) (iR n) = (blockSt a b v iL iR (n + 1), outL a b v iL n, outR a b v iL iR n) := rfl

/-- Left and right signals after the blocks of the list, and what enters the next block. -/
noncomputable def listSt (a : ℝ) (l : List (RBlock F)) (v iL iR : ℕ → ℝ) (n : ℕ) : List (RBlock F) :=
  match l with
  | [] => []
  | b :: l => blockSt a b v iL iR n :: listSt a l (outR a b v iL iR) iL iR n

noncomputable def listR (a : ℝ) (l : List (RBlock F)) (v iL iR : ℕ → ℝ) : ℕ → ℕ → ℝ :=
  match l with
  | [] => fun _ => v
  | b :: l => fun i => if i = 0 then outR a b v iL iR else listR a l (outR a b v iL iR) iL iR (i - 1)

noncomputable def listL (a : ℝ) (l : List (RBlock F)) (v iL iR : ℕ → ℝ) : ℕ → ℕ → ℝ :=
  match l with
  | [] => fun _ => v
  | b :: l => fun i => if i = 0 then outL a b v iL else listL a l (outR a b v iL iR) iL iR (i - 1)

theorem blocks_tick (a : ℝ) (iL iR : ℕ → ℝ) (n : ℕ) : ∀ (l : List (RBlock F)) (v : ℕ → ℝ) (o0 o1 : ℝ),
    blocksTick a (iL n) (iR n) (listSt a l v iL iR n) o0 o1 (v n) =
      (listSt a l v iL iR (n + 1), if l = [] then (o0, o1, v n) else (listL a l v iL iR (l.length - 1) n, listR a l v iL iR (l.length - 1) n, listR a l v iL iR (l.length - 1) n))
  | [], _, _, _ => rfl
  | b :: l, v, o0, o1 => by
    have ih := blocks_tick a iL iR n l (outR a b v iL iR) (outL a b v iL n) (outR a b v iL iR n)
    have e : blocksTick a (iL n) (iR n) (listSt a (b :: l) v iL iR n) o0 o1 (v n) =
        (blockSt a b v iL iR (n + 1) :: (blocksTick a (iL n) (iR n) (listSt a l (outR a b v iL iR) iL iR n) (outL a b v iL n) (outR a b v iL iR n) (outR a b v iL iR n)).1,
          (blocksTick a (iL n) (iR n) (listSt a l (outR a b v iL iR) iL iR n) (outL a b v iL n) (outR a b v iL iR n) (outR a b v iL iR n)).2) := rfl
    rw [e, ih]
    cases l with
    | nil => rfl
    | cons b' l => simp [listSt, listL, listR]

theorem part_of (f : F.σ) (a c : ℝ) (dl dr : List ℕ) (d : ℕ) (hl : ∀ d ∈ dl, 1 ≤ d ∧ d < 2 ^ 64) (hr : ∀ d ∈ dr, 1 ≤ d ∧ d < 2 ^ 64) (hd : d + 1 < 2 ^ 64) (v iL iR : ℕ → ℝ) :
    LoopPart F f a c dl dr d v iL iR
      (outL a (⟨dl.map fun d => Sch.new c (d - 1), dr.map fun d => Sch.new c (d - 1), f, f, delaySetup 0 d⟩ : RBlock F) v iL)
      (outR a (⟨dl.map fun d => Sch.new c (d - 1), dr.map fun d => Sch.new c (d - 1), f, f, delaySetup 0 d⟩ : RBlock F) v iL iR) := by
  refine ⟨⟨_, ?_, fun _ => rfl⟩, ⟨_, chain_diffused c dr hr _, fun _ => rfl⟩⟩
  have e : (fun n => a * delayed 0 d v n + iL n) = sumL a (⟨dl.map fun d => Sch.new c (d - 1), dr.map fun d => Sch.new c (d - 1), f, f, delaySetup 0 d⟩ : RBlock F) v iL := by
    funext n
    show _ = a * (delayNode (0 : ℝ)).ticks.out (delaySetup 0 d) (fun k _ => v k) n 0 + iL n
    rw [C35_delay (0 : ℝ) d hd]
  rw [e]
  exact chain_diffused c dl hl _

/-- The delays of part `i` of the loop. -/
def partL (i : ℕ) : List ℕ := (List.range 4).map fun j => ldelays.getD (i + j * 8) 0
def partR (i : ℕ) : List ℕ := (List.range 4).map fun j => rdelays.getD (i + j * 8) 0
def partD (i : ℕ) : ℕ := loopDelays.getD (7 - i) 0

theorem list_parts (f : F.σ) (a c : ℝ) (iL iR : ℕ → ℝ) : ∀ (m k : ℕ) (v : ℕ → ℝ), (∀ i, i < k + m →
      (∀ d ∈ partL i, 1 ≤ d ∧ d < 2 ^ 64) ∧ (∀ d ∈ partR i, 1 ≤ d ∧ d < 2 ^ 64) ∧ partD i + 1 < 2 ^ 64) →
    ∀ l : List (RBlock F), l = (List.range' k m).map (fun i => ⟨(partL i).map fun d => Sch.new c (d - 1), (partR i).map fun d => Sch.new c (d - 1), f, f, delaySetup 0 (partD i)⟩) →
    ∀ i, i < m → LoopPart F f a c (partL (k + i)) (partR (k + i)) (partD (k + i)) (if i = 0 then v else listR a l v iL iR (i - 1)) iL iR
      (listL a l v iL iR i) (listR a l v iL iR i)
  | 0, _, _, _, _, _, _, hi => absurd hi (by omega)
  | m + 1, k, v, h, l, hl, i, hi => by
    subst hl
    cases i with
    | zero => exact part_of f a c _ _ _ (h k (by omega)).1 (h k (by omega)).2.1 (h k (by omega)).2.2 v iL iR
    | succ i =>
      have ih := list_parts f a c iL iR m (k + 1)
        (outR a (⟨(partL k).map fun d => Sch.new c (d - 1), (partR k).map fun d => Sch.new c (d - 1), f, f, delaySetup 0 (partD k)⟩ : RBlock F) v iL iR) (fun i hi => h i (by omega)) _ rfl i (by omega)
      rw [show k + 1 + i = k + (i + 1) by omega] at ih
      cases i with
      | zero => exact ih
      | succ i => exact ih

/-- **C76, the loop.** For every loop filter, reverberation time, diffusion and input, the reverb computes exactly this: both inputs are halved and diffused by two allpass
filters; the loop has eight parts, the first of which gets the right signal of the last, one sample late; the outputs are the left and right signal of the last part. -/
theorem C76_loop (F : Node ℝ 1 1) (f : F.σ) (time diffusion : ℝ) (w : ℕ → Frame ℝ 2) :
    ∃ (inL inR : ℕ → ℝ) (L R : ℕ → ℕ → ℝ),
      Diffused (0.5 + 0.4 * diffusion) [245, 367] (fun n => w n 0 * 0.5) inL ∧ Diffused (0.5 + 0.4 * diffusion) [263, 349] (fun n => w n 1 * 0.5) inR ∧
      (∀ i, i < 8 → LoopPart F f ((0.001 : ℝ) ^ (0.035 / time)) (0.5 + 0.4 * diffusion) (partL i) (partR i) (partD i) (if i = 0 then delayed 0 1 (R 7) else R (i - 1)) inL inR (L i) (R i)) ∧
      ∀ n, (reverb F).stream (RevSt.new F time diffusion f) w n 0 = L 7 n ∧ (reverb F).stream (RevSt.new F time diffusion f) w n 1 = R 7 n := by
  have ec : coeffOf diffusion = 0.5 + 0.4 * diffusion := by unfold coeffOf; ring
  have ea : gainOf time = 0.001 ^ (0.035 / time) := by
    unfold gainOf
    congr 1
    rw [show (-60 : ℝ) / 20 = ((-3 : ℤ) : ℝ) by norm_num, Real.rpow_intCast]
    norm_num
  obtain ⟨st, hst⟩ : ∃ st : ℕ → RevSt F, ∀ n, st n = (reverb F).ticks.st (RevSt.new F time diffusion f) w n := ⟨_, fun _ => rfl⟩
  obtain ⟨pL, hpL⟩ : ∃ l, l = ([245, 367].map fun d => Sch.new (coeffOf diffusion) (d - 1)) := ⟨_, rfl⟩
  obtain ⟨pR, hpR⟩ : ∃ l, l = ([263, 349].map fun d => Sch.new (coeffOf diffusion) (d - 1)) := ⟨_, rfl⟩
  obtain ⟨bl, hbl⟩ : ∃ bl : List (RBlock F), bl = (List.range' 0 8).map (fun i => (⟨(partL i).map fun d => Sch.new (coeffOf diffusion) (d - 1),
    (partR i).map fun d => Sch.new (coeffOf diffusion) (d - 1), f, f, delaySetup 0 (partD i)⟩ : RBlock F)) := ⟨_, rfl⟩
  obtain ⟨v, hv⟩ : ∃ v : ℕ → ℝ, ∀ n, v n = (st n).feedback := ⟨_, fun _ => rfl⟩
  obtain ⟨iL, hiL⟩ : ∃ iL, iL = chainOut pL (fun n => w n 0 * 0.5) := ⟨_, rfl⟩
  obtain ⟨iR, hiR⟩ : ∃ iR, iR = chainOut pR (fun n => w n 1 * 0.5) := ⟨_, rfl⟩
  have hlen : bl.length = 8 := by rw [hbl]; simp
  have hne : bl ≠ [] := by intro h; rw [h] at hlen; cases hlen
  have s0 : st 0 = ⟨pL, pR, bl, 0, gainOf time⟩ := by
    rw [hst, hpL, hpR, hbl]
    show RevSt.new F time diffusion f = _
    unfold RevSt.new
    simp only [List.map_map, partL, partR, partD, List.range_eq_range', List.map_cons, List.map_nil]
    rfl
  have ss : ∀ n, st (n + 1) = (RevSt.tick (st n) (w n)).1 := fun n => by rw [hst, hst]; rfl
  have key : ∀ n, st n = ⟨chainSt pL (fun n => w n 0 * 0.5) n, chainSt pR (fun n => w n 1 * 0.5) n, listSt (gainOf time) bl v iL iR n, v n, gainOf time⟩ := by
    intro n
    induction n with
    | zero =>
      have : listSt (gainOf time) bl v iL iR 0 = bl := by
        have g : ∀ (l : List (RBlock F)) (v : ℕ → ℝ), listSt (gainOf time) l v iL iR 0 = l := by
          intro l
          induction l with
          | nil => intro v; rfl
          | cons b l ih => intro v; show blockSt _ b v iL iR 0 :: listSt _ l _ iL iR 0 = _; rw [ih]; rfl
        exact g bl v
      rw [this, hv, s0]; rfl
    | succ n ih =>
      have b := blocks_tick (gainOf time) iL iR n bl v 0 0
      rw [if_neg hne] at b
      have hv1 : v (n + 1) = (RevSt.tick (st n) (w n)).1.feedback := by rw [hv, ss]
      rw [ss]
      have e : (RevSt.tick (st n) (w n)).1 = ⟨(chainTick (st n).preL (w n 0 * 0.5)).1, (chainTick (st n).preR (w n 1 * 0.5)).1,
        (blocksTick (st n).a (chainTick (st n).preL (w n 0 * 0.5)).2 (chainTick (st n).preR (w n 1 * 0.5)).2 (st n).block 0 0 (st n).feedback).1,
        (RevSt.tick (st n) (w n)).1.feedback, (st n).a⟩ := rfl
      rw [← hv1, ih] at e
      have cL : (chainTick (chainSt pL (fun n => w n 0 * 0.5) n) (w n 0 * 0.5)).2 = iL n := by rw [hiL]; rfl
      have cR : (chainTick (chainSt pR (fun n => w n 1 * 0.5) n) (w n 1 * 0.5)).2 = iR n := by rw [hiR]; rfl
      rw [ih, e]
      dsimp only
      rw [cL, cR, b]
      rfl
  have out : ∀ n, RevSt.tick (st n) (w n) = ((RevSt.tick (st n) (w n)).1, ![listL (gainOf time) bl v iL iR 7 n, listR (gainOf time) bl v iL iR 7 n]) ∧
      (RevSt.tick (st n) (w n)).1.feedback = listR (gainOf time) bl v iL iR 7 n := by
    intro n
    have b := blocks_tick (gainOf time) iL iR n bl v 0 0
    rw [if_neg hne, hlen] at b
    have cL : (chainTick (chainSt pL (fun n => w n 0 * 0.5) n) (w n 0 * 0.5)).2 = iL n := by rw [hiL]; rfl
    have cR : (chainTick (chainSt pR (fun n => w n 1 * 0.5) n) (w n 1 * 0.5)).2 = iR n := by rw [hiR]; rfl
    rw [key n]
    unfold RevSt.tick
    dsimp only
    rw [cL, cR, b]
    exact ⟨rfl, rfl⟩
  have hvR : v = delayed 0 1 (listR (gainOf time) bl v iL iR 7) := by
    funext n
    cases n with
    | zero => rw [hv, s0]; rfl
    | succ n => rw [hv, ss, (out n).2]; rfl
  refine ⟨iL, iR, listL (gainOf time) bl v iL iR, listR (gainOf time) bl v iL iR, ?_, ?_, ?_, ?_⟩
  · rw [hiL, hpL, ← ec]; exact chain_diffused _ _ (by decide) _
  · rw [hiR, hpR, ← ec]; exact chain_diffused _ _ (by decide) _
  · intro i hi
    have := list_parts f (gainOf time) (coeffOf diffusion) iL iR 8 0 v (by decide) bl hbl i hi
    rw [Nat.zero_add] at this
    rw [← ea, ← ec]
    by_cases h : i = 0
    · subst h
      rw [if_pos rfl, ← hvR]
      exact this
    · rw [if_neg h] at this ⊢
      exact this
  · intro n
    have o := (out n).1
    have e : (reverb F).stream (RevSt.new F time diffusion f) w n = (RevSt.tick (st n) (w n)).2 := by rw [hst]; rfl
    rw [e, o]
    exact ⟨rfl, rfl⟩

/-- **C76, the delays.** The 72 delays of the loop are distinct primes, so that no two of them have a common multiple below their product. -/
theorem C76_delays : (ldelays ++ rdelays ++ loopDelays).length = 72 ∧ (ldelays ++ rdelays ++ loopDelays).Nodup ∧ (∀ d ∈ ldelays ++ rdelays ++ loopDelays, d.Prime) ∧
    ((List.range 8).flatMap partL).Perm ldelays ∧ ((List.range 8).flatMap partR).Perm rdelays ∧ ((List.range 8).map partD).Perm loopDelays := by
  refine ⟨rfl, by decide +kernel, ?_, by decide +kernel, by decide +kernel, by decide +kernel⟩
  intro d hd
  have : ∀ d ∈ ldelays ++ rdelays ++ loopDelays, d.minFac = d ∧ 2 ≤ d := by decide +kernel
  have h := this d hd
  exact Nat.prime_def_minFac.2 ⟨h.2, h.1⟩

end Fundsp.Reverb
