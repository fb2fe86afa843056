import Verif.Osc.Pluck
import Verif.Filter.Energy
import Verif.Filter.Fir
import Mathlib.Data.List.GetD
import Mathlib.Tactic.NormNum

/-! Lemmas for C75. -/

namespace Fundsp.Osc
open Fundsp.Filter

namespace PluckSt

theorem fir_val (w v : Frame ℝ 3) (u : ℝ) :
    (firTick 0 (· + ·) (· * ·) w v (fun _ => u)).2 0 = w 0 * v 1 + w 1 * v 2 + w 2 * u := by
  simp [firTick, List.finRange_succ]

theorem fir_mem (w v : Frame ℝ 3) (u : ℝ) :
    (firTick 0 (· + ·) (· * ·) w v (fun _ => u)).1 1 = v 2 ∧ (firTick 0 (· + ·) (· * ·) w v (fun _ => u)).1 2 = u := by
  constructor <;> simp [firTick]

/-- Energy in the memory of the damping filter with outer weight `b`. -/
def firV (b : ℝ) (v : Frame ℝ 3) : ℝ := (1 - b) * v 2 ^ 2 + b * v 1 ^ 2

theorem fir3_eq (d : ℝ) : fir3 (1 - d) = ![d / 4, 1 - d / 2, d / 4] := by
  simp only [fir3]
  congr 1
  · ring
  · congr 1
    · ring
    · congr 1; ring

theorem fir_passive {d : ℝ} (h0 : 0 ≤ d) (h1 : d ≤ 1) (v : Frame ℝ 3) (u : ℝ) :
    (firTick 0 (· + ·) (· * ·) (fir3 (1 - d)) v (fun _ => u)).2 0 ^ 2 + firV (d / 4) (firTick 0 (· + ·) (· * ·) (fir3 (1 - d)) v (fun _ => u)).1
      ≤ u ^ 2 + firV (d / 4) v := by
  unfold firV
  rw [(fir_mem _ v u).1, (fir_mem _ v u).2, fir_val, fir3_eq]
  simp only [Matrix.cons_val_zero, Matrix.cons_val_one, Matrix.cons_val]
  generalize v 1 = a
  generalize v 2 = b
  have h2 := mul_nonneg h0 (show 0 ≤ 1 - d / 2 by linarith)
  nlinarith [mul_nonneg h2 (sq_nonneg (a - b)), mul_nonneg h2 (sq_nonneg (u - b)), mul_nonneg (mul_nonneg h0 h0) (sq_nonneg (a - u))]

theorem firV_nonneg {d : ℝ} (h0 : 0 ≤ d) (h1 : d ≤ 1) (v : Frame ℝ 3) : 0 ≤ firV (d / 4) v :=
  add_nonneg (mul_nonneg (by linarith) (sq_nonneg _)) (mul_nonneg (by linarith) (sq_nonneg _))

/-- Energy in the memory of the tuning filter. -/
noncomputable def apV (s : PoleZero ℝ) : ℝ := (s.x1 - s.coeff * s.y1) ^ 2 / (1 - s.coeff ^ 2)

theorem ap_balance (s : PoleZero ℝ) (h : |s.coeff| < 1) (x : ℝ) :
    (allpoleTick 0 s (fun _ => x)).2 0 ^ 2 + apV (allpoleTick 0 s (fun _ => x)).1 = x ^ 2 + apV s := (C40_allpole s.coeff h).balance s (fun _ => x) rfl

theorem apV_nonneg (s : PoleZero ℝ) (h : |s.coeff| < 1) : 0 ≤ apV s := (C40_allpole s.coeff h).nonneg s rfl

theorem sum_set (l : List ℝ) (i : Nat) (hi : i < l.length) (y : ℝ) :
    ((l.set i y).map (· ^ 2)).sum + l.getD i 0 ^ 2 = (l.map (· ^ 2)).sum + y ^ 2 := by
  induction l generalizing i with
  | nil => simp at hi
  | cons a l ih =>
    cases i with
    | zero => simp; ring
    | succ i =>
      have := ih i (by simpa using hi)
      simp only [List.set_cons_succ, List.map_cons, List.sum_cons, List.getD_cons_succ]
      linarith

theorem sq_le_sum (l : List ℝ) (i : Nat) : l.getD i 0 ^ 2 ≤ (l.map (· ^ 2)).sum := by
  induction l generalizing i with
  | nil => simp
  | cons a l ih =>
    have h0 : 0 ≤ (l.map (· ^ 2)).sum := List.sum_nonneg (by simp only [List.mem_map]; rintro _ ⟨b, -, rfl⟩; exact sq_nonneg b)
    cases i with
    | zero => simpa using h0
    | succ i =>
      have := ih i
      simp only [List.map_cons, List.sum_cons, List.getD_cons_succ]
      nlinarith [sq_nonneg a]

/-- Parameters of a plucked string and where it is in its loop. -/
structure Like (s : PluckSt) (w : Frame ℝ 3) (g f sr : ℝ) (h : Nat) : Prop where
  weights : s.weights = w
  gain : s.gain = g
  freq : s.frequency = f
  sr : s.sr = sr
  hash : s.hash = h

theorem Like.prep {s w g f sr h} (rnd) (hs : Like s w g f sr h) : Like (s.prep rnd) w g f sr h := by
  unfold PluckSt.prep
  split
  · exact hs
  · exact ⟨hs.1, hs.2, hs.3, hs.4, hs.5⟩

/-- A state in the middle of its loop: the line has the length of the period less the filter delays. -/
def Ready (s : PluckSt) : Prop :=
  s.initialized = true ∧ s.pos < s.line.length ∧ s.line.length = ⌊s.sr / s.frequency - 1 - 0.2⌋.toNat ∧
    s.tuning.coeff = allpoleEta (s.sr / s.frequency - 1 - ⌊s.sr / s.frequency - 1 - 0.2⌋)

theorem loop_pos' {f sr : ℝ} (hf : 0 < f) (h : 2.2 * f ≤ sr) : 1 ≤ ⌊sr / f - 1 - 0.2⌋ := by
  rw [Int.le_floor]
  have : 2.2 ≤ sr / f := by rw [le_div_iff₀ hf]; exact h
  push_cast; norm_num at *; linarith

theorem ready_prep (rnd) (s : PluckSt) (hf : 0 < s.frequency) (hr : 2.2 * s.frequency ≤ s.sr) (h : s.initialized = true → Ready s) :
    Ready (s.prep rnd) := by
  unfold PluckSt.prep
  split
  · rename_i hi; exact h hi
  · have := loop_pos' hf hr
    refine ⟨rfl, ?_, ?_, rfl⟩
    · simp only [initLine, List.length_map, List.length_range]; omega
    · simp only [initLine, List.length_map, List.length_range]

theorem Ready.play {s : PluckSt} (h : Ready s) (x : ℝ) : Ready (s.play x).1 := by
  obtain ⟨h1, h2, h3, h4⟩ := h
  refine ⟨h1, ?_, ?_, ?_⟩
  · show (if s.pos + 1 = s.line.length then 0 else s.pos + 1) < (s.line.set s.pos _).length
    rw [List.length_set]; split <;> omega
  · show (s.line.set s.pos _).length = _
    rw [List.length_set]; exact h3
  · exact h4

theorem Ready.coeff {s : PluckSt} (h : Ready s) : |s.tuning.coeff| < 1 := by
  rw [h.2.2.2]
  apply C40_allpole_delay
  have := Int.floor_le (s.sr / s.frequency - 1 - 0.2)
  norm_num at *; linarith

theorem Ready.prep {s : PluckSt} (h : Ready s) (rnd) : s.prep rnd = s := by simp [PluckSt.prep, h.1]

/-- Energy in the line and in both filters. -/
noncomputable def energy (s : PluckSt) : ℝ := (s.line.map (· ^ 2)).sum + firV (s.weights 0) s.damping + apV s.tuning

theorem energy_play {s : PluckSt} (h : Ready s) {d : ℝ} (h0 : 0 ≤ d) (h1 : d ≤ 1) (hw : s.weights = fir3 (1 - d)) (x : ℝ) :
    energy (s.play x).1 ≤ energy s - s.line.getD s.pos 0 ^ 2 + (s.line.getD s.pos 0 * s.gain + x) ^ 2 := by
  have e0 : s.weights 0 = d / 4 := by rw [hw, fir3_eq]; rfl
  have e1 := fir_passive h0 h1 s.damping (s.line.getD s.pos 0 * s.gain + x)
  rw [← hw] at e1
  have e2 := ap_balance s.tuning h.coeff ((firTick 0 (· + ·) (· * ·) s.weights s.damping (fun _ => s.line.getD s.pos 0 * s.gain + x)).2 0)
  have e3 := sum_set s.line s.pos h.2.1 (s.play x).2
  show ((s.line.set s.pos (s.play x).2).map (· ^ 2)).sum
      + firV (s.weights 0) (firTick 0 (· + ·) (· * ·) s.weights s.damping (fun _ => s.line.getD s.pos 0 * s.gain + x)).1
      + apV (allpoleTick 0 s.tuning (fun _ => (firTick 0 (· + ·) (· * ·) s.weights s.damping (fun _ => s.line.getD s.pos 0 * s.gain + x)).2 0)).1
    ≤ ((s.line.map (· ^ 2)).sum + firV (s.weights 0) s.damping + apV s.tuning) - _ + _
  have e4 : (s.play x).2 = (allpoleTick 0 s.tuning (fun _ => (firTick 0 (· + ·) (· * ·) s.weights s.damping (fun _ => s.line.getD s.pos 0 * s.gain + x)).2 0)).2 0 := rfl
  rw [e4] at e3 ⊢
  rw [e0] at *
  linarith

theorem out_le_energy {s : PluckSt} (h : Ready s) {d : ℝ} (h0 : 0 ≤ d) (h1 : d ≤ 1) (hw : s.weights = fir3 (1 - d)) (x : ℝ) :
    (s.play x).2 ^ 2 ≤ energy (s.play x).1 := by
  have e0 : s.weights 0 = d / 4 := by rw [hw, fir3_eq]; rfl
  have hr := (h.play x).coeff
  have e1 := sq_le_sum (s.play x).1.line s.pos
  have e2 : (s.play x).1.line.getD s.pos 0 = (s.play x).2 := by
    show (s.line.set s.pos (s.play x).2).getD s.pos 0 = _
    simp [List.getD_eq_getElem?_getD, h.2.1]
  rw [e2] at e1
  have e3 := apV_nonneg _ hr
  have e4 := firV_nonneg h0 h1 (s.play x).1.damping
  have e5 : (s.play x).1.weights 0 = d / 4 := e0
  unfold energy
  rw [e5]; linarith

/-! ### The run of a string -/

/-- States of a string fed with `w`. -/
noncomputable def run (s : PluckSt) (w : Nat → ℝ) : Nat → PluckSt
  | 0 => s
  | k + 1 => ((run s w k).play (w k)).1

/-- Its output. -/
noncomputable def outs (s : PluckSt) (w : Nat → ℝ) (k : Nat) : ℝ := ((run s w k).play (w k)).2

theorem run_ready {s : PluckSt} (h : Ready s) (w : Nat → ℝ) : ∀ k, Ready (run s w k)
  | 0 => h
  | k + 1 => (run_ready h w k).play (w k)

theorem run_params (s : PluckSt) (w : Nat → ℝ) (k : Nat) : (run s w k).weights = s.weights ∧ (run s w k).gain = s.gain ∧ (run s w k).line.length = s.line.length := by
  induction k with
  | zero => exact ⟨rfl, rfl, rfl⟩
  | succ k ih =>
    refine ⟨ih.1, ih.2.1, ?_⟩
    show ((run s w k).line.set _ _).length = _
    rw [List.length_set]; exact ih.2.2

theorem stream_run (rnd) (s : PluckSt) (h : Ready (s.prep rnd)) (w : Nat → Frame ℝ 1) (k : Nat) :
    ((pluck rnd).stream s w k) 0 = outs (s.prep rnd) (fun k => w k 0) k := by
  have key : ∀ k, PluckSt.prep rnd ((pluck rnd).ticks.st s w k) = run (s.prep rnd) (fun k => w k 0) k := by
    intro k
    induction k with
    | zero => rfl
    | succ k ih =>
      have e : (pluck rnd).ticks.st s w (k + 1) = (PluckSt.play (PluckSt.prep rnd ((pluck rnd).ticks.st s w k)) (w k 0)).1 := rfl
      rw [e, ih]
      exact (run_ready h _ (k + 1)).prep rnd
  show (PluckSt.play (PluckSt.prep rnd ((pluck rnd).ticks.st s w k)) (w k 0)).2 = _
  rw [key]; rfl

/-- What comes around the loop at sample `n`. -/
noncomputable def back (s : PluckSt) (w : Nat → ℝ) (n : Nat) : ℝ :=
  if n < s.line.length then s.line.getD n 0 else outs s w (n - s.line.length)

theorem run_line {s : PluckSt} (h : Ready s) (hp : s.pos = 0) (w : Nat → ℝ) (k : Nat) :
    (run s w k).pos = k % s.line.length ∧ ∀ j < s.line.length, (run s w k).line.getD ((k + j) % s.line.length) 0 = back s w (k + j) := by
  have hL : 0 < s.line.length := by have := h.2.1; omega
  induction k with
  | zero =>
    refine ⟨by simp [run, hp], fun j hj => ?_⟩
    simp [run, back, hj, Nat.mod_eq_of_lt hj]
  | succ k ih =>
    have hl := (run_params s w k).2.2
    refine ⟨?_, fun j hj => ?_⟩
    · show (if (run s w k).pos + 1 = (run s w k).line.length then 0 else (run s w k).pos + 1) = _
      rw [ih.1, hl, Nat.add_mod k 1 s.line.length]
      generalize hm : s.line.length = L at *
      have := Nat.mod_lt k hL
      by_cases h1 : L = 1
      · subst h1; simp [Nat.mod_one]
      · rw [Nat.mod_eq_of_lt (show 1 < L by omega)]
        split
        · rename_i e; rw [e, Nat.mod_self]
        · exact (Nat.mod_eq_of_lt (by omega)).symm
    · show ((run s w k).line.set (run s w k).pos (outs s w k)).getD ((k + 1 + j) % s.line.length) 0 = _
      rw [ih.1]
      have hm := Nat.mod_lt k hL
      by_cases hj1 : j + 1 = s.line.length
      · have e : k + 1 + j = k + s.line.length := by omega
        rw [e, Nat.add_mod_right]
        simp [List.getD_eq_getElem?_getD, hl, hm, back]
      · have e : k + 1 + j = k + (j + 1) := by omega
        rw [e, ← ih.2 (j + 1) (by omega)]
        have hne : k % s.line.length ≠ (k + (j + 1)) % s.line.length := by
          intro he
          have h3 : (k + (j + 1)) % s.line.length = (k + 0) % s.line.length := by simpa using he.symm
          have h4 := Nat.ModEq.add_left_cancel' k h3
          have h5 : (j + 1) % s.line.length = 0 % s.line.length := h4
          rw [Nat.mod_eq_of_lt (by omega), Nat.zero_mod] at h5
          omega
        simp [List.getD_eq_getElem?_getD, List.getElem?_set_ne hne]

/-- What enters the filters. -/
noncomputable def drive (s : PluckSt) (w : Nat → ℝ) (n : Nat) : ℝ := s.gain * back s w n + w n

theorem run_drive {s : PluckSt} (h : Ready s) (hp : s.pos = 0) (w : Nat → ℝ) (k : Nat) :
    (run s w k).line.getD (run s w k).pos 0 * (run s w k).gain + w k = drive s w k := by
  have h1 := run_line h hp w k
  have hL : 0 < s.line.length := by have := h.2.1; omega
  have h2 := h1.2 0 hL
  rw [Nat.add_zero] at h2
  rw [h1.1, h2, (run_params s w k).2.1, drive, mul_comm]

/-- The damping filter's output when driven by `u`. -/
noncomputable def firOut (s : PluckSt) (u : Nat → ℝ) (k : Nat) : ℝ :=
  (firNode (0 : ℝ) (· + ·) (· * ·) s.weights).stream s.damping (fun k _ => u k) k 0

theorem run_filters {s : PluckSt} (h : Ready s) (hp : s.pos = 0) (w : Nat → ℝ) (k : Nat) :
    (run s w k).damping = (firNode (0 : ℝ) (· + ·) (· * ·) s.weights).ticks.st s.damping (fun k _ => drive s w k) k ∧
    (run s w k).tuning = (allpoleNode 0).ticks.st s.tuning (fun k _ => firOut s (drive s w) k) k := by
  induction k with
  | zero => exact ⟨rfl, rfl⟩
  | succ k ih =>
    have hd := run_drive h hp w k
    have hw := (run_params s w k).1
    have e1 : (run s w (k + 1)).damping = (firTick 0 (· + ·) (· * ·) (run s w k).weights (run s w k).damping
        (fun _ => (run s w k).line.getD (run s w k).pos 0 * (run s w k).gain + w k)).1 := rfl
    have e2 : (run s w (k + 1)).tuning = (allpoleTick 0 (run s w k).tuning (fun _ => (firTick 0 (· + ·) (· * ·) (run s w k).weights (run s w k).damping
        (fun _ => (run s w k).line.getD (run s w k).pos 0 * (run s w k).gain + w k)).2 0)).1 := rfl
    rw [e1, e2, hd, hw, ih.1, ih.2]
    exact ⟨rfl, rfl⟩

theorem outs_eq {s : PluckSt} (h : Ready s) (hp : s.pos = 0) (w : Nat → ℝ) (k : Nat) :
    outs s w k = (allpoleNode 0).stream s.tuning (fun k _ => firOut s (drive s w) k) k 0 := by
  have hd := run_drive h hp w k
  have hw := (run_params s w k).1
  have hf := run_filters h hp w k
  have e : outs s w k = (allpoleTick 0 (run s w k).tuning (fun _ => (firTick 0 (· + ·) (· * ·) (run s w k).weights (run s w k).damping
        (fun _ => (run s w k).line.getD (run s w k).pos 0 * (run s w k).gain + w k)).2 0)).2 0 := rfl
  rw [e, hd, hw, hf.1, hf.2]
  rfl

end PluckSt
end Fundsp.Osc
