import Mathlib.Tactic.Linarith
import Mathlib.Tactic.FieldSimp
import Mathlib.Tactic.Ring
import Mathlib.Data.Real.Archimedean
import Mathlib.Algebra.Order.Floor.Semiring
import Mathlib.Algebra.BigOperators.Group.List.Basic
import Verif.Sys.Model

/-! C73: the update schedule of dynamical systems. -/

namespace Fundsp.Sys

/-! ## Specification: positions counted in samples -/

/-- An update is due before a call of `n` samples at position `pos`, the latest update having been at position `last`. -/
def due (interval sr : ℝ) (pos last n : Nat) : Prop := (pos = 0 ∧ 0 < n) ∨ interval ≤ ((pos - last : ℝ)) / sr

section
variable {α : Type} {i o : Nat} {φ : Type}

open Classical in
/-- The update, if it is due, before a call of `n` samples. -/
noncomputable def specUpdate {Y : Type} (f : φ → ℝ → ℝ → Y → φ × Y) (interval sr : ℝ) (pos last n : Nat) (fs : φ) (x : Y) : φ × Y :=
  if due interval sr pos last n then f fs (pos / sr) ((pos - last) / sr) x else (fs, x)

open Classical in
/-- Position of the latest update after that. -/
noncomputable def specLast (interval sr : ℝ) (pos last n : Nat) : Nat := if due interval sr pos last n then pos else last

/-- The enclosed node is run call by call; at the call boundaries where an update is due, the update function is applied first. `t` is the
position in the input, `pos` and `last` are the positions since the latest reset. -/
noncomputable def specRun (X : Node α i o) (f : φ → ℝ → ℝ → X.σ → φ × X.σ) (interval sr : ℝ) (w : Nat → Frame α i) :
    List (Call α i o) → (t pos last : Nat) → φ → X.σ → List (Frame α o)
  | [], _, _, _, _, _ => []
  | .reset :: cs, t, _, _, fs, x => specRun X f interval sr w cs t 0 0 fs (X.reset x)
  | c :: cs, t, pos, last, fs, x =>
    let u := specUpdate f interval sr pos last c.len fs x
    let r := X.exec w [c] t u.2
    r.2 ++ specRun X f interval sr w cs (t + c.len) (pos + c.len) (specLast interval sr pos last c.len) u.1 r.1

variable (X : Node α i o) (f : φ → ℝ → ℝ → X.σ → φ × X.σ)

/-- The node keeps `time` and `delta` equal to the sample counts. -/
structure Counts (s : SysSt X.σ φ) (interval sr : ℝ) (pos last : Nat) : Prop where
  le : last ≤ pos
  time : s.time = pos / sr
  delta : s.delta = (pos - last) / sr
  interval : s.interval = interval
  rate : s.sampleRate = sr

variable {X f} {interval sr : ℝ}

theorem Counts.cond {s : SysSt X.σ φ} {pos last : Nat} (hsr : 0 < sr) (h : Counts X s interval sr pos last) (n : Nat) :
    (s.delta ≥ s.interval ∨ (s.time = 0 ∧ 0 < n)) ↔ due interval sr pos last n := by
  have ht : s.time = 0 ↔ pos = 0 := by
    rw [h.time, div_eq_zero_iff]
    constructor
    · rintro (h | h)
      · exact_mod_cast h
      · linarith
    · rintro rfl; left; simp
  rw [h.delta, h.interval, ht]
  unfold due
  exact or_comm

theorem Counts.advance {s : SysSt X.σ φ} {pos last : Nat} (hsr : 0 < sr) (h : Counts X s interval sr pos last) (n : Nat) (P : Prop)
    (hP : P ↔ (s.time = 0 ∧ 0 < n)) :
    Counts X (s.advance f P (n / s.sampleRate)) interval sr (pos + n) (specLast interval sr pos last n) ∧
    ((s.advance f P (n / s.sampleRate)).f, (s.advance f P (n / s.sampleRate)).x) =
      specUpdate f interval sr pos last n s.f s.x := by
  have hc := h.cond hsr n
  rw [← hP] at hc
  unfold SysSt.advance specLast specUpdate
  by_cases hd : due interval sr pos last n
  · simp only [hc.2 hd, hd, if_true]
    refine ⟨⟨by omega, ?_, ?_, h.interval, h.rate⟩, ?_⟩
    · simp only [h.time, h.rate]; push_cast; ring
    · simp only [h.rate]; push_cast; ring
    · rw [h.time, h.delta]
  · simp only [mt hc.1 hd, hd, if_false]
    refine ⟨⟨le_trans h.le (by omega), ?_, ?_, h.interval, h.rate⟩, trivial⟩
    · simp only [h.time, h.rate]; push_cast; ring
    · simp only [h.delta, h.rate]; push_cast; ring

theorem run_spec (hsr : 0 < sr) (w : Nat → Frame α i) (cs : List (Call α i o)) (t pos last : Nat) (s : SysSt X.σ φ)
    (h : Counts X s interval sr pos last) :
    ((systemNode X f).exec w cs t s).2 = specRun X f interval sr w cs t pos last s.f s.x := by
  induction cs generalizing t pos last s with
  | nil => rfl
  | cons c cs ih =>
    cases c with
    | reset =>
      exact ih t 0 0 _ ⟨le_refl _, by simp [systemNode], by simp [systemNode], h.interval, h.rate⟩
    | tick =>
      obtain ⟨h1, h2⟩ := h.advance (f := f) hsr 1 (s.time = 0) (by simp)
      simp only [Nat.cast_one] at h1 h2
      have e := ih (t + 1) (pos + 1) _ { s.advance f (s.time = 0) (1 / s.sampleRate) with x := (X.tick (s.advance f (s.time = 0) (1 / s.sampleRate)).x (w t)).1 }
        ⟨h1.le, h1.time, h1.delta, h1.interval, h1.rate⟩
      have h3 := congrArg Prod.fst h2
      have h4 := congrArg Prod.snd h2
      simp only at h3 h4
      refine Eq.trans (congrArg (fun l => (X.tick (s.advance f (s.time = 0) (1 / s.sampleRate)).x (w t)).2 :: l) e) ?_
      simp only [specRun, Call.len]
      rw [← h3, ← h4]
      rfl
    | block size tail old g =>
      obtain ⟨h1, h2⟩ := h.advance (f := f) hsr size (s.time = 0 ∧ 0 < size) Iff.rfl
      have e := ih (t + size) (pos + size) _ { s.advance f (s.time = 0 ∧ 0 < size) (size / s.sampleRate) with
          x := (X.process g (s.advance f (s.time = 0 ∧ 0 < size) (size / s.sampleRate)).x size (blockInput w t size tail) old).1 }
        ⟨h1.le, h1.time, h1.delta, h1.interval, h1.rate⟩
      have h3 := congrArg Prod.fst h2
      have h4 := congrArg Prod.snd h2
      simp only at h3 h4
      refine Eq.trans (congrArg (fun l => (List.range size).map (X.process g (s.advance f (s.time = 0 ∧ 0 < size) (size / s.sampleRate)).x size
        (blockInput w t size tail) old).2.frame ++ l) e) ?_
      simp only [specRun, Call.len]
      rw [← h3, ← h4]
      simp only [Node.exec, List.append_nil]

/-- **C73, meaning.** A system fed any schedule of ticks, blocks and resets gives the samples of the enclosed node run call by call, with the
update function applied exactly at the call boundaries where an update is due: before the first sample after the start or a reset, and when
the update interval has passed since the latest update. It is told the time since the start and the time since the latest update. -/
theorem C73_runs (hsr : 0 < sr) (rate : X.σ → ℝ → X.σ) (x : X.σ) (fs : φ) (w : Nat → Frame α i) (cs : List (Call α i o)) :
    ((systemNode X f).exec w cs 0 ((SysSt.new x interval fs).setSampleRate rate sr)).2 =
      specRun X f interval sr w cs 0 0 0 fs (rate x sr) :=
  run_spec hsr w cs 0 0 0 _ ⟨le_refl _, by simp [SysSt.new, SysSt.setSampleRate], by simp [SysSt.new, SysSt.setSampleRate], rfl, rfl⟩

/-! ## The calls of the update function -/

/-- An update function that also records the times it is given. Any update function may do this. -/
def logged (f : φ → ℝ → ℝ → X.σ → φ × X.σ) : φ × List (ℝ × ℝ) → ℝ → ℝ → X.σ → (φ × List (ℝ × ℝ)) × X.σ :=
  fun fs t dt x => let r := f fs.1 t dt x; ((r.1, fs.2 ++ [(t, dt)]), r.2)

variable (X f) in
/-- The times `(t, dt)` given to the update function over a schedule, from a new system. -/
noncomputable def log (interval sr : ℝ) (x : X.σ) (fs : φ) (rate : X.σ → ℝ → X.σ) (w : Nat → Frame α i) (cs : List (Call α i o)) : List (ℝ × ℝ) :=
  (((systemNode X (logged f)).exec w cs 0 ((SysSt.new x interval (fs, [])).setSampleRate rate sr)).1 : SysSt X.σ (φ × List (ℝ × ℝ))).f.2

open Classical in
/-- The times given to the update function, from the lengths of the calls alone. -/
noncomputable def times (interval sr : ℝ) : List Nat → (pos last : Nat) → List (ℝ × ℝ)
  | [], _, _ => []
  | n :: ns, pos, last =>
    if due interval sr pos last n then ((pos : ℝ) / sr, ((pos - last : ℝ)) / sr) :: times interval sr ns (pos + n) pos
    else times interval sr ns (pos + n) last

theorem log_times (hsr : 0 < sr) (w : Nat → Frame α i) (cs : List (Call α i o)) (hcs : ∀ c ∈ cs, c ≠ .reset) (t pos last : Nat)
    (s : SysSt X.σ (φ × List (ℝ × ℝ))) (h : Counts X s interval sr pos last) :
    (((systemNode X (logged f)).exec w cs t s).1 : SysSt X.σ (φ × List (ℝ × ℝ))).f.2 = s.f.2 ++ times interval sr (cs.map Call.len) pos last := by
  induction cs generalizing t pos last s with
  | nil => simp [times, Node.exec]
  | cons c cs ih =>
    cases c with
    | reset => exact absurd rfl (hcs _ (List.mem_cons_self ..))
    | tick =>
      obtain ⟨h1, h2⟩ := h.advance (f := logged f) hsr 1 (s.time = 0) (by simp)
      simp only [Nat.cast_one] at h1 h2
      have e := ih (fun c hc => hcs c (List.mem_cons_of_mem _ hc)) (t + 1) (pos + 1) _
        { s.advance (logged f) (s.time = 0) (1 / s.sampleRate) with x := (X.tick (s.advance (logged f) (s.time = 0) (1 / s.sampleRate)).x (w t)).1 }
        ⟨h1.le, h1.time, h1.delta, h1.interval, h1.rate⟩
      have h3 := congrArg Prod.fst h2
      simp only at h3
      refine Eq.trans e ?_
      simp only [List.map_cons, times, Call.len]
      rw [h3]
      by_cases hd : due interval sr pos last 1 <;> simp [hd, logged, specUpdate, specLast]
    | block size tail old g =>
      obtain ⟨h1, h2⟩ := h.advance (f := logged f) hsr size (s.time = 0 ∧ 0 < size) Iff.rfl
      have e := ih (fun c hc => hcs c (List.mem_cons_of_mem _ hc)) (t + size) (pos + size) _
        { s.advance (logged f) (s.time = 0 ∧ 0 < size) (size / s.sampleRate) with
          x := (X.process g (s.advance (logged f) (s.time = 0 ∧ 0 < size) (size / s.sampleRate)).x size (blockInput w t size tail) old).1 }
        ⟨h1.le, h1.time, h1.delta, h1.interval, h1.rate⟩
      have h3 := congrArg Prod.fst h2
      simp only at h3
      refine Eq.trans e ?_
      simp only [List.map_cons, times, Call.len]
      rw [h3]
      by_cases hd : due interval sr pos last size <;> simp [hd, logged, specUpdate, specLast]

theorem log_eq (hsr : 0 < sr) (x : X.σ) (fs : φ) (rate : X.σ → ℝ → X.σ) (w : Nat → Frame α i) (cs : List (Call α i o))
    (hcs : ∀ c ∈ cs, c ≠ .reset) : log X f interval sr x fs rate w cs = times interval sr (cs.map Call.len) 0 0 :=
  (log_times (f := f) hsr w cs hcs 0 0 0 ((SysSt.new x interval (fs, [])).setSampleRate rate sr)
    ⟨le_refl _, by simp [SysSt.new, SysSt.setSampleRate], by simp [SysSt.new, SysSt.setSampleRate], rfl, rfl⟩ : _)

/-! ### Facts about `times` -/

theorem times_sum (ns : List Nat) (pos last : Nat) (k : Nat) (hk : k < (times interval sr ns pos last).length) :
    ((times interval sr ns pos last)[k]).1 = last / sr + (((times interval sr ns pos last).take (k + 1)).map Prod.snd).sum := by
  induction ns generalizing pos last k with
  | nil => simp [times] at hk
  | cons n ns ih =>
    by_cases hd : due interval sr pos last n
    · have et : times interval sr (n :: ns) pos last = ((pos : ℝ) / sr, ((pos - last : ℝ)) / sr) :: times interval sr ns (pos + n) pos := by
        simp [times, hd]
      simp only [et] at hk ⊢
      cases k with
      | zero => simp; ring
      | succ k =>
        have := ih (pos + n) pos k (by simpa using hk)
        simp only [List.getElem_cons_succ, List.take_succ_cons, List.map_cons, List.sum_cons]
        rw [this]; ring
    · have et : times interval sr (n :: ns) pos last = times interval sr ns (pos + n) last := by simp [times, hd]
      simp only [et] at hk ⊢
      exact ih (pos + n) last k hk

theorem times_interval (ns : List Nat) (pos last : Nat) (hpos : 0 < pos) : ∀ e ∈ times interval sr ns pos last, interval ≤ e.2 := by
  induction ns generalizing pos last with
  | nil => simp [times]
  | cons n ns ih =>
    intro e he
    by_cases hd : due interval sr pos last n
    · simp only [times, hd, if_true, List.mem_cons] at he
      rcases he with rfl | he
      · rcases hd with ⟨h, _⟩ | h
        · omega
        · exact h
      · exact ih (pos + n) pos (by omega) e he
    · simp only [times, hd, if_false] at he
      exact ih (pos + n) last (by omega) e he

theorem times_prompt (hsr : 0 < sr) (ns : List Nat) (M : Nat) (hM : ∀ n ∈ ns, n ≤ M) (pos last : Nat) (hl : last ≤ pos)
    (h0 : (pos - last : ℝ) / sr ≤ max 0 interval + M / sr) :
    ∀ e ∈ times interval sr ns pos last, e.2 ≤ max 0 interval + M / sr := by
  induction ns generalizing pos last with
  | nil => simp [times]
  | cons n ns ih =>
    have hn : (n : ℝ) / sr ≤ M / sr := by
      have : (n : ℝ) ≤ M := by exact_mod_cast hM n (List.mem_cons_self ..)
      exact div_le_div_of_nonneg_right this hsr.le
    have hM' : ∀ m ∈ ns, m ≤ M := fun m hm => hM m (List.mem_cons_of_mem _ hm)
    intro e he
    by_cases hd : due interval sr pos last n
    · simp only [times, hd, if_true, List.mem_cons] at he
      rcases he with rfl | he
      · exact h0
      · refine ih hM' (pos + n) pos (by omega) ?_ e he
        push_cast
        rw [add_sub_cancel_left]
        linarith [le_max_left 0 interval]
    · simp only [times, hd, if_false] at he
      refine ih hM' (pos + n) last (by omega) ?_ e he
      have : (pos - last : ℝ) / sr < interval := by
        by_contra h
        exact hd (Or.inr (not_lt.1 h))
      push_cast
      have e2 : ((pos : ℝ) + n - last) / sr = (pos - last) / sr + n / sr := by ring
      rw [e2]
      linarith [le_max_right 0 interval]

/-- **C73, start.** The first update precedes the first sample, at time zero. -/
theorem C73_first (hsr : 0 < sr) (x : X.σ) (fs : φ) (rate : X.σ → ℝ → X.σ) (w : Nat → Frame α i) (c : Call α i o) (cs : List (Call α i o))
    (hcs : ∀ d ∈ c :: cs, d ≠ .reset) (hc : 0 < c.len) :
    ∃ rest, log X f interval sr x fs rate w (c :: cs) = (0, 0) :: rest ∧ log X f interval sr x fs rate w [c] = [(0, 0)] ∧
      ∀ e ∈ rest, interval ≤ e.2 := by
  have hd : due interval sr 0 0 c.len := Or.inl ⟨rfl, hc⟩
  refine ⟨times interval sr (cs.map Call.len) c.len 0, ?_, ?_, fun e he => times_interval _ _ _ hc e he⟩
  · rw [log_eq hsr x fs rate w _ hcs]
    simp [times, hd]
  · rw [log_eq hsr x fs rate w _ (by intro d hd; exact hcs d (by simp at hd; simp [hd]))]
    simp [times, hd]

/-- **C73, elapsed times.** The times since the previous update add up to the current time. -/
theorem C73_sum (hsr : 0 < sr) (x : X.σ) (fs : φ) (rate : X.σ → ℝ → X.σ) (w : Nat → Frame α i) (cs : List (Call α i o))
    (hcs : ∀ d ∈ cs, d ≠ .reset) (k : Nat) (hk : k < (log X f interval sr x fs rate w cs).length) :
    ((log X f interval sr x fs rate w cs)[k]).1 = (((log X f interval sr x fs rate w cs).take (k + 1)).map Prod.snd).sum := by
  simp only [log_eq hsr x fs rate w cs hcs] at hk ⊢
  rw [times_sum _ 0 0 k hk]; simp

/-- **C73, promptness.** An update is late by at most the length of one call. -/
theorem C73_prompt (hsr : 0 < sr) (x : X.σ) (fs : φ) (rate : X.σ → ℝ → X.σ) (w : Nat → Frame α i) (cs : List (Call α i o))
    (hcs : ∀ d ∈ cs, d ≠ .reset) (M : Nat) (hM : ∀ d ∈ cs, d.len ≤ M) :
    ∀ e ∈ log X f interval sr x fs rate w cs, e.2 ≤ max 0 interval + M / sr := by
  rw [log_eq hsr x fs rate w cs hcs]
  refine times_prompt hsr _ M ?_ 0 0 (le_refl _) ?_
  · intro n hn
    obtain ⟨d, hd, rfl⟩ := List.mem_map.1 hn
    exact hM d hd
  · have : (0 : ℝ) ≤ M / sr := by positivity
    simp only [Nat.cast_zero, sub_self, zero_div]
    linarith [le_max_left 0 interval]

/-! ### Equal calls -/

/-- The number of calls of `L` samples from one update to the next. -/
noncomputable def period (interval sr : ℝ) (L : Nat) : Nat := max 1 ⌈interval * sr / L⌉₊

theorem period_le (hsr : 0 < sr) {L : Nat} (hL : 0 < L) (j : Nat) (hj : 1 ≤ j) :
    interval ≤ ((j * L : ℕ) : ℝ) / sr ↔ period interval sr L ≤ j := by
  have hL' : (0 : ℝ) < L := by exact_mod_cast hL
  unfold period
  rw [max_le_iff, Nat.ceil_le, div_le_iff₀ hL', le_div_iff₀ hsr]
  push_cast
  exact ⟨fun h => ⟨hj, h⟩, fun h => h.2⟩

theorem times_equal (hsr : 0 < sr) {L : Nat} (hL : 0 < L) (N : Nat) (k j : Nat) (hj : j ≤ period interval sr L) (hj1 : 1 ≤ j) :
    times interval sr (List.replicate N L) ((k * period interval sr L + j) * L) (k * period interval sr L * L) =
      (List.range ((N + j - 1) / period interval sr L)).map
        (fun r => ((((k + 1 + r) * period interval sr L * L : ℕ) : ℝ) / sr, ((period interval sr L * L : ℕ) : ℝ) / sr)) := by
  generalize hm : period interval sr L = m at *
  induction N generalizing k j with
  | zero =>
    rw [show (0 + j - 1) / m = 0 from Nat.div_eq_of_lt (by omega)]; rfl
  | succ N ih =>
    have hm1 : 1 ≤ m := by omega
    have hpos : (k * m + j) * L ≠ 0 := by positivity
    have ed : (((k * m + j) * L : ℕ) : ℝ) - ((k * m * L : ℕ) : ℝ) = ((j * L : ℕ) : ℝ) := by push_cast; ring
    have hd : due interval sr ((k * m + j) * L) (k * m * L) L ↔ j = m := by
      unfold due
      rw [ed, period_le hsr hL j hj1, hm]
      omega
    rw [List.replicate_succ, times]
    by_cases hjm : j = m
    · subst hjm
      rw [if_pos (hd.2 rfl), ed]
      have e1 : (k * j + j) * L + L = ((k + 1) * j + 1) * L := by ring
      have e2 : (k * j + j) * L = (k + 1) * j * L := by ring
      rw [e1, e2, ih (k + 1) 1 (le_refl _) hm1]
      rw [show (N + 1 + j - 1) / j = N / j + 1 by rw [show N + 1 + j - 1 = N + j by omega, Nat.add_div_right _ hm1],
        show N + 1 - 1 = N by omega, List.range_succ_eq_map, List.map_cons, List.map_map]
      refine congrArg₂ List.cons (by simp) (List.map_congr_left fun r _ => ?_)
      simp only [Function.comp, Nat.succ_eq_add_one]
      rw [show k + 1 + 1 + r = k + 1 + (r + 1) by ring]
    · rw [if_neg (mt hd.1 hjm), show (k * m + j) * L + L = (k * m + (j + 1)) * L by ring, ih k (j + 1) (by omega) (by omega)]
      rw [show N + (j + 1) - 1 = N + 1 + j - 1 by omega]

/-- **C73, regular calls.** Over `N` calls of `L` samples (ticks, when `L` is one) the updates are exactly those before every `m`-th call, where
`m` is the update interval in calls, rounded up, and at least one. -/
theorem C73_regular (hsr : 0 < sr) (x : X.σ) (fs : φ) (rate : X.σ → ℝ → X.σ) (w : Nat → Frame α i) (cs : List (Call α i o))
    (hcs : ∀ d ∈ cs, d ≠ .reset) {L : Nat} (hL : 0 < L) (hl : ∀ d ∈ cs, d.len = L) (m : Nat) (hm : m = max 1 ⌈interval * sr / L⌉₊) :
    log X f interval sr x fs rate w cs = (List.range ((cs.length + m - 1) / m)).map
      (fun r => (((r * m * L : ℕ) : ℝ) / sr, if r = 0 then 0 else ((m * L : ℕ) : ℝ) / sr)) := by
  rw [log_eq hsr x fs rate w cs hcs]
  have el : cs.map Call.len = List.replicate cs.length L := by
    rw [List.eq_replicate_iff]
    refine ⟨by simp, fun n hn => ?_⟩
    obtain ⟨d, hd, rfl⟩ := List.mem_map.1 hn
    exact hl d hd
  rw [el]
  have hm' : period interval sr L = m := hm.symm
  have hm1 : 1 ≤ m := by rw [hm]; exact le_max_left _ _
  generalize cs.length = N
  cases N with
  | zero => rw [show (0 + m - 1) / m = 0 from Nat.div_eq_of_lt (by omega)]; rfl
  | succ N =>
    have hd : due interval sr 0 0 L := Or.inl ⟨rfl, hL⟩
    rw [List.replicate_succ, times, if_pos hd]
    have e := times_equal (interval := interval) hsr hL N 0 1 (by rw [hm']; exact hm1) (le_refl _)
    rw [hm'] at e
    rw [show 0 + L = (0 * m + 1) * L by ring]
    rw [zero_mul, zero_mul, zero_add] at e
    rw [zero_mul, zero_add, e]
    rw [show (N + 1 + m - 1) / m = N / m + 1 by rw [show N + 1 + m - 1 = N + m by omega, Nat.add_div_right _ hm1],
      show N + 1 - 1 = N by omega, List.range_succ_eq_map, List.map_cons, List.map_map]
    refine congrArg₂ List.cons (by simp) (List.map_congr_left fun r _ => ?_)
    simp only [Function.comp, Nat.succ_eq_add_one]
    rw [show 0 + 1 + r = r + 1 by ring, if_neg (by omega)]

/-- **C73, no disturbance.** If the update function leaves the node alone, the system is the node. -/
theorem C73_transparent (hf : ∀ fs t dt x, (f fs t dt x).2 = x) (w : Nat → Frame α i) (cs : List (Call α i o)) (t : Nat) (s : SysSt X.σ φ) :
    ((systemNode X f).exec w cs t s).2 = (X.exec w cs t s.x).2 := by
  have hx : ∀ (s : SysSt X.σ φ) P n, (s.advance f P n).x = s.x := by
    intro s P n
    unfold SysSt.advance
    split
    · exact hf _ _ _ _
    · rfl
  induction cs generalizing t s with
  | nil => rfl
  | cons c cs ih =>
    cases c with
    | reset => exact ih t _
    | tick =>
      refine Eq.trans (congrArg (fun l => (X.tick (s.advance f (s.time = 0) (1 / s.sampleRate)).x (w t)).2 :: l) (ih (t + 1) { s.advance f (s.time = 0) (1 / s.sampleRate) with
        x := (X.tick (s.advance f (s.time = 0) (1 / s.sampleRate)).x (w t)).1 })) ?_
      simp only [hx]; rfl
    | block size tail old g =>
      refine Eq.trans (congrArg (fun l => (List.range size).map (X.process g (s.advance f (s.time = 0 ∧ 0 < size) (size / s.sampleRate)).x size
        (blockInput w t size tail) old).2.frame ++ l) (ih (t + size) { s.advance f (s.time = 0 ∧ 0 < size) (size / s.sampleRate) with
        x := (X.process g (s.advance f (s.time = 0 ∧ 0 < size) (size / s.sampleRate)).x size (blockInput w t size tail) old).1 })) ?_
      simp only [hx]; rfl

end

/-! ## Non-vacuity -/

/-- A node whose state is its output. -/
def hold1 : Node ℝ 0 1 where
  σ := ℝ
  reset := id
  tick s _ := (s, fun _ => s)
  process := defaultProcess fun s _ => (s, fun _ => s)

/-- With an interval of two seconds at one sample per second, an update that writes the time is heard every other sample. -/
example : log hold1 (fun (_ : Unit) t _ _ => ((), t)) 2 1 (0 : ℝ) () (fun x _ => x) (fun _ => Fin.elim0) (List.replicate 5 .tick)
    = [(0, 0), (2, 2), (4, 2)] := by
  refine (C73_regular (X := hold1) (by norm_num) _ _ _ _ _ (by intro d hd; rw [List.eq_of_mem_replicate hd]; simp) (L := 1) (by norm_num)
    (by intro d hd; rw [List.eq_of_mem_replicate hd]; rfl) 2 (by norm_num)).trans ?_
  simp [List.range_succ]
  norm_num

end Fundsp.Sys
