import Verif.Seq.Props
import Mathlib.Data.List.MinMax

/-!
# C23, C71: what fails

The unit is a constant signal, the sample rate is one (any other rate is the same up to units of time), and the fade is `Fade::Smooth`.
-/

namespace Fundsp.Seq

/-- `dc(1.0)`. -/
def one : Node ℝ 0 1 := Node.ofTick Unit id (fun s _ => (s, fun _ => 1))

/-- Its only state. -/
def u0 : one.σ := (() : Unit)

theorem one_tickBlock : TickBlock one := tickBlock_ofTick id _

theorem one_stream (s : one.σ) (w : Nat → Frame ℝ 0) (k : ℕ) (c : Fin 1) : one.stream s w k c = 1 := rfl

theorem one_process (g : Garb ℝ) (s : one.σ) (size : ℕ) (inp : Buf ℝ 0) (out : Buf ℝ 1) (hs : size ≤ 64) (c : Fin 1) (k : ℕ) (hk : k < size) :
    (one.process g s size inp out).2 c k = 1 := by
  obtain ⟨R, hrefl, _, hI⟩ := one_tickBlock
  exact congrFun ((hI.process g s s size inp out hs (hrefl s)).2 k hk) c

theorem pop_single {K U : Type} [LE K] (H : Heap K U) (e : Ev K U) : H.pop [e] = some (e, []) := by
  cases h : H.pop [e] with
  | none => simp [H.pop_none] at h
  | some x =>
    obtain ⟨e', r⟩ := x
    have := H.pop_perm _ _ _ h
    obtain ⟨h1, h2⟩ := List.cons.inj (List.perm_singleton.1 this.symm)
    rw [h1, h2]

/-- A sequencer at rate one in which one event waits. -/
def wait {U : Type} (replay : Bool) (e : Ev ℝ U) (thr : Option ℝ) (time : ℝ) : Sq ℝ U :=
  ⟨[], fun _ => none, thr, [e], [], fun _ => none, time, 1, 1, replay⟩

theorem new_push {U : Type} (replay : Bool) (e : Ev ℝ U) : (Sq.new replay 1 : Sq ℝ U).push (fun _ u => u) e = wait replay e none 0 := by
  unfold Sq.push Sq.pushEvent Sq.new wait
  simp only [below, Bool.false_eq_true, if_false, div_one, List.nil_append]
  rfl

/-- A block in which a waiting event starts. -/
theorem process_single (X : Node ℝ 0 1) (H : Heap ℝ X.σ) (ease : Fade → ℝ → ℝ) (g : Garb ℝ) (inp : Buf ℝ 0) (buf out : Buf ℝ 1) (e : Ev ℝ X.σ)
    (size : ℕ) (h1 : e.start < size - 1 / 2) (h2 : e.endsBy (1 / 2 : ℝ) = false) :
    (Sq.run X H ease (fun _ u => u) [.push e, .block size out buf g inp] (Sq.new false 1)).2 =
      (List.range size).map (blockPlay X ease g inp 1 1 0 size size e (setItems size (fun _ _ => 0) out, buf)).2.1.frame := by
  have hr : Sq.readyToActive H (wait false e none 0) size =
      ⟨[e], Function.update (fun _ => none) e.id (some 0), some ((size : ℝ) - 1 / 2), [], [], Function.update (fun _ => none) e.id none, 0, 1, 1, false⟩ := by
    unfold Sq.readyToActive
    simp only [wait, List.length_singleton, readyLoop, pop_single]
    rw [if_pos (by rw [one_mul]; exact h1)]
    simp only [one_mul]
    rfl
  simp only [Sq.run, Sq.step, new_push, List.nil_append, List.append_nil]
  congr 1
  unfold Sq.process
  have e0 : (if (wait false e none 0).replay = true then wait false e none 0 else { wait false e none 0 with past := [] }) = wait false e none 0 := rfl
  have et : (wait false e none 0).time + (wait false e none 0).sd * size = size := by simp [wait]
  simp only [e0, et, hr]
  have h2' : e.endsBy ((0 : ℝ) + 1 / 2 * 1) = false := by simpa using h2
  simp only [List.length_singleton, evLoop, List.getElem?_cons_zero, h2']
  rfl

/-- The same event, ticked. -/
theorem tick_single (H : Heap ℝ one.σ) (ease : Fade → ℝ → ℝ) (e : Ev ℝ one.σ) (size : ℕ) (k : ℕ) (hk : k < size) :
    (Sq.run one H ease (fun _ u => u) (.push e :: List.replicate size .tick) (Sq.new false 1)).2[k]? =
      some (fun _ => if e.start < k + 1 / 2 ∧ ∀ x, e.stop = some x → (k : ℝ) + 1 / 2 < x then gain ease e k else 0) := by
  have := C22_windows one H ease (fun _ u => u) false 1 one_pos [e] (by simp) size
  simp only [playOps, List.map_cons, List.map_nil, List.singleton_append] at this
  rw [this, List.getElem?_map, List.getElem?_range hk]
  simp only [Option.map_some, Option.some.injEq]
  funext c
  simp only [mixture, List.map_cons, List.map_nil, List.sum_cons, List.sum_nil, add_zero, part, one_stream, mul_one, div_one, Ev.sounds]

/-- **C23** violation: an event that starts inside a block and whose fade-in ends inside the same block is multiplied by values of the fade curve far
beyond its end. Here the sample at time 63 should be 1 and is `smooth5 (31 / 8)`. -/
theorem C23_violation_fade_in (H : Heap ℝ one.σ) (ease : Fade → ℝ → ℝ) (hs : ease .smooth = Math.smooth5) (out buf : Buf ℝ 1) (g : Garb ℝ)
    (inp : Buf ℝ 0) :
    let e : Ev ℝ one.σ := { unit := u0, start := 32, stop := none, ease := .smooth, fadeIn := 8, fadeOut := 0, id := 0 }
    ∃ b t, (Sq.run one H ease (fun _ u => u) [.push e, .block 64 out buf g inp] (Sq.new false 1)).2[63]? = some b ∧
      (Sq.run one H ease (fun _ u => u) (.push e :: List.replicate 64 .tick) (Sq.new false 1)).2[63]? = some t ∧
      t 0 = 1 ∧ b 0 = Math.smooth5 (31 / 8) ∧ 2000 < b 0 := by
  intro e
  refine ⟨(blockPlay one ease g inp 1 1 0 (64 : ℕ) 64 e (setItems 64 (fun _ _ => 0) out, buf)).2.1.frame 63, _, ?_,
    tick_single H ease e 64 63 (by norm_num), ?_, ?_⟩
  · rw [process_single one H ease g inp buf out e 64 (by norm_num [e]) (by simp [e, Ev.endsBy])]
    rw [List.getElem?_map, List.getElem?_range (by norm_num)]; rfl
  · rw [if_pos ⟨by norm_num [e], by simp [e]⟩]
    unfold gain gainIn gainOut
    simp only [e]
    norm_num
  · have hi0 : startIndex 1 0 e = 32 := by
      unfold startIndex
      rw [if_neg (by norm_num [e])]
      simp only [e, sub_zero, mul_one]
      exact_mod_cast rnd_nat (K := ℝ) 32
    have hi1 : endIndex 1 0 64 64 e = 64 := rfl
    have hm : rnd ((32 + 8 - 0) / 1 : ℝ) = 40 := by
      rw [show ((32 + 8 - 0) / 1 : ℝ) = ((40 : ℕ) : ℝ) by norm_num]; exact rnd_nat 40
    have hv : (blockPlay one ease g inp 1 1 0 (64 : ℕ) 64 e (setItems 64 (fun _ _ => 0) out, buf)).2.1.frame 63 0 = Math.smooth5 (31 / 8) := by
      unfold blockPlay Buf.frame
      simp only [Nat.cast_ofNat, hi0, hi1]
      simp only [show (32 : ℕ) < 64 by norm_num, if_true, show ¬ (32 : ℕ) = 0 by norm_num, if_false]
      unfold addSamples
      rw [if_pos (by norm_num)]
      unfold blockFadeOut
      simp only [show e.stop = none from rfl]
      unfold blockFadeIn
      rw [if_pos (by norm_num [e])]
      simp only [show e.start = 32 from rfl, show e.fadeIn = 8 from rfl, show e.ease = .smooth from rfl, hs]
      rw [if_neg (show ¬ (64 : ℝ) ≤ 32 + 8 by norm_num), hm]
      rw [if_pos (by norm_num), one_process _ _ _ _ _ (by norm_num) _ _ (by norm_num)]
      unfold setItems simdItems
      rw [if_pos (by decide)]
      rw [zero_add, one_mul]
      congr 1
      unfold delerp; norm_num
    refine ⟨hv, ?_⟩
    rw [hv]; unfold Math.smooth5; norm_num

/-- **C23** violation: an event that starts inside a block and whose fade-out begins inside the same block is faded out too late or not at all.
Here the last sample should be `smooth5 (1 / 8)` and is 1. -/
theorem C23_violation_fade_out (H : Heap ℝ one.σ) (ease : Fade → ℝ → ℝ) (hs : ease .smooth = Math.smooth5) (out buf : Buf ℝ 1) (g : Garb ℝ)
    (inp : Buf ℝ 0) :
    let e : Ev ℝ one.σ := { unit := u0, start := 8, stop := some 24, ease := .smooth, fadeIn := 0, fadeOut := 8, id := 0 }
    ∃ b t, (Sq.run one H ease (fun _ u => u) [.push e, .block 64 out buf g inp] (Sq.new false 1)).2[23]? = some b ∧
      (Sq.run one H ease (fun _ u => u) (.push e :: List.replicate 64 .tick) (Sq.new false 1)).2[23]? = some t ∧
      t 0 = Math.smooth5 (1 / 8) ∧ t 0 < 1 / 50 ∧ b 0 = 1 := by
  intro e
  have ht : (if e.start < ((23 : ℕ) : ℝ) + 1 / 2 ∧ ∀ x, e.stop = some x → ((23 : ℕ) : ℝ) + 1 / 2 < x then gain ease e (23 : ℕ) else 0) =
      Math.smooth5 (1 / 8) := by
    rw [if_pos ⟨by norm_num [e], by intro x hx; simp only [e, Option.some.injEq] at hx; rw [← hx]; norm_num⟩]
    unfold gain gainIn gainOut
    simp only [e, hs]
    norm_num
  refine ⟨(blockPlay one ease g inp 1 1 0 (64 : ℕ) 64 e (setItems 64 (fun _ _ => 0) out, buf)).2.1.frame 23, _, ?_,
    tick_single H ease e 64 23 (by norm_num), ht, ?_, ?_⟩
  · rw [process_single one H ease g inp buf out e 64 (by norm_num [e]) (by simp [e, Ev.endsBy]; norm_num)]
    rw [List.getElem?_map, List.getElem?_range (by norm_num)]; rfl
  · rw [ht]; unfold Math.smooth5; norm_num
  · have hi0 : startIndex 1 0 e = 8 := by
      unfold startIndex
      rw [if_neg (by norm_num [e])]
      simp only [e, sub_zero, mul_one]
      exact_mod_cast rnd_nat (K := ℝ) 8
    have hi1 : endIndex 1 0 64 64 e = 24 := by
      unfold endIndex
      simp only [e]
      rw [if_neg (by norm_num), sub_zero, mul_one]
      exact_mod_cast rnd_nat (K := ℝ) 24
    have hm : rnd ((24 - 8 - 0) / 1 : ℝ) = 16 := by
      rw [show ((24 - 8 - 0) / 1 : ℝ) = ((16 : ℕ) : ℝ) by norm_num]; exact rnd_nat 16
    unfold blockPlay Buf.frame
    simp only [Nat.cast_ofNat, hi0, hi1]
    simp only [show (8 : ℕ) < 24 by norm_num, if_true, show ¬ (8 : ℕ) = 0 by norm_num, if_false]
    unfold addSamples
    rw [if_pos (by norm_num)]
    unfold blockFadeOut
    simp only [show e.stop = some 24 from rfl, show e.fadeOut = 8 from rfl]
    rw [if_pos (by norm_num), if_neg (show ¬ (24 - 8 : ℝ) ≤ 0 by norm_num), hm, if_neg (by norm_num)]
    unfold blockFadeIn
    rw [if_neg (by norm_num [e])]
    rw [one_process _ _ _ _ _ (by norm_num) _ _ (by norm_num)]
    unfold setItems simdItems
    rw [if_pos (by decide), zero_add]

/-- **C23** violation: an event that ends exactly in the middle of a sample sounds in that sample when processed in a block, but not when ticked. -/
theorem C23_violation_half (H : Heap ℝ one.σ) (ease : Fade → ℝ → ℝ) (out buf : Buf ℝ 1) (g : Garb ℝ) (inp : Buf ℝ 0) :
    let e : Ev ℝ one.σ := { unit := u0, start := 0, stop := some (5 / 2), ease := .smooth, fadeIn := 0, fadeOut := 0, id := 0 }
    ∃ b t, (Sq.run one H ease (fun _ u => u) [.push e, .block 4 out buf g inp] (Sq.new false 1)).2[2]? = some b ∧
      (Sq.run one H ease (fun _ u => u) (.push e :: List.replicate 4 .tick) (Sq.new false 1)).2[2]? = some t ∧
      t 0 = 0 ∧ b 0 = 1 := by
  intro e
  refine ⟨(blockPlay one ease g inp 1 1 0 (4 : ℕ) 4 e (setItems 4 (fun _ _ => 0) out, buf)).2.1.frame 2, _, ?_,
    tick_single H ease e 4 2 (by norm_num), ?_, ?_⟩
  · rw [process_single one H ease g inp buf out e 4 (by norm_num [e]) (by simp [e, Ev.endsBy]; norm_num)]
    rw [List.getElem?_map, List.getElem?_range (by norm_num)]; rfl
  · rw [if_neg]
    rintro ⟨_, h⟩
    have := h (5 / 2) rfl
    norm_num at this
  · have hi0 : startIndex 1 0 e = 0 := by
      unfold startIndex
      rw [if_pos (by norm_num [e])]
    have hi1 : endIndex 1 0 4 4 e = 3 := by
      unfold endIndex
      simp only [e]
      rw [if_neg (by norm_num), sub_zero, mul_one]
      unfold rnd
      norm_num
      rfl
    unfold blockPlay Buf.frame
    simp only [Nat.cast_ofNat, hi0, hi1]
    simp only [show (0 : ℕ) < 3 by norm_num, if_true]
    unfold addSamples
    rw [if_pos (by decide)]
    unfold blockFadeOut
    simp only [show e.stop = some (5 / 2) from rfl, show e.fadeOut = 0 from rfl]
    rw [if_neg (by norm_num)]
    unfold blockFadeIn
    rw [if_neg (by norm_num [e])]
    rw [one_process _ _ _ _ _ (by norm_num) _ _ (by norm_num)]
    unfold addItems setItems simdItems
    rw [if_neg (by decide), if_pos (by decide), zero_add]

theorem Sq.run_append {K : Type} [Field K] [LinearOrder K] [IsStrictOrderedRing K] [FloorRing K] {n : ℕ} (X : Node K 0 n) (H : Heap K X.σ)
    (ease : Fade → K → K) (setRate : K → X.σ → X.σ) :
    ∀ (os os' : List (Op K X.σ n)) (s : Sq K X.σ), Sq.run X H ease setRate (os ++ os') s =
      ((Sq.run X H ease setRate os' (Sq.run X H ease setRate os s).1).1,
       (Sq.run X H ease setRate os s).2 ++ (Sq.run X H ease setRate os' (Sq.run X H ease setRate os s).1).2)
  | [], _, _ => by simp [Sq.run]
  | o :: os, os', s => by
    simp only [List.cons_append, Sq.run]
    rw [Sq.run_append X H ease setRate os os']
    simp [List.append_assoc]

/-- A waiting event does nothing. -/
theorem tick_idle (X : Node ℝ 0 1) (H : Heap ℝ X.σ) (ease : Fade → ℝ → ℝ) (e : Ev ℝ X.σ) (thr : Option ℝ) (t : ℝ) (hlt : t + 1 / 2 ≤ e.start) :
    (wait true e thr t).tick X H ease = (wait true e (some (t + 1 / 2)) (t + 1), fun _ => 0) := by
  have h1 : (wait true e thr t).readyToActive H (t + 1) = wait true e (some (t + 1 / 2)) t := by
    unfold Sq.readyToActive
    simp only [wait, List.length_singleton, readyLoop, pop_single]
    rw [if_neg (by linarith), one_mul]
    congr 2; ring
  unfold Sq.tick
  have e0 : (if (wait true e thr t).replay = true then wait true e thr t else { wait true e thr t with past := [] }) = wait true e thr t := rfl
  have et : (wait true e thr t).time + (wait true e thr t).sd = t + 1 := by simp [wait]
  simp only [e0, et, h1]
  rfl

theorem ticks_idle (X : Node ℝ 0 1) (H : Heap ℝ X.σ) (ease : Fade → ℝ → ℝ) (sr : ℝ → X.σ → X.σ) (e : Ev ℝ X.σ) : ∀ (k : ℕ) (thr : Option ℝ) (t : ℝ),
    t + k + 1 / 2 ≤ e.start → (Sq.run X H ease sr (List.replicate (k + 1) .tick) (wait true e thr t)).1 = wait true e (some (t + k + 1 / 2)) (t + k + 1)
  | 0, thr, t, h => by
    simp only [List.replicate, Sq.run, Sq.step]
    rw [tick_idle X H ease e thr t (by simpa using h)]
    simp
  | k + 1, thr, t, h => by
    push_cast at h
    have ih := ticks_idle X H ease sr e k (some (t + 1 / 2)) (t + 1) (by linarith)
    rw [List.replicate_succ]
    have hk : (0 : ℝ) ≤ k := Nat.cast_nonneg k
    simp only [Sq.run, Sq.step]
    rw [tick_idle X H ease e thr t (by linarith)]
    refine ih.trans ?_
    push_cast
    congr 2 <;> ring

theorem wait_edit {U : Type} (e : Ev ℝ U) : (wait true e (some (7 / 2)) 4).edit 0 (some 1) 0 = wait true e (some (7 / 2)) 4 := by
  unfold Sq.edit
  simp only [wait, stopBelow, below]
  norm_num

theorem wait_four (X : Node ℝ 0 1) (H : Heap ℝ X.σ) (ease : Fade → ℝ → ℝ) (e : Ev ℝ X.σ) (he : e.start = 10) :
    (Sq.run X H ease (fun _ u => u) (playOps [e] 4) (Sq.new true 1)).1 = wait true e (some (7 / 2)) 4 := by
  have := ticks_idle X H ease (fun _ u => u) e 3 none 0 (by rw [he]; norm_num)
  have hp : (playOps [e] 4 : List (Op ℝ X.σ 1)) = [.push e] ++ List.replicate 4 .tick := rfl
  have hq : (Sq.run X H ease (fun _ u => u) [.push e] (Sq.new true 1)).1 = wait true e none 0 := new_push true e
  rw [hp, Sq.run_append, hq]
  simp only
  rw [this]
  norm_num

theorem playOps_add {U : Type} (es : List (Ev ℝ U)) (a b : ℕ) : (playOps es (a + b) : List (Op ℝ U 1)) = playOps es a ++ List.replicate b .tick := by
  simp only [playOps, List.append_assoc, List.replicate_append_replicate]

theorem wait_edit_run (X : Node ℝ 0 1) (H : Heap ℝ X.σ) (ease : Fade → ℝ → ℝ) (sr : ℝ → X.σ → X.σ) (e : Ev ℝ X.σ) :
    Sq.run X H ease sr [.edit 0 (some 1) 0] (wait true e (some (7 / 2)) 4) = (wait true e (some (7 / 2)) 4, []) := by
  simp only [Sq.run, Sq.step, wait_edit, List.append_nil]

theorem run_skip (X : Node ℝ 0 1) (H : Heap ℝ X.σ) (ease : Fade → ℝ → ℝ) (sr : ℝ → X.σ → X.σ) (s w : Sq ℝ X.σ) (o1 o2 o3 : List (Op ℝ X.σ 1))
    (h1 : (Sq.run X H ease sr o1 s).1 = w) (h2 : Sq.run X H ease sr o2 w = (w, [])) :
    (Sq.run X H ease sr (o1 ++ (o2 ++ o3)) s).2 = (Sq.run X H ease sr (o1 ++ o3) s).2 := by
  rw [Sq.run_append, Sq.run_append, Sq.run_append, h1, h2]
  simp only [List.nil_append]

theorem edit_ignored (X : Node ℝ 0 1) (H : Heap ℝ X.σ) (ease : Fade → ℝ → ℝ) (e : Ev ℝ X.σ) (he : e.start = 10) (m : ℕ) :
    (Sq.run X H ease (fun _ u => u) (playOps [e] 4 ++ .edit 0 (some 1) 0 :: List.replicate m .tick) (Sq.new true 1)).2 =
      (Sq.run X H ease (fun _ u => u) (playOps [e] (4 + m)) (Sq.new true 1)).2 := by
  rw [playOps_add]
  exact run_skip X H ease _ _ _ _ [.edit 0 (some 1) 0] _ (wait_four X H ease e he) (wait_edit_run X H ease _ e)

/-- **C71** violation: an edit that moves the end time of a waiting event into the past is ignored, the event is played in full. Here an event
from 10 to infinity is edited at time 4 to end at time 1, and sounds at time 12. -/
theorem C71_violation (H : Heap ℝ one.σ) (ease : Fade → ℝ → ℝ) :
    let e : Ev ℝ one.σ := { unit := u0, start := 10, stop := none, ease := .smooth, fadeIn := 0, fadeOut := 0, id := 0 }
    ∃ y, (Sq.run one H ease (fun _ u => u) (playOps [e] 4 ++ .edit 0 (some 1) 0 :: List.replicate 10 .tick) (Sq.new true 1)).2[12]? = some y ∧
      y 0 = 1 := by
  intro e
  rw [edit_ignored one H ease e rfl 10, C22_windows one H ease (fun _ u => u) true 1 one_pos [e] (by simp) (4 + 10), List.getElem?_map,
    List.getElem?_range (by norm_num)]
  refine ⟨_, rfl, ?_⟩
  simp only [mixture, List.map_cons, List.map_nil, List.sum_cons, List.sum_nil, add_zero, part, one_stream, mul_one]
  rw [if_pos ⟨by norm_num [e], by simp [e]⟩]
  unfold gain gainIn gainOut
  simp only [e]
  norm_num

/-! ### Cases meeting the hypotheses -/

/-- A heap: the list is searched for an event with the earliest start time. -/
noncomputable def listHeap (U : Type) [DecidableEq (Ev ℝ U)] : Heap ℝ U where
  pop l := (l.argmin (·.start)).map fun e => (e, l.erase e)
  pop_none := by
    intro l
    rw [Option.map_eq_none_iff, List.argmin_eq_none]
  pop_perm := by
    intro l e r h
    rw [Option.map_eq_some_iff] at h
    obtain ⟨a, ha, hb⟩ := h
    obtain ⟨rfl, rfl⟩ := Prod.mk.inj hb
    exact List.perm_cons_erase (List.argmin_mem ha)
  pop_min := by
    intro l e r h x hx
    rw [Option.map_eq_some_iff] at h
    obtain ⟨a, ha, hb⟩ := h
    obtain ⟨rfl, rfl⟩ := Prod.mk.inj hb
    exact List.le_of_mem_argmin hx ha

/-- `C22_windows` and `C22_replay`: two overlapping events, one with fades, and the samples in which they sound. -/
example (H : Heap ℝ one.σ) (ease : Fade → ℝ → ℝ) :
    let es : List (Ev ℝ one.σ) := [⟨u0, 1, some 3, .smooth, 0, 0, 0⟩, ⟨u0, 2, none, .smooth, 4, 0, 1⟩]
    (Sq.run one H ease (fun _ u => u) (playOps es 3 ++ .reset :: List.replicate 3 .tick) (Sq.new true 1)).2 =
      [fun _ => 0, fun _ => 1, fun _ => 1 + ease .smooth 0, fun _ => 0, fun _ => 1, fun _ => 1 + ease .smooth 0] := by
  intro es
  rw [C22_replay one H ease (fun _ u => u) 1 one_pos es (by simp [es]) 3 3 (fun _ _ _ => rfl)]
  have h0 : mixture one ease (fun _ u => u) 1 es 0 = fun _ => 0 := by
    funext c
    simp only [mixture, es, List.map_cons, List.map_nil, List.sum_cons, List.sum_nil, part, Ev.sounds]
    norm_num
  have h1 : mixture one ease (fun _ u => u) 1 es 1 = fun _ => 1 := by
    funext c
    simp only [mixture, es, List.map_cons, List.map_nil, List.sum_cons, List.sum_nil, part, Ev.sounds, one_stream, gain, gainIn, gainOut]
    norm_num
  have h2 : mixture one ease (fun _ u => u) 1 es 2 = fun _ => 1 + ease .smooth 0 := by
    funext c
    simp only [mixture, es, List.map_cons, List.map_nil, List.sum_cons, List.sum_nil, part, Ev.sounds, one_stream, gain, gainIn, gainOut]
    norm_num
    intro x hx; simp at hx
  simp only [List.range_succ, List.range_zero, List.map_append, List.map_nil, List.map_cons, h0, h1, h2]
  rfl

/-- `C23_block_equals_tick_partial`: a block with an event from sample 10 to sample 50, then one with the tail of a second event. -/
example (H : Heap ℝ one.σ) (ease : Fade → ℝ → ℝ) (he : ∀ f, ease f 1 = 1) (out buf : Buf ℝ 1) (g : Garb ℝ) (inp : Buf ℝ 0) :
    let e : Ev ℝ one.σ := ⟨u0, 10, some 50, .smooth, 0, 0, 0⟩
    (Sq.run one H ease (fun _ u => u) [.push e, .block 64 out buf g inp] (Sq.new false 1)).2 =
    (Sq.run one H ease (fun _ u => u) (unblockOps [.push e, .block 64 out buf g inp]) (Sq.new false 1)).2 := by
  intro e
  refine C23_block_equals_tick_partial one one_tickBlock H ease he _ false 1 one_pos _ ⟨by simp [Ok, Sp.new], ⟨by norm_num, by norm_num, ?_⟩, trivial⟩
  intro x hx
  simp only [Sp.step, Sp.push, Sp.new, List.nil_append, List.mem_singleton] at hx
  subst hx
  refine ⟨?_, .inl ?_, ?_⟩
  · intro s hs _ _ m hm
    simp only [Ev.rated, Ev.map, e, Option.some.injEq] at hs
    subst hs
    simp only [Sp.step, Sp.push, Sp.new] at hm
    have : (2 : ℝ) * m + 1 = 100 := by linarith
    have : 2 * m + 1 = 100 := by exact_mod_cast this
    omega
  · simp [Ev.rated, Ev.map, e]
  · intro s hs; left; simp [Ev.rated, Ev.map, e]

/-- `C71_edit_partial`: an event in progress is cut short. -/
example (H : Heap ℝ one.σ) (ease : Fade → ℝ → ℝ) :
    let e : Ev ℝ one.σ := ⟨u0, 1, none, .smooth, 0, 0, 7⟩
    (Sq.run one H ease (fun _ u => u) (playOps [e] 3 ++ .edit 7 (some 4) 0 :: List.replicate 2 .tick) (Sq.new false 1)).2 =
      [fun _ => 0, fun _ => 1, fun _ => 1, fun _ => 1, fun _ => 0] := by
  intro e
  rw [C71_edit_partial one H ease (fun _ u => u) false 1 one_pos [e] (by simp) 3 2 7 (some 4) 0
    (by intro x hx _; rw [List.mem_singleton.1 hx]; exact ⟨by simp [e], .inl (by norm_num [e])⟩)]
  have h0 : ∀ k : ℕ, mixture one ease (fun _ u => u) 1 [e] k = fun _ => if (1 : ℝ) < k + 1 / 2 then 1 else 0 := by
    intro k
    funext c
    simp only [mixture, e, List.map_cons, List.map_nil, List.sum_cons, List.sum_nil, part, Ev.sounds, one_stream, gain, gainIn, gainOut]
    simp
  have h1 : ∀ k : ℕ, mixture one ease (fun _ u => u) 1 ([e].map fun e => if e.id = 7 then { e with stop := some 4, fadeOut := 0 } else e) k =
      fun _ => if (1 : ℝ) < k + 1 / 2 ∧ (k : ℝ) + 1 / 2 < 4 then 1 else 0 := by
    intro k
    funext c
    simp only [mixture, e, List.map_cons, List.map_nil, List.sum_cons, List.sum_nil, part, Ev.sounds, one_stream, gain, gainIn, gainOut]
    simp
  rw [show mixture one ease (fun _ u => u) 1 [e] = _ from funext h0]
  rw [funext fun j => h1 (3 + j)]
  simp only [List.range_succ, List.range_zero, List.map_append, List.map_nil, List.map_cons]
  norm_num

end Fundsp.Seq
