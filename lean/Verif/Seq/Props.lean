import Verif.Seq.Run
import Verif.Math.Props
import Mathlib.Data.Real.Archimedean

/-!
# C22, C23, C71: sequencers

The specification is in `Seq/Spec.lean`: a list of events, each of which sounds in the samples whose middle lies between its start and its end.
-/

namespace Fundsp.Seq
variable {K : Type} [Field K] [LinearOrder K] [IsStrictOrderedRing K] [FloorRing K] {n : Nat} {U : Type}

/-- **C22**: on any sequence of pushes, relative pushes, edits, resets and ticks the sequencer outputs what the list of events says. -/
theorem C22_refines (X : Node K 0 n) (H : Heap K X.σ) (ease : Fade → K → K) (setRate : K → X.σ → X.σ) (replay : Bool) (sr : K) (hsr : 0 < sr)
    (ops : List (Op K X.σ n)) (hno : ∀ o ∈ ops, o.isBlock = false) (hok : Oks (ut X) X.reset ease setRate ops (Sp.new replay sr)) :
    (Sq.run X H ease setRate ops (Sq.new replay sr)).2 = (Sp.run (ut X) X.reset ease setRate ops (Sp.new replay sr)).2 :=
  (Rel.run (behaves_id X) H ease setRate ops (Rel.init replay sr hsr) (fun o ho h => by rw [hno o ho] at h; simp at h) hok).2

/-- With blocks. -/
theorem refines_blocks (X : Node K 0 n) (hX : TickBlock X) (H : Heap K X.σ) (ease : Fade → K → K) (he : ∀ f, ease f 1 = 1)
    (setRate : K → X.σ → X.σ) (replay : Bool) (sr : K) (hsr : 0 < sr) (ops : List (Op K X.σ n))
    (hok : Oks (ut X) X.reset ease setRate ops (Sp.new replay sr)) :
    (Sq.run X H ease setRate ops (Sq.new replay sr)).2 = (Sp.run (ut X) X.reset ease setRate ops (Sp.new replay sr)).2 := by
  have h0 : (Sp.new replay sr : Sp K (List Bool → Frame K n)) = (Sp.new replay sr : Sp K X.σ).map (behave X) := rfl
  have hok' := Oks_map (behaves_behave X) ease setRate ops _ hok
  rw [← h0] at hok'
  rw [(Rel.run (behaves_behave X) H ease setRate ops (Rel.init replay sr hsr) (fun _ _ _ => ⟨behavesBlock_behave hX, he⟩) hok').2, h0,
    Sp.run_map (behaves_behave X)]

/-- Calls with every block replaced by ticks. -/
def unblockOps : List (Op K U n) → List (Op K U n)
  | [] => []
  | .block size _ _ _ _ :: os => List.replicate size .tick ++ unblockOps os
  | .push e :: os => .push e :: unblockOps os
  | .pushRel e :: os => .pushRel e :: unblockOps os
  | .edit id stop fo :: os => .edit id stop fo :: unblockOps os
  | .editRel id stop fo :: os => .editRel id stop fo :: unblockOps os
  | .reset :: os => .reset :: unblockOps os
  | .tick :: os => .tick :: unblockOps os

theorem unblock_isBlock : ∀ (os : List (Op K U n)), ∀ o ∈ unblockOps os, o.isBlock = false
  | [], _, h => by simp [unblockOps] at h
  | .block .. :: os, o, h => by
    rcases List.mem_append.1 h with h | h
    · rw [(List.mem_replicate.1 h).2]; rfl
    · exact unblock_isBlock os o h
  | .push _ :: os, o, h | .pushRel _ :: os, o, h | .edit .. :: os, o, h | .editRel .. :: os, o, h | .reset :: os, o, h | .tick :: os, o, h => by
    rcases List.mem_cons.1 h with h | h
    · rw [h]; rfl
    · exact unblock_isBlock os o h

theorem run_unblock {V B : Type} (tick : B → B × Frame K n) (reset : B → B) (ease : Fade → K → K) (setRate : K → V → B) :
    ∀ (os : List (Op K V n)) (p : Sp K B), Oks tick reset ease setRate os p → Oks tick reset ease setRate (unblockOps os) p ∧
      Sp.run tick reset ease setRate (unblockOps os) p = Sp.run tick reset ease setRate os p
  | [], _, _ => ⟨trivial, rfl⟩
  | .block size out buf g inp :: os, p, h => by
    obtain ⟨h1, h2⟩ := run_unblock tick reset ease setRate os _ h.2
    refine ⟨?_, ?_⟩
    · rw [unblockOps, Oks_append]
      refine ⟨Oks_ticks .., ?_⟩
      rw [Sp.run_ticks]; exact h1
    · rw [unblockOps, Sp.run_append, Sp.run_ticks]
      have h3 : Sp.run tick reset ease setRate (unblockOps os) (p.ticks tick ease size).1 =
          Sp.run tick reset ease setRate os (p.ticks tick ease size).1 := h2
      rw [h3]; rfl
  | .push _ :: os, p, h | .pushRel _ :: os, p, h | .edit .. :: os, p, h | .editRel .. :: os, p, h | .reset :: os, p, h | .tick :: os, p, h => by
    obtain ⟨h1, h2⟩ := run_unblock tick reset ease setRate os _ h.2
    refine ⟨⟨h.1, h1⟩, ?_⟩
    simp only [unblockOps, Sp.run]
    rw [h2]

/-- **C23** (partial): a schedule of calls with blocks gives the same samples as with ticks, whatever the units, block sizes, and events, provided
that for every block every event meets `BlockOk`: no event ends exactly at half a sample inside the block, fades that end (begin) within the block do
so on a sample, and the event did not start within the same block. Missing: the other alignments, for which the claim is false, see
`C23_violation_half`, `C23_violation_fade_in`, `C23_violation_fade_out`. -/
theorem C23_block_equals_tick_partial (X : Node K 0 n) (hX : TickBlock X) (H : Heap K X.σ) (ease : Fade → K → K) (he : ∀ f, ease f 1 = 1)
    (setRate : K → X.σ → X.σ) (replay : Bool) (sr : K) (hsr : 0 < sr) (ops : List (Op K X.σ n))
    (hok : Oks (ut X) X.reset ease setRate ops (Sp.new replay sr)) :
    (Sq.run X H ease setRate ops (Sq.new replay sr)).2 = (Sq.run X H ease setRate (unblockOps ops) (Sq.new replay sr)).2 := by
  obtain ⟨h1, h2⟩ := run_unblock (ut X) X.reset ease setRate ops _ hok
  rw [refines_blocks X hX H ease he setRate replay sr hsr ops hok,
    C22_refines X H ease setRate replay sr hsr (unblockOps ops) (unblock_isBlock ops) h1, h2]

/-! ### Explicit windows -/

/-- The samples in which an event sounds are an interval that begins at `rnd (start * sr)`. -/
theorem window_global (sr : K) (hsr : 0 < sr) (e : Ev K U) (m : ℕ) :
    ∃ b : ℕ, ∀ j < m, e.sounds ((j + 1 / 2) / sr) ↔ rnd (e.start * sr) ≤ j ∧ j < b := by
  have h1 : ∀ j : ℕ, e.start < (j + 1 / 2) / sr ↔ rnd (e.start * sr) ≤ j := by
    intro j; rw [rnd_le, lt_div_iff₀ hsr]
  cases hst : e.stop with
  | none =>
    refine ⟨m, fun j hj => ?_⟩
    unfold Ev.sounds
    rw [hst, h1]; simp [hj]
  | some x =>
    refine ⟨⌈x * sr - 1 / 2⌉.toNat, fun j hj => ?_⟩
    unfold Ev.sounds
    rw [hst, h1]
    refine and_congr Iff.rfl ?_
    rw [Int.lt_toNat, Int.lt_ceil]
    push_cast
    constructor
    · intro h
      have := h x rfl
      rw [div_lt_iff₀ hsr] at this; linarith
    · rintro h y hy
      cases hy
      rw [div_lt_iff₀ hsr]; linarith

theorem bst_add {B : Type} (tick : B → B × Frame K n) (b : B) (i j : ℕ) : bst tick (bst tick b i) j = bst tick b (i + j) := by
  induction j with
  | zero => rfl
  | succ j ih => simp only [bst]; rw [ih]; rfl

theorem mid_eq (sr : K) (j : ℕ) : (j : K) * (1 / sr) + 1 / sr / 2 = (j + 1 / 2) / sr := by ring

open Classical in
/-- Output `k` of an event which at sample `m` is in the state it has there: the first `m` samples in which it sounded have been played. -/
theorem out_from (X : Node K 0 n) (ease : Fade → K → K) (sr : K) (hsr : 0 < sr) (e : Ev K X.σ) (u : X.σ) (m j m' : ℕ) (hj : j < m')
    (hu : e.sounds (((m + j : ℕ) + 1 / 2) / sr) → e.unit = bst (ut X) u (m - rnd (e.start * sr))) (c : Fin n) :
    (advN (ut X) (1 / sr) (m * (1 / sr)) e j).out (ut X) ease (1 / sr) (m * (1 / sr) + j * (1 / sr)) c =
    if e.sounds (((m + j : ℕ) + 1 / 2) / sr) then gain ease e ((m + j : ℕ) / sr) * bout (ut X) u (m + j - rnd (e.start * sr)) c else 0 := by
  obtain ⟨b, hb⟩ := window_global sr hsr e (m + m')
  have hw : ∀ i < m', e.sounds (m * (1 / sr) + i * (1 / sr) + 1 / sr / 2) ↔ rnd (e.start * sr) - m ≤ i ∧ i < b - m := by
    intro i hi
    have h1 := hb (m + i) (by omega)
    have h2 : (m : K) * (1 / sr) + i * (1 / sr) + 1 / sr / 2 = (((m + i : ℕ) : K) + 1 / 2) / sr := by push_cast; ring
    rw [h2, h1]
    omega
  have h2 : (m : K) * (1 / sr) + j * (1 / sr) = ((m + j : ℕ) : K) / sr := by push_cast; ring
  rw [(advN_window (ut X) ease (1 / sr) (m * (1 / sr)) e m' _ _ hw).2 j hj c, h2]
  have h3 : (rnd (e.start * sr) - m ≤ j ∧ j < b - m) ↔ e.sounds (((m + j : ℕ) + 1 / 2) / sr) := by
    rw [hb (m + j) (by omega)]; omega
  by_cases hs : e.sounds (((m + j : ℕ) + 1 / 2) / sr)
  · rw [if_pos (h3.2 hs), if_pos hs, hu hs]
    have h4 := (h3.2 hs).1
    unfold bout
    rw [bst_add]
    have : m - rnd (e.start * sr) + (j - (rnd (e.start * sr) - m)) = m + j - rnd (e.start * sr) := by omega
    rw [this]
  · rw [if_neg (fun h => hs (h3.1 h)), if_neg hs]

/-- Calls: push all events, then tick. -/
def playOps (es : List (Ev K U)) (m : ℕ) : List (Op K U n) := es.map .push ++ List.replicate m .tick

theorem playOps_noBlock (es : List (Ev K U)) (m : ℕ) : ∀ o ∈ (playOps es m : List (Op K U n)), o.isBlock = false := by
  intro o ho
  rcases List.mem_append.1 ho with h | h
  · obtain ⟨e, _, rfl⟩ := List.mem_map.1 h; rfl
  · rw [(List.mem_replicate.1 h).2]; rfl

/-- The specification with all events in place at time zero. -/
def Sp.loaded {B V : Type} (setRate : K → V → B) (replay : Bool) (sr : K) (es : List (Ev K V)) : Sp K B :=
  ⟨es.map (Ev.rated setRate sr), (es.map (·.id)).reverse, 0, sr, 1 / sr, replay⟩

theorem playOps_run {B V : Type} (tick : B → B × Frame K n) (reset : B → B) (ease : Fade → K → K) (setRate : K → V → B) (replay : Bool)
    (sr : K) (es : List (Ev K V)) (m : ℕ) :
    Sp.run tick reset ease setRate (playOps es m) (Sp.new replay sr) =
      Sp.ticks tick ease m (Sp.loaded setRate replay sr es) := by
  rw [playOps, Sp.run_append, Sp.run_pushes, Sp.run_ticks]
  simp [Sp.new, Sp.loaded]

theorem playOps_ok {B V : Type} (tick : B → B × Frame K n) (reset : B → B) (ease : Fade → K → K) (setRate : K → V → B) (replay : Bool)
    (sr : K) (es : List (Ev K V)) (hn : (es.map (·.id)).Nodup) (m : ℕ) : Oks tick reset ease setRate (playOps es m) (Sp.new replay sr) := by
  rw [playOps, Oks_append]
  exact ⟨Oks_pushes _ _ _ _ es _ hn (by simp [Sp.new]), Oks_ticks ..⟩

/-- The input stream of a unit without inputs. -/
def noInput : Nat → Frame K 0 := fun _ => Fin.elim0

open Classical in
/-- What event `e`, in the sequencer from the start, should contribute to sample `k`. It sounds when the middle of the sample is between its start
and end time. Its unit, set to the sample rate, is then at its sample number `k - first`, where `first` is the number of the first sample whose middle
is after the start time. -/
noncomputable def part (X : Node K 0 n) (ease : Fade → K → K) (setRate : K → X.σ → X.σ) (sr : K) (k : ℕ) (c : Fin n) (e : Ev K X.σ) : K :=
  if e.sounds ((k + 1 / 2) / sr) then gain ease e (k / sr) * X.stream (setRate sr e.unit) noInput (k - rnd (e.start * sr)) c else 0

/-- The sum over all events. -/
noncomputable def mixture (X : Node K 0 n) (ease : Fade → K → K) (setRate : K → X.σ → X.σ) (sr : K) (es : List (Ev K X.σ)) (k : ℕ) : Frame K n :=
  fun c => (es.map (part X ease setRate sr k c)).sum

/-- **C22** (windows): every event sounds exactly in its window, its unit is played sample by sample from its beginning, and events are summed. -/
theorem C22_windows (X : Node K 0 n) (H : Heap K X.σ) (ease : Fade → K → K) (setRate : K → X.σ → X.σ) (replay : Bool) (sr : K) (hsr : 0 < sr)
    (es : List (Ev K X.σ)) (hn : (es.map (·.id)).Nodup) (m : ℕ) :
    (Sq.run X H ease setRate (playOps es m) (Sq.new replay sr)).2 = (List.range m).map (mixture X ease setRate sr es) := by
  rw [C22_refines X H ease setRate replay sr hsr _ (playOps_noBlock es m) (playOps_ok _ _ _ _ _ _ es hn m), playOps_run, Sp.ticks_eq]
  simp only [Sp.loaded]
  apply List.map_congr_left
  intro k hk
  have hk' := List.mem_range.1 hk
  funext c
  simp only [mixture, List.map_map]
  congr 1
  apply List.map_congr_left
  intro e _
  have := out_from X ease sr hsr (e.rated setRate sr) (setRate sr e.unit) 0 k m hk' (fun _ => by simp [bst, Ev.rated, Ev.map]) c
  rw [Nat.zero_add] at this
  simp only [Nat.cast_zero, zero_mul, zero_add] at this
  simp only [Function.comp, zero_add]
  rw [this]
  simp only [part, Node.stream, out_eq, Ev.rated, gain_map]
  rfl

/-- **C22** (replay): with replay enabled, a reset plays all events again identically, if the units themselves start over when reset. -/
theorem C22_replay (X : Node K 0 n) (H : Heap K X.σ) (ease : Fade → K → K) (setRate : K → X.σ → X.σ) (sr : K) (hsr : 0 < sr)
    (es : List (Ev K X.σ)) (hn : (es.map (·.id)).Nodup) (m m' : ℕ)
    (hfresh : ∀ e ∈ es, ∀ k, X.stream (X.reset (X.ticks.st (setRate sr e.unit) noInput k)) noInput = X.stream (setRate sr e.unit) noInput) :
    (Sq.run X H ease setRate (playOps es m ++ .reset :: List.replicate m' .tick) (Sq.new true sr)).2 =
      (List.range m).map (mixture X ease setRate sr es) ++ (List.range m').map (mixture X ease setRate sr es) := by
  rw [C22_refines X H ease setRate true sr hsr]
  rotate_left
  · intro o ho
    rcases List.mem_append.1 ho with h | h
    · exact playOps_noBlock es m o h
    · rcases List.mem_cons.1 h with h | h
      · rw [h]; rfl
      · rw [(List.mem_replicate.1 h).2]; rfl
  · rw [Oks_append]
    exact ⟨playOps_ok _ _ _ _ _ _ es hn m, trivial, Oks_ticks ..⟩
  rw [Sp.run_append]
  have h1 := C22_windows X H ease setRate true sr hsr es hn m
  rw [C22_refines X H ease setRate true sr hsr _ (playOps_noBlock es m) (playOps_ok _ _ _ _ _ _ es hn m)] at h1
  rw [h1]
  show _ ++ _ = _ ++ _
  congr 1
  rw [playOps_run, Sp.ticks_eq]
  simp only [Sp.loaded]
  simp only [Sp.run, Sp.step, Sp.reset, Sp.run_ticks, List.nil_append, if_true]
  rw [Sp.ticks_eq]
  apply List.map_congr_left
  intro k hk
  have hk' := List.mem_range.1 hk
  funext c
  simp only [mixture, List.map_map]
  congr 1
  apply List.map_congr_left
  intro e he
  obtain ⟨b, hb⟩ := window_global sr hsr (e.rated setRate sr) m
  have hw := (advN_window (ut X) ease (1 / sr) 0 (e.rated setRate sr) m _ _ (fun j hj => by rw [zero_add, mid_eq]; exact hb j hj)).1 m (Nat.le_refl _)
  simp only [Function.comp, zero_add, hw]
  have := out_from X ease sr hsr { e.rated setRate sr with unit := X.reset (bst (ut X) (setRate sr e.unit) (min m b - rnd ((e.rated setRate sr).start * sr))) }
    (X.reset (bst (ut X) (setRate sr e.unit) (min m b - rnd ((e.rated setRate sr).start * sr)))) 0 k m' hk' (fun _ => by simp [bst]) c
  rw [Nat.zero_add] at this
  simp only [Nat.cast_zero, zero_mul, zero_add] at this
  refine this.trans ?_
  have h2 := congrFun (congrFun (hfresh e he (min m b - rnd ((e.rated setRate sr).start * sr))) (k - rnd (e.start * sr))) c
  rw [st_eq] at h2
  simp only [part, Node.stream, out_eq] at h2 ⊢
  rw [← h2]
  rfl

/-- **C22** (no replay): after a reset without replay the sequencer is silent, whatever happened before. -/
theorem C22_no_replay (X : Node K 0 n) (H : Heap K X.σ) (ease : Fade → K → K) (setRate : K → X.σ → X.σ) (s : Sq K X.σ) (hre : s.replay = false)
    (hsd : 0 < s.sd) (hss : s.sr * s.sd = 1) (m : ℕ) :
    (Sq.run X H ease setRate (.reset :: List.replicate m .tick) s).2 = List.replicate m (fun _ => 0) := by
  have hrel : Rel (id : X.σ → X.σ) (s.reset X.reset) { evs := [], used := [], time := 0, sr := s.sr, sd := s.sd, replay := false } [] := by
    unfold Sq.reset
    rw [hre]
    simp only [Bool.false_eq_true, if_false]
    refine ⟨rfl, rfl, rfl, rfl, hsd, hss, .inl rfl, by simp, by simp, ?_, by simp [ids], by simp [ids], by simp, by simp, by simp, by simp,
      by simp, by simp⟩
    intro id i; simp
  have h := (Rel.run (behaves_id X) H ease setRate (List.replicate m .tick) hrel
    (fun o ho h => by rw [(List.mem_replicate.1 ho).2] at h; simp [Op.isBlock] at h) (Oks_ticks ..)).2
  simp only [Sq.run, Sq.step, List.nil_append]
  rw [h, Sp.run_ticks, Sp.ticks_eq]
  apply List.ext_getElem?
  intro i
  simp only [List.map_nil, List.sum_nil, List.getElem?_map, List.getElem?_range', List.getElem?_replicate]
  by_cases hi : i < m
  · simp [hi]
  · simp [hi]

/-- **C71** (partial): after an edit made between samples `m - 1` and `m`, the edited event follows its new end time and fade-out from sample `m` on
and continues where it was, and all other events are as before. Required: the event is not over, and it has started or the new end time is not in
the past. Missing: edits of future events to end times in the past, which are ignored, see `C71_violation`. -/
theorem C71_edit_partial (X : Node K 0 n) (H : Heap K X.σ) (ease : Fade → K → K) (setRate : K → X.σ → X.σ) (replay : Bool) (sr : K) (hsr : 0 < sr)
    (es : List (Ev K X.σ)) (hn : (es.map (·.id)).Nodup) (m m' id : ℕ) (stop : Option K) (fo : K)
    (hedit : ∀ e ∈ es, e.id = id → (∀ x, e.stop = some x → (m - 1 / 2) / sr < x) ∧
      (e.start < (m - 1 / 2) / sr ∨ ∀ x, stop = some x → (m - 1 / 2) / sr ≤ x)) :
    (Sq.run X H ease setRate (playOps es m ++ .edit id stop fo :: List.replicate m' .tick) (Sq.new replay sr)).2 =
      (List.range m).map (mixture X ease setRate sr es) ++ (List.range m').map fun j => mixture X ease setRate sr
        (es.map fun e => if e.id = id then { e with stop := stop, fadeOut := fo } else e) (m + j) := by
  have hwin : ∀ e : Ev K X.σ, ∃ b : ℕ, (∀ j < m, (e.rated setRate sr).sounds ((j + 1 / 2) / sr) ↔ rnd (e.start * sr) ≤ j ∧ j < b) ∧
      advN (ut X) (1 / sr) 0 (e.rated setRate sr) m = { e.rated setRate sr with unit := bst (ut X) (setRate sr e.unit) (min m b - rnd (e.start * sr)) } := by
    intro e
    obtain ⟨b, hb⟩ := window_global sr hsr (e.rated setRate sr) m
    exact ⟨b, hb, (advN_window (ut X) ease (1 / sr) 0 (e.rated setRate sr) m _ _ (fun j hj => by rw [zero_add, mid_eq]; exact hb j hj)).1 m (Nat.le_refl _)⟩
  have htm : (0 : K) + m * (1 / sr) - 1 / sr / 2 = (m - 1 / 2) / sr := by ring
  rw [C22_refines X H ease setRate replay sr hsr]
  rotate_left
  · intro o ho
    rcases List.mem_append.1 ho with h | h
    · exact playOps_noBlock es m o h
    · rcases List.mem_cons.1 h with h | h
      · rw [h]; rfl
      · rw [(List.mem_replicate.1 h).2]; rfl
  · rw [Oks_append]
    refine ⟨playOps_ok _ _ _ _ _ _ es hn m, ?_, Oks_ticks ..⟩
    rw [playOps_run, Sp.ticks_eq]
    simp only [Sp.loaded]
    intro x hx hid
    simp only [List.map_map] at hx
    obtain ⟨e, he, rfl⟩ := List.mem_map.1 hx
    obtain ⟨b, _, hb⟩ := hwin e
    simp only [Function.comp, hb] at hid ⊢
    obtain ⟨h1, h2⟩ := hedit e he hid
    rw [htm]
    refine ⟨?_, h2⟩
    intro hc
    unfold Ev.endsBy at hc
    have hst : (e.rated setRate sr).stop = e.stop := rfl
    simp only [hst] at hc
    cases hs : e.stop with
    | none => rw [hs] at hc; simp at hc
    | some x =>
      rw [hs] at hc
      have := h1 x hs
      simp only [decide_eq_true_eq] at hc
      exact absurd hc (not_le.2 this)
  rw [Sp.run_append]
  have h1 := C22_windows X H ease setRate replay sr hsr es hn m
  rw [C22_refines X H ease setRate replay sr hsr _ (playOps_noBlock es m) (playOps_ok _ _ _ _ _ _ es hn m)] at h1
  rw [h1]
  show _ ++ _ = _ ++ _
  congr 1
  rw [playOps_run, Sp.ticks_eq]
  simp only [Sp.loaded]
  simp only [Sp.run, Sp.step, Sp.edit, Sp.run_ticks, List.nil_append]
  rw [Sp.ticks_eq]
  apply List.map_congr_left
  intro j hj
  have hj' := List.mem_range.1 hj
  funext c
  simp only [mixture, List.map_map]
  congr 1
  apply List.map_congr_left
  intro e he
  obtain ⟨b, hb1, hb⟩ := hwin e
  simp only [Function.comp, zero_add, hb]
  have hid : (e.rated setRate sr).id = e.id := rfl
  rw [hid]
  by_cases h : e.id = id
  · rw [if_pos h, if_pos h]
    refine (out_from X ease sr hsr { e.rated setRate sr with unit := bst (ut X) (setRate sr e.unit) (min m b - rnd (e.start * sr)), stop := stop, fadeOut := fo }
      (setRate sr e.unit) m j m' hj' ?_ c).trans ?_
    · intro _
      -- not over at sample `m`, so it sounded in all samples since it started
      have hst : (e.rated setRate sr).start = e.start := rfl
      simp only [hst]
      have : min m b - rnd (e.start * sr) = m - rnd (e.start * sr) := by
        by_cases hm : rnd (e.start * sr) + 1 ≤ m
        · have hs : (e.rated setRate sr).sounds (((m - 1 : ℕ) + 1 / 2) / sr) := by
            refine ⟨?_, ?_⟩
            · rw [hst, lt_div_iff₀ hsr, ← rnd_le]; omega
            · intro x hx
              have := (hedit e he h).1 x hx
              rw [Nat.cast_sub (by omega)]; push_cast
              refine lt_of_le_of_lt (le_of_eq ?_) this
              ring
          have := ((hb1 (m - 1) (by omega)).1 hs).2
          omega
        · omega
      rw [this]
    · simp only [part, Node.stream, out_eq]; rfl
  · rw [if_neg h, if_neg h]
    refine (out_from X ease sr hsr { e.rated setRate sr with unit := bst (ut X) (setRate sr e.unit) (min m b - rnd (e.start * sr)) }
      (setRate sr e.unit) m j m' hj' ?_ c).trans ?_
    · intro hs
      have hst : (e.rated setRate sr).start = e.start := rfl
      simp only [hst]
      have : min m b - rnd (e.start * sr) = m - rnd (e.start * sr) := by
        by_cases hm : rnd (e.start * sr) + 1 ≤ m
        · have hs : (e.rated setRate sr).sounds (((m - 1 : ℕ) + 1 / 2) / sr) := by
            refine ⟨?_, ?_⟩
            · rw [hst, lt_div_iff₀ hsr, ← rnd_le]; omega
            · intro x hx
              have := hs.2 x hx
              refine lt_of_le_of_lt (div_le_div_of_nonneg_right ?_ hsr.le) this
              have : ((m - 1 : ℕ) : K) ≤ (m + j : ℕ) := by exact_mod_cast (show m - 1 ≤ m + j by omega)
              linarith
          have := ((hb1 (m - 1) (by omega)).1 hs).2
          omega
        · omega
      rw [this]
    · simp only [part, Node.stream, out_eq]; rfl

end Fundsp.Seq
