import Verif.Seq.Model

/-! Property C113 for the sequencer: its vectors and its map of edits. -/

namespace Fundsp.Seq

variable {K : Type} [Field K] [LinearOrder K] [FloorRing K] {U : Type} {n : Nat}

/-- `DEFAULT_CAPACITY`: `sequencer.rs:269`. `Sequencer::new` makes all vectors and maps with this capacity, `sequencer.rs:281-286`, and `allocate`
makes room for as many items again, `sequencer.rs:806-812`. -/
def defaultCapacity : Nat := 16384

/-- Events in the sequencer. -/
def Sq.total (s : Sq K U) : Nat := s.active.length + s.ready.length + s.past.length

/-- The greatest lengths of `active`, `ready` and `past` in the course of a call. In `tick` and `process` first the active vector grows
(`ready_to_active`, `sequencer.rs:506-527`), then the past vector (`sequencer.rs:650`, `sequencer.rs:722`). With replay, `reset` moves all events to
the active vector and then to the heap, `sequencer.rs:584-596`. -/
def Sq.peaks (X : Node K 0 n) (H : Heap K X.σ) (ease : Fade → K → K) (setRate : K → X.σ → X.σ) (s : Sq K X.σ) (o : Op K X.σ n) : Nat × Nat × Nat :=
  let s' := (s.step X H ease setRate o).1
  match o with
  | .reset => if s.replay then (s.active.length + s.ready.length + s.past.length, s.active.length + s.ready.length + s.past.length, s.past.length)
      else (s.active.length, s.ready.length, s.past.length)
  | .tick =>
    ((Sq.readyToActive H (if s.replay then s else { s with past := [] }) (s.time + s.sd)).active.length, s.ready.length,
      max s.past.length s'.past.length)
  | .block size _ _ _ _ =>
    ((Sq.readyToActive H (if s.replay then s else { s with past := [] }) (s.time + s.sd * size)).active.length, s.ready.length,
      max s.past.length s'.past.length)
  | _ => (s'.active.length, s'.ready.length, s'.past.length)

theorem readyLoop_count (H : Heap K U) (θ : K) : ∀ (f : Nat) (s : Sq K U),
    (readyLoop H θ f s).active.length + (readyLoop H θ f s).ready.length = s.active.length + s.ready.length ∧
    (readyLoop H θ f s).past = s.past ∧ s.active.length ≤ (readyLoop H θ f s).active.length
  | 0, _ => ⟨rfl, rfl, le_rfl⟩
  | f + 1, s => by
    simp only [readyLoop]
    cases hp : H.pop s.ready with
    | none => exact ⟨rfl, rfl, le_rfl⟩
    | some x =>
      obtain ⟨e, r⟩ := x
      simp only
      split
      · have hl := (H.pop_perm _ _ _ hp).length_eq
        have ih := readyLoop_count H θ f { s with
          ready := r
          amap := Function.update s.amap e.id (some s.active.length)
          active := s.active ++ [applyEdit s.edits e]
          edits := Function.update s.edits e.id none }
        simp only [List.length_append, List.length_cons, List.length_nil] at ih hl
        exact ⟨by omega, ih.2.1, by omega⟩
      · exact ⟨rfl, rfl, le_rfl⟩

theorem swapRemove_length {β : Type} (l : List β) (i : Nat) : (swapRemove l i).length = l.length - 1 := by
  unfold swapRemove
  split
  · simp
  · rename_i h
    rw [List.getLast?_eq_none_iff] at h
    rw [h]
    rfl

theorem evLoop_count {A : Type} (x : K) (play : Ev K U → A → Ev K U × A) : ∀ (f i : Nat) (l : Lp K U A),
    (evLoop x play f i l).active.length + (evLoop x play f i l).past.length = l.active.length + l.past.length
  | 0, _, _ => rfl
  | f + 1, i, l => by
    simp only [evLoop]
    cases hi : l.active[i]? with
    | none => rfl
    | some e =>
      have hpos : i < l.active.length := (List.getElem?_eq_some_iff.1 hi).1
      simp only
      split
      · rw [evLoop_count x play f i]
        simp only [swapRemove_length, List.length_append, List.length_cons, List.length_nil]
        omega
      · rw [evLoop_count x play f (i + 1)]
        simp

/-- 1 for calls that add an event. -/
def Op.adds : Op K U n → Nat
  | .push _ => 1
  | .pushRel _ => 1
  | _ => 0

theorem pushEvent_count (s : Sq K U) (e : Ev K U) : (s.pushEvent e).total = s.total + 1 := by
  unfold Sq.pushEvent Sq.total
  split <;> simp <;> omega

theorem edit_count (s : Sq K U) (id : Nat) (stop : Option K) (fo : K) : (s.edit id stop fo).active.length = s.active.length ∧
    (s.edit id stop fo).ready = s.ready ∧ (s.edit id stop fo).past = s.past := by
  unfold Sq.edit
  split
  · simp
  · split <;> simp

theorem editRelative_count (s : Sq K U) (id : Nat) (stop : Option K) (fo : K) : (s.editRelative id stop fo).active.length = s.active.length ∧
    (s.editRelative id stop fo).ready = s.ready ∧ (s.editRelative id stop fo).past = s.past := by
  unfold Sq.editRelative
  split
  · simp
  · split <;> simp

theorem pushRelative_count (setRate : K → U → U) (s : Sq K U) (e : Ev K U) : (s.pushRelative setRate e).total = s.total + 1 := by
  unfold Sq.pushRelative Sq.total
  simp only
  split <;> simp <;> omega

theorem forget_count (s : Sq K U) : (if s.replay then s else { s with past := [] }).active = s.active ∧
    (if s.replay then s else { s with past := [] }).ready = s.ready ∧ (if s.replay then s else { s with past := [] }).past.length ≤ s.past.length := by
  split <;> simp

/-- The number of events after a call and the greatest lengths in it. -/
theorem step_count (X : Node K 0 n) (H : Heap K X.σ) (ease : Fade → K → K) (setRate : K → X.σ → X.σ) (s : Sq K X.σ) (o : Op K X.σ n) :
    (s.step X H ease setRate o).1.total ≤ s.total + o.adds ∧
    (s.peaks X H ease setRate o).1 ≤ s.total + o.adds ∧ (s.peaks X H ease setRate o).2.1 ≤ s.total + o.adds ∧
    (s.peaks X H ease setRate o).2.2 ≤ s.total + o.adds := by
  have loops : ∀ {A : Type} (t : K) (x : K) (play : Ev K X.σ → A → Ev K X.σ × A) (acc : A) (m : Nat → Option Nat),
      let s0 := if s.replay then s else { s with past := [] }
      let q := s0.readyToActive H t
      let l := evLoop x play q.active.length 0 ⟨q.active, m, q.past, acc⟩
      q.active.length ≤ s.total ∧ l.past.length ≤ s.total ∧ l.active.length + q.ready.length + l.past.length ≤ s.total := by
    intro A t x play acc m s0 q l
    have h0 := forget_count s
    have h1 := readyLoop_count H (t - s0.sd * (1 / 2)) s0.ready.length { s0 with thr := some (t - s0.sd * (1 / 2)) }
    have h2 : l.active.length + l.past.length = q.active.length + q.past.length := evLoop_count x play q.active.length 0 ⟨q.active, m, q.past, acc⟩
    have h3 : q.active.length + q.ready.length = s0.active.length + s0.ready.length := h1.1
    have h4 : q.past.length = s0.past.length := congrArg List.length h1.2.1
    have h5 : s0.active.length = s.active.length := congrArg List.length h0.1
    have h6 : s0.ready.length = s.ready.length := congrArg List.length h0.2.1
    have h7 : s0.past.length ≤ s.past.length := h0.2.2
    unfold Sq.total
    omega
  cases o with
  | push e =>
    have h : (s.push setRate e).total = s.total + 1 := pushEvent_count s _
    have h' : (s.push setRate e).active.length + (s.push setRate e).ready.length + (s.push setRate e).past.length = s.total + 1 := h
    simp only [Sq.step, Sq.peaks, Op.adds]
    omega
  | pushRel e =>
    have h := pushRelative_count setRate s e
    have h' : (s.pushRelative setRate e).active.length + (s.pushRelative setRate e).ready.length + (s.pushRelative setRate e).past.length = s.total + 1 := h
    simp only [Sq.step, Sq.peaks, Op.adds]
    omega
  | edit id stop fo =>
    have h := edit_count s id stop fo
    simp only [Sq.step, Sq.peaks, Op.adds, Sq.total, h]
    omega
  | editRel id stop fo =>
    have h := editRelative_count s id stop fo
    simp only [Sq.step, Sq.peaks, Op.adds, Sq.total, h]
    omega
  | reset =>
    simp only [Sq.step, Sq.peaks, Op.adds, Sq.reset, Sq.total]
    split <;> simp <;> omega
  | tick =>
    have hs : (if s.replay then s else { s with past := [] }).time = s.time ∧ (if s.replay then s else { s with past := [] }).sd = s.sd := by
      split <;> exact ⟨rfl, rfl⟩
    simp only [Sq.step, Sq.peaks, Op.adds, Sq.tick, hs]
    have h := loops (s.time + s.sd) ((Sq.readyToActive H (if s.replay then s else { s with past := [] }) (s.time + s.sd)).time + 1 / 2 *
      (Sq.readyToActive H (if s.replay then s else { s with past := [] }) (s.time + s.sd)).sd)
      (tickPlay X ease (Sq.readyToActive H (if s.replay then s else { s with past := [] }) (s.time + s.sd)).time) (fun _ => 0)
      (Sq.readyToActive H (if s.replay then s else { s with past := [] }) (s.time + s.sd)).amap
    simp only at h
    refine ⟨h.2.2, h.1, ?_, ?_⟩
    · show s.ready.length ≤ s.total + 0
      unfold Sq.total
      omega
    · have : s.past.length ≤ s.total := by unfold Sq.total; omega
      exact max_le this h.2.1
  | block size out buf g inp =>
    have hs : (if s.replay then s else { s with past := [] }).time = s.time ∧ (if s.replay then s else { s with past := [] }).sd = s.sd := by
      split <;> exact ⟨rfl, rfl⟩
    simp only [Sq.step, Sq.peaks, Op.adds, Sq.process, hs]
    have h := loops (s.time + s.sd * size) ((Sq.readyToActive H (if s.replay then s else { s with past := [] }) (s.time + s.sd * size)).time + 1 / 2 *
      (Sq.readyToActive H (if s.replay then s else { s with past := [] }) (s.time + s.sd * size)).sd)
      (blockPlay X ease g inp (Sq.readyToActive H (if s.replay then s else { s with past := [] }) (s.time + s.sd * size)).sr
        (Sq.readyToActive H (if s.replay then s else { s with past := [] }) (s.time + s.sd * size)).sd
        (Sq.readyToActive H (if s.replay then s else { s with past := [] }) (s.time + s.sd * size)).time (s.time + s.sd * size) size)
      (setItems size (fun _ _ => 0) out, buf)
      (Sq.readyToActive H (if s.replay then s else { s with past := [] }) (s.time + s.sd * size)).amap
    simp only at h
    refine ⟨h.2.2, h.1, ?_, ?_⟩
    · show s.ready.length ≤ s.total + 0
      unfold Sq.total
      omega
    · have : s.past.length ≤ s.total := by unfold Sq.total; omega
      exact max_le this h.2.1

/-- The number of events added by a list of calls. -/
def added (os : List (Op K U n)) : Nat := (os.map Op.adds).sum

theorem run_count (X : Node K 0 n) (H : Heap K X.σ) (ease : Fade → K → K) (setRate : K → X.σ → X.σ) : ∀ (os : List (Op K X.σ n)) (s : Sq K X.σ),
    (s.run X H ease setRate os).1.total ≤ s.total + added os
  | [], _ => le_rfl
  | o :: os, s => by
    have h1 := (step_count X H ease setRate s o).1
    have h2 := run_count X H ease setRate os (s.step X H ease setRate o).1
    simp only [Sq.run, added, List.map_cons, List.sum_cons] at h2 ⊢
    omega

/-- C113: in the course of any calls on a new sequencer in which at most 16384 events are added, its vectors never hold more than 16384 events, which
is the capacity they are made with. Missing: the map of edits (`C113_violation_edits`). -/
theorem C113_sequencer_partial (X : Node K 0 n) (H : Heap K X.σ) (ease : Fade → K → K) (setRate : K → X.σ → X.σ) (replay : Bool) (sr : K)
    (os : List (Op K X.σ n)) (o : Op K X.σ n) (h : added (os ++ [o]) ≤ 16384) :
    let s := ((Sq.new replay sr).run X H ease setRate os).1
    (s.peaks X H ease setRate o).1 ≤ defaultCapacity ∧ (s.peaks X H ease setRate o).2.1 ≤ defaultCapacity ∧
      (s.peaks X H ease setRate o).2.2 ≤ defaultCapacity := by
  intro s
  have h1 := run_count X H ease setRate os (Sq.new replay sr)
  have h2 := step_count X H ease setRate s o
  have h3 : (Sq.new (K := K) (U := X.σ) replay sr).total = 0 := rfl
  have h4 : added os + o.adds ≤ defaultCapacity := by
    simpa [added, defaultCapacity] using h
  have h5 : s.total ≤ added os := by
    rw [h3, Nat.zero_add] at h1
    exact h1
  omega

/-- C113: more generally, vectors with room for the events present and one more suffice for the next call, however many events have come and gone. -/
theorem C113_sequencer_next (X : Node K 0 n) (H : Heap K X.σ) (ease : Fade → K → K) (setRate : K → X.σ → X.σ) (s : Sq K X.σ) (o : Op K X.σ n) :
    (s.peaks X H ease setRate o).1 ≤ s.total + o.adds ∧ (s.peaks X H ease setRate o).2.1 ≤ s.total + o.adds ∧
      (s.peaks X H ease setRate o).2.2 ≤ s.total + o.adds := (step_count X H ease setRate s o).2

/-- Calls that leave the events `ids` alone, other than editing them: no reset and no event with one of these identities is added. Identities of
events are unique. -/
def Op.Others (ids : List Nat) : Op K U n → Prop
  | .push e => e.id ∉ ids
  | .pushRel e => e.id ∉ ids
  | .reset => False
  | _ => True

/-- Edits of `ids` are waiting, though no such event is. -/
def Orphans (ids : List Nat) (s : Sq K U) : Prop := ∀ id ∈ ids, s.edits id ≠ none ∧ ∀ e ∈ s.ready, e.id ≠ id

theorem orphans_readyLoop (ids : List Nat) (H : Heap K U) (θ : K) : ∀ (f : Nat) (s : Sq K U), Orphans ids s → Orphans ids (readyLoop H θ f s)
  | 0, _, h => h
  | f + 1, s, h => by
    simp only [readyLoop]
    cases hp : H.pop s.ready with
    | none => exact h
    | some x =>
      obtain ⟨e, r⟩ := x
      simp only
      split
      · have hperm := H.pop_perm _ _ _ hp
        refine orphans_readyLoop ids H θ f _ fun id hid => ⟨?_, fun d hd => (h id hid).2 d (hperm.mem_iff.2 (List.mem_cons_of_mem _ hd))⟩
        have hne : e.id ≠ id := (h id hid).2 e (hperm.mem_iff.2 (List.mem_cons_self ..))
        show Function.update s.edits e.id none id ≠ none
        rw [Function.update_of_ne hne.symm]
        exact (h id hid).1
      · exact h

theorem orphans_step (ids : List Nat) (X : Node K 0 n) (H : Heap K X.σ) (ease : Fade → K → K) (setRate : K → X.σ → X.σ) (s : Sq K X.σ)
    (o : Op K X.σ n) (ho : o.Others ids) (h : Orphans ids s) : Orphans ids (s.step X H ease setRate o).1 := by
  have hpush : ∀ e : Ev K X.σ, e.id ∉ ids → Orphans ids (s.pushEvent e) := by
    intro e he
    unfold Sq.pushEvent
    split
    · exact h
    · intro id hid
      refine ⟨(h id hid).1, fun d hd => ?_⟩
      rcases List.mem_append.1 hd with hd | hd
      · exact (h id hid).2 d hd
      · rw [List.mem_singleton] at hd
        rw [hd]
        exact fun e' => he (e' ▸ hid)
  have hupd : ∀ (m : Nat) (v : Option K × K), Orphans ids { s with edits := Function.update s.edits m (some v) } := by
    intro m v id hid
    refine ⟨?_, (h id hid).2⟩
    show Function.update s.edits m (some v) id ≠ none
    by_cases hm : id = m
    · rw [hm, Function.update_self]
      exact Option.some_ne_none _
    · rw [Function.update_of_ne hm]
      exact (h id hid).1
  have hloop : ∀ t : K, Orphans ids (Sq.readyToActive H (if s.replay then s else { s with past := [] }) t) := by
    intro t
    refine orphans_readyLoop ids H _ _ _ ?_
    split
    · exact h
    · exact h
  cases o with
  | push e => exact hpush _ ho
  | pushRel e =>
    show Orphans ids (s.pushRelative setRate e)
    have e1 : s.pushRelative setRate e = s.pushEvent ((e.rated setRate s.sr).shift s.time) := rfl
    rw [e1]
    exact hpush _ ho
  | edit id stop fo =>
    show Orphans ids (s.edit id stop fo)
    unfold Sq.edit
    split
    · exact h
    · split
      · exact h
      · exact hupd _ _
  | editRel id stop fo =>
    show Orphans ids (s.editRelative id stop fo)
    unfold Sq.editRelative
    split
    · exact h
    · split
      · exact h
      · exact hupd _ _
  | reset => exact ho.elim
  | tick =>
    have hs : (if s.replay then s else { s with past := [] }).time = s.time ∧ (if s.replay then s else { s with past := [] }).sd = s.sd := by
      split <;> exact ⟨rfl, rfl⟩
    intro id hid
    have := hloop (s.time + s.sd) id hid
    simp only [Sq.step, Sq.tick, hs]
    exact this
  | block size out buf g inp =>
    have hs : (if s.replay then s else { s with past := [] }).time = s.time ∧ (if s.replay then s else { s with past := [] }).sd = s.sd := by
      split <;> exact ⟨rfl, rfl⟩
    intro id hid
    have := hloop (s.time + s.sd * size) id hid
    simp only [Sq.step, Sq.process, hs]
    exact this

theorem orphans_run (ids : List Nat) (X : Node K 0 n) (H : Heap K X.σ) (ease : Fade → K → K) (setRate : K → X.σ → X.σ) :
    ∀ (os : List (Op K X.σ n)) (s : Sq K X.σ), (∀ o ∈ os, o.Others ids) → Orphans ids s → Orphans ids (s.run X H ease setRate os).1
  | [], _, _, h => h
  | o :: os, s, ho, h => orphans_run ids X H ease setRate os _ (fun o' h' => ho o' (List.mem_cons_of_mem _ h'))
      (orphans_step ids X H ease setRate s o (ho o (List.mem_cons_self ..)) h)

theorem orphans_edits (X : Node K 0 n) (H : Heap K X.σ) (ease : Fade → K → K) (setRate : K → X.σ → X.σ) (fo : K) : ∀ (ids : List Nat) (s : Sq K X.σ),
    (∀ id ∈ ids, s.amap id = none ∧ ∀ e ∈ s.ready, e.id ≠ id) →
    Orphans ids (s.run X H ease setRate (ids.map fun id => .edit id none fo)).1
  | [], _, _ => fun _ h => nomatch h
  | id :: ids, s, h => by
    have e1 : s.edit id none fo = { s with edits := Function.update s.edits id (some (none, fo)) } := by
      unfold Sq.edit
      rw [(h id (List.mem_cons_self ..)).1]
      rfl
    have h1 := orphans_edits X H ease setRate fo ids (s.edit id none fo) (by
      rw [e1]
      exact fun j hj => h j (List.mem_cons_of_mem _ hj))
    have h2 : Orphans [id] (s.edit id none fo) := by
      rw [e1]
      intro j hj
      rw [List.mem_singleton] at hj
      rw [hj]
      refine ⟨?_, (h id (List.mem_cons_self ..)).2⟩
      show Function.update s.edits id (some (none, fo)) id ≠ none
      rw [Function.update_self]
      exact Option.some_ne_none _
    have h3 := orphans_run [id] X H ease setRate (ids.map fun id => .edit id none fo) (s.edit id none fo) (by
      intro o ho
      obtain ⟨j, _, rfl⟩ := List.mem_map.1 ho
      trivial) h2
    intro j hj
    rcases List.mem_cons.1 hj with rfl | hj
    · exact h3 j (List.mem_singleton_self _)
    · exact h1 j hj

/-- C113 fails: edits of events that are gone (ended, or of another sequencer) with an end time in the future, here infinity, are kept in the map of
edits, and stay there whatever is played and added later, until the sequencer is reset. So the map grows with every such edit; after 16385 of them
it holds more than it has room for. -/
theorem C113_violation_edits (X : Node K 0 n) (H : Heap K X.σ) (ease : Fade → K → K) (setRate : K → X.σ → X.σ) (fo : K) (s : Sq K X.σ)
    (ids : List Nat) (hgone : ∀ id ∈ ids, s.amap id = none ∧ ∀ e ∈ s.ready, e.id ≠ id)
    (os : List (Op K X.σ n)) (hos : ∀ o ∈ os, o.Others ids) :
    ∀ id ∈ ids, (((s.run X H ease setRate (ids.map fun id => .edit id none fo)).1).run X H ease setRate os).1.edits id ≠ none :=
  fun id hid => (orphans_run ids X H ease setRate os _ hos (orphans_edits X H ease setRate fo ids s hgone) id hid).1

/-- Example: 16385 events, unknown to the sequencer, are edited, and a thousand samples are played. -/
example (X : Node K 0 n) (H : Heap K X.σ) (ease : Fade → K → K) (setRate : K → X.σ → X.σ) (sr : K) :=
  C113_violation_edits X H ease setRate 0 (Sq.new false sr) (List.range 16385) (fun _ _ => ⟨rfl, fun _ h => nomatch h⟩)
    (List.replicate 1000 .tick) (fun o ho => by rw [List.eq_of_mem_replicate ho]; trivial)

end Fundsp.Seq
