import Verif.Seq.Violations

/-!
# C24: the real-time backend of a sequencer

Model of `/repo/src/realseq.rs` and of the frontend branches in `/repo/src/sequencer.rs`. The channel is a bounded queue (trusted: `thingbuf`); a
message that does not fit is dropped, as the result of `try_send` is ignored. Messages that arrive while a batch is handled are counted as part of
the batch. Return of past events to the frontend for deallocation is modelled as their removal. `set_sample_rate` is in `Seq/Rate.lean`. Not modelled: `clone`, `ping`,
`route` of the backend.
-/

namespace Fundsp.Seq
variable {K : Type} [Field K] [LinearOrder K] [IsStrictOrderedRing K] [FloorRing K] {n : Nat} {U : Type}

/-- `Message`: `realseq.rs:10-23`. -/
inductive Msg (K U : Type) where
  | reset
  | push (e : Ev K U)
  | pushRel (e : Ev K U)
  | edit (id : Nat) (stop : Option K) (fadeOut : K)
  | editRel (id : Nat) (stop : Option K) (fadeOut : K)

/-- `push_relative_event` on the sequencer of the backend: `sequencer.rs:393-405`. -/
def Sq.pushRelativeEvent (s : Sq K U) (e : Ev K U) : Sq K U :=
  let e := e.shift s.time
  if below s.thr e.start then
    { s with amap := Function.update s.amap e.id (some s.active.length), active := s.active ++ [e] }
  else { s with ready := s.ready ++ [e] }

/-- `handle_messages`: `realseq.rs:61-82`. On a reset message it calls `reset` of the backend (`realseq.rs:103-117`), which first calls
`handle_messages` again; that call consumes the rest of the queue. -/
def handle (reset : U → U) : List (Msg K U) → Sq K U → Sq K U
  | [], s => s
  | .reset :: ms, s => (handle reset ms s).reset reset
  | .push e :: ms, s => handle reset ms (s.pushEvent e)
  | .pushRel e :: ms, s => handle reset ms (s.pushRelativeEvent e)
  | .edit id stop fo :: ms, s => handle reset ms (s.edit id stop fo)
  | .editRel id stop fo :: ms, s => handle reset ms (s.editRelative id stop fo)

/-- Calls on the frontend. -/
inductive FrontCall (K U : Type) where
  | push (e : Ev K U)
  | pushRel (e : Ev K U)
  | edit (id : Nat) (stop : Option K) (fadeOut : K)
  | editRel (id : Nat) (stop : Option K) (fadeOut : K)
  | reset

/-- The message the frontend sends: `sequencer.rs:321-345`, `sequencer.rs:372-397`, `sequencer.rs:433-448`, `sequencer.rs:475-492`,
`sequencer.rs:578-583`. `sr` is the sample rate of the frontend. -/
def FrontCall.msg (setRate : K → U → U) (sr : K) : FrontCall K U → Msg K U
  | .push e => .push (e.rated setRate sr)
  | .pushRel e => .pushRel (e.rated setRate sr)
  | .edit id stop fo => .edit id stop fo
  | .editRel id stop fo => .editRel id stop fo
  | .reset => .reset

/-- The call on a sequencer without a backend. -/
def FrontCall.op : FrontCall K U → Op K U n
  | .push e => .push e
  | .pushRel e => .pushRel e
  | .edit id stop fo => .edit id stop fo
  | .editRel id stop fo => .editRel id stop fo
  | .reset => .reset

/-- Is it a reset? -/
def FrontCall.isReset : FrontCall K U → Bool
  | .reset => true
  | _ => false

/-- Calls on either side. -/
inductive BOp (K U : Type) (n : Nat) where
  | front (c : FrontCall K U)
  | reset
  | tick
  | block (size : Nat) (out buf : Buf K n) (g : Garb K) (inp : Buf K 0)

/-- Frontend and backend: the channel and the sequencer of the backend. -/
structure Be (K U : Type) where
  queue : List (Msg K U)
  seq : Sq K U

/-- `send_back_past`: `realseq.rs:84-89`, when events are not replayed. -/
def Sq.drain (s : Sq K U) : Sq K U := if s.replay then s else { s with past := [] }

/-- One call. `cap` is the capacity of the channel. Backend calls: `realseq.rs:103-145`. -/
def Be.step (X : Node K 0 n) (H : Heap K X.σ) (ease : Fade → K → K) (setRate : K → X.σ → X.σ) (cap : Nat) (sr : K) (b : Be K X.σ) :
    BOp K X.σ n → Be K X.σ × List (Frame K n)
  | .front c => (if b.queue.length < cap then { b with queue := b.queue ++ [c.msg setRate sr] } else b, [])
  | .reset => ({ queue := [], seq := (handle X.reset b.queue b.seq).reset X.reset }, [])
  | .tick =>
    let r := (handle X.reset b.queue b.seq).tick X H ease
    ({ queue := [], seq := r.1.drain }, [r.2])
  | .block size out buf g inp =>
    let r := (handle X.reset b.queue b.seq).process X H ease g inp buf size out
    ({ queue := [], seq := r.1.drain }, (List.range size).map r.2.frame)

def Be.run (X : Node K 0 n) (H : Heap K X.σ) (ease : Fade → K → K) (setRate : K → X.σ → X.σ) (cap : Nat) (sr : K) :
    List (BOp K X.σ n) → Be K X.σ → Be K X.σ × List (Frame K n)
  | [], b => (b, [])
  | o :: os, b =>
    let r := b.step X H ease setRate cap sr o
    let q := Be.run X H ease setRate cap sr os r.1
    (q.1, r.2 ++ q.2)

/-- The same calls on a sequencer without a backend. -/
def BOp.op : BOp K U n → Op K U n
  | .front c => c.op
  | .reset => .reset
  | .tick => .tick
  | .block size out buf g inp => .block size out buf g inp

/-- The schedule never has more than `cap` messages under way, and no message follows a reset message before the backend runs again.
`q` messages are under way, `r` tells whether the last one is a reset. -/
def Calm (cap : Nat) : Nat → Bool → List (BOp K U n) → Prop
  | _, _, [] => True
  | q, r, .front c :: os => q < cap ∧ r = false ∧ Calm cap (q + 1) c.isReset os
  | _, _, _ :: os => Calm cap 0 false os

/-! ### Past events do not matter without replay -/

theorem drain_idem (s : Sq K U) : s.drain.drain = s.drain := by
  unfold Sq.drain
  by_cases h : s.replay = true <;> simp [h]

theorem pushEvent_drain {s t : Sq K U} (h : s.drain = t.drain) (e : Ev K U) : (s.pushEvent e).drain = (t.pushEvent e).drain := by
  obtain ⟨a, am, thr, rd, pa, ed, ti, sr, sd, re⟩ := s
  obtain ⟨a', am', thr', rd', pa', ed', ti', sr', sd', re'⟩ := t
  cases re <;> cases re' <;> simp only [Sq.drain, if_true, if_false, Bool.false_eq_true, Sq.mk.injEq, reduceCtorEq, and_false, false_and] at h
  · obtain ⟨rfl, rfl, rfl, rfl, _, rfl, rfl, rfl, rfl, _⟩ := h
    unfold Sq.pushEvent; split <;> rfl
  · obtain ⟨rfl, rfl, rfl, rfl, rfl, rfl, rfl, rfl, rfl, _⟩ := h; rfl

theorem edit_drain {s t : Sq K U} (h : s.drain = t.drain) (id : Nat) (stop : Option K) (fo : K) : (s.edit id stop fo).drain = (t.edit id stop fo).drain := by
  obtain ⟨a, am, thr, rd, pa, ed, ti, sr, sd, re⟩ := s
  obtain ⟨a', am', thr', rd', pa', ed', ti', sr', sd', re'⟩ := t
  cases re <;> cases re' <;> simp only [Sq.drain, if_true, if_false, Bool.false_eq_true, Sq.mk.injEq, reduceCtorEq, and_false, false_and] at h
  · obtain ⟨rfl, rfl, rfl, rfl, _, rfl, rfl, rfl, rfl, _⟩ := h
    unfold Sq.edit
    simp only
    split
    · rfl
    · split <;> rfl
  · obtain ⟨rfl, rfl, rfl, rfl, rfl, rfl, rfl, rfl, rfl, _⟩ := h; rfl

theorem drain_fields {s t : Sq K U} (h : s.drain = t.drain) : s.time = t.time ∧ s.sr = t.sr := by
  obtain ⟨a, am, thr, rd, pa, ed, ti, sr, sd, re⟩ := s
  obtain ⟨a', am', thr', rd', pa', ed', ti', sr', sd', re'⟩ := t
  cases re <;> cases re' <;> simp only [Sq.drain, if_true, if_false, Bool.false_eq_true, Sq.mk.injEq, reduceCtorEq, and_false, false_and] at h
  · obtain ⟨rfl, rfl, rfl, rfl, _, rfl, rfl, rfl, rfl, _⟩ := h; exact ⟨rfl, rfl⟩
  · obtain ⟨rfl, rfl, rfl, rfl, rfl, rfl, rfl, rfl, rfl, _⟩ := h; exact ⟨rfl, rfl⟩

theorem reset_drain {s t : Sq K U} (h : s.drain = t.drain) (reset : U → U) : s.reset reset = t.reset reset := by
  obtain ⟨a, am, thr, rd, pa, ed, ti, sr, sd, re⟩ := s
  obtain ⟨a', am', thr', rd', pa', ed', ti', sr', sd', re'⟩ := t
  cases re <;> cases re' <;> simp only [Sq.drain, if_true, if_false, Bool.false_eq_true, Sq.mk.injEq, reduceCtorEq, and_false, false_and] at h
  · obtain ⟨rfl, rfl, rfl, rfl, _, rfl, rfl, rfl, rfl, _⟩ := h; rfl
  · obtain ⟨rfl, rfl, rfl, rfl, rfl, rfl, rfl, rfl, rfl, _⟩ := h; rfl

theorem tick_drain (X : Node K 0 n) (H : Heap K X.σ) (ease : Fade → K → K) {s t : Sq K X.σ} (h : s.drain = t.drain) :
    s.tick X H ease = t.tick X H ease := by
  have h1 : ∀ s : Sq K X.σ, s.tick X H ease = s.drain.tick X H ease := by
    intro s
    unfold Sq.tick
    have : (if s.drain.replay then s.drain else { s.drain with past := [] }) = s.drain := by
      unfold Sq.drain
      by_cases hr : s.replay = true <;> simp [hr]
    rw [this]; rfl
  rw [h1 s, h1 t, h]

theorem process_drain (X : Node K 0 n) (H : Heap K X.σ) (ease : Fade → K → K) (g : Garb K) (inp : Buf K 0) (buf : Buf K n) (size : Nat) (out : Buf K n)
    {s t : Sq K X.σ} (h : s.drain = t.drain) : s.process X H ease g inp buf size out = t.process X H ease g inp buf size out := by
  have h1 : ∀ s : Sq K X.σ, s.process X H ease g inp buf size out = s.drain.process X H ease g inp buf size out := by
    intro s
    unfold Sq.process
    have : (if s.drain.replay then s.drain else { s.drain with past := [] }) = s.drain := by
      unfold Sq.drain
      by_cases hr : s.replay = true <;> simp [hr]
    rw [this]; rfl
  rw [h1 s, h1 t, h]

/-! ### The refinement -/

/-- Does the batch have no message after a reset? -/
def calmQ : List (Msg K U) → Prop
  | [] => True
  | .reset :: ms => ms = []
  | _ :: ms => calmQ ms

/-- Applying one message as a direct call. -/
def Msg.call (reset : U → U) (s : Sq K U) : Msg K U → Sq K U
  | .reset => s.reset reset
  | .push e => s.pushEvent e
  | .pushRel e => s.pushRelativeEvent e
  | .edit id stop fo => s.edit id stop fo
  | .editRel id stop fo => s.editRelative id stop fo

theorem handle_calm (reset : U → U) : ∀ (ms : List (Msg K U)) (s : Sq K U), calmQ ms → handle reset ms s = ms.foldl (Msg.call reset) s
  | [], _, _ => rfl
  | .reset :: ms, s, h => by
    have h' : ms = [] := h
    subst h'; rfl
  | .push e :: ms, s, h => handle_calm reset ms _ h
  | .pushRel e :: ms, s, h => handle_calm reset ms _ h
  | .edit .. :: ms, s, h => handle_calm reset ms _ h
  | .editRel .. :: ms, s, h => handle_calm reset ms _ h

def endsReset (ms : List (Msg K U)) : Bool := match ms.getLast? with | some .reset => true | _ => false

theorem calmQ_append (ms : List (Msg K U)) (m : Msg K U) (h : calmQ ms) (hr : endsReset ms = false) : calmQ (ms ++ [m]) := by
  induction ms with
  | nil => cases m <;> first | rfl | trivial
  | cons x ms ih =>
    cases x with
    | reset =>
      have h' : ms = [] := h
      subst h'; simp [endsReset] at hr
    | push _ | pushRel _ | edit _ _ _ | editRel _ _ _ =>
      refine ih h ?_
      cases ms with
      | nil => rfl
      | cons y ms => simpa [endsReset] using hr

theorem sr_call (reset : U → U) (s : Sq K U) (m : Msg K U) : (m.call reset s).sr = s.sr := by
  cases m with
  | reset => unfold Msg.call Sq.reset; simp only; split <;> rfl
  | push e => unfold Msg.call Sq.pushEvent; simp only; split <;> rfl
  | pushRel e => unfold Msg.call Sq.pushRelativeEvent; simp only; split <;> rfl
  | edit id stop fo =>
    unfold Msg.call Sq.edit; simp only
    split
    · rfl
    · split <;> rfl
  | editRel id stop fo =>
    unfold Msg.call Sq.editRelative; simp only
    split
    · rfl
    · split <;> rfl

theorem call_drain (reset : U → U) {s t : Sq K U} (h : s.drain = t.drain) (m : Msg K U) : (m.call reset s).drain = (m.call reset t).drain := by
  obtain ⟨h1, h2⟩ := drain_fields h
  cases m with
  | reset => exact congrArg Sq.drain (reset_drain h reset)
  | push e => exact pushEvent_drain h e
  | pushRel e =>
    show (s.pushEvent (e.shift s.time)).drain = (t.pushEvent (e.shift t.time)).drain
    rw [h1]; exact pushEvent_drain h _
  | edit id stop fo => exact edit_drain h id stop fo
  | editRel id stop fo =>
    show (s.editRelative id stop fo).drain = (t.editRelative id stop fo).drain
    rw [editRelative_eq, editRelative_eq, h1]; exact edit_drain h _ _ _

theorem readyLoop_sr (H : Heap K U) (θ : K) : ∀ (f : Nat) (s : Sq K U), (readyLoop H θ f s).sr = s.sr
  | 0, _ => rfl
  | f + 1, s => by
    unfold readyLoop
    split
    · rfl
    · split
      · rw [readyLoop_sr H θ f]
      · rfl

theorem step_sr (X : Node K 0 n) (H : Heap K X.σ) (ease : Fade → K → K) (setRate : K → X.σ → X.σ) (s : Sq K X.σ) (o : Op K X.σ n) :
    (s.step X H ease setRate o).1.sr = s.sr := by
  cases o with
  | push e => exact sr_call X.reset s (.push (e.rated setRate s.sr))
  | pushRel e => exact sr_call X.reset s (.pushRel (e.rated setRate s.sr))
  | edit id stop fo => exact sr_call X.reset s (.edit id stop fo)
  | editRel id stop fo => exact sr_call X.reset s (.editRel id stop fo)
  | reset => exact sr_call X.reset s .reset
  | tick =>
    simp only [Sq.step, Sq.tick, Sq.readyToActive, readyLoop_sr]
    split <;> rfl
  | block size out buf g inp =>
    simp only [Sq.step, Sq.process, Sq.readyToActive, readyLoop_sr]
    split <;> rfl

/-- **C24** (partial): when no message follows a reset within a batch and the channel does not overflow, frontend and backend together behave like a
sequencer on which all calls were made directly, in the same order. The backend starts in any state; frontend and backend have the same sample rate.
Missing: messages after a reset in the same batch, for which the claim is false, see `C24_violation`; overflow of the channel, see
`C24_violation_overflow`. -/
theorem C24_backend_partial (X : Node K 0 n) (H : Heap K X.σ) (ease : Fade → K → K) (setRate : K → X.σ → X.σ) (cap : Nat)
    (ops : List (BOp K X.σ n)) (s : Sq K X.σ) (hc : Calm cap 0 false ops) :
    (Be.run X H ease setRate cap s.sr ops ⟨[], s⟩).2 = (Sq.run X H ease setRate (ops.map BOp.op) s).2 := by
  suffices ∀ (ops : List (BOp K X.σ n)) (q : List (Msg K X.σ)) (b d : Sq K X.σ), calmQ q → Calm cap q.length (endsReset q) ops →
      d.drain = (q.foldl (Msg.call X.reset) b).drain → d.sr = s.sr →
      (Be.run X H ease setRate cap s.sr ops ⟨q, b⟩).2 = (Sq.run X H ease setRate (ops.map BOp.op) d).2 from
    this ops [] s s trivial hc rfl rfl
  intro ops
  induction ops with
  | nil => intros; rfl
  | cons o os ih =>
    intro q b d hq hcalm hd hsr
    simp only [List.map_cons, Be.run, Sq.run]
    cases o with
    | front c =>
      obtain ⟨h1, h2, h3⟩ := hcalm
      have hq' := calmQ_append q (c.msg setRate s.sr) hq h2
      have hstep : (Be.step X H ease setRate cap s.sr ⟨q, b⟩ (.front c)) = (⟨q ++ [c.msg setRate s.sr], b⟩, []) := by
        simp only [Be.step]; rw [if_pos h1]
      rw [hstep]
      have hop : d.step X H ease setRate (BOp.op (.front c)) = ((c.msg setRate s.sr).call X.reset d, []) := by
        cases c <;> simp only [BOp.op, FrontCall.op, Sq.step, FrontCall.msg, Msg.call, Sq.push, ← hsr] <;> rfl
      rw [hop]
      simp only [List.nil_append]
      refine ih _ _ _ hq' ?_ ?_ ?_
      · rw [List.length_append]
        have : endsReset (q ++ [c.msg setRate s.sr]) = c.isReset := by
          unfold endsReset
          rw [List.getLast?_append]
          cases c <;> rfl
        rw [this]; exact h3
      · rw [List.foldl_append]
        exact call_drain X.reset hd _
      · rw [sr_call, hsr]
    | reset =>
      have h0 : (handle X.reset q b).drain = d.drain := by rw [handle_calm X.reset q b hq, hd]
      have hr := reset_drain h0 X.reset
      have hsr' : (d.reset X.reset).sr = s.sr := (sr_call X.reset d .reset).trans hsr
      simp only [Be.step, BOp.op, Sq.step, List.nil_append]
      rw [hr]
      exact ih [] _ _ trivial hcalm rfl hsr'
    | tick =>
      have h0 : (handle X.reset q b).drain = d.drain := by rw [handle_calm X.reset q b hq, hd]
      have ht := tick_drain X H ease h0
      have hsr' := (step_sr X H ease setRate d .tick).trans hsr
      simp only [Be.step, BOp.op, Sq.step] at hsr' ⊢
      rw [ht]
      congr 1
      exact ih [] _ _ trivial hcalm (drain_idem _).symm hsr'
    | block size out buf g inp =>
      have h0 : (handle X.reset q b).drain = d.drain := by rw [handle_calm X.reset q b hq, hd]
      have ht := process_drain X H ease g inp buf size out h0
      have hsr' := (step_sr X H ease setRate d (.block size out buf g inp)).trans hsr
      simp only [Be.step, BOp.op, Sq.step] at hsr' ⊢
      rw [ht]
      congr 1
      exact ih [] _ _ trivial hcalm (drain_idem _).symm hsr'

/-- What a batch with a reset does: the messages before the reset, the messages after the reset, and only then the reset. -/
theorem handle_resets (reset : U → U) (ms ms' : List (Msg K U)) (s : Sq K U) (h : ∀ m ∈ ms, m ≠ .reset) :
    handle reset (ms ++ .reset :: ms') s = (handle reset ms' (ms.foldl (Msg.call reset) s)).reset reset := by
  induction ms generalizing s with
  | nil => rfl
  | cons m ms ih =>
    have ih' := fun s => ih s (fun m hm => h m (List.mem_cons_of_mem _ hm))
    cases m with
    | reset => exact absurd rfl (h _ (List.mem_cons_self ..))
    | push e => exact ih' _
    | pushRel e => exact ih' _
    | edit a b c => exact ih' _
    | editRel a b c => exact ih' _

/-- **C24** violation: a reset and a push that are handled in the same batch. The push is undone by the reset that precedes it: the backend stays silent
forever, while direct calls make the event sound from the first sample on. -/
theorem C24_violation (H : Heap ℝ one.σ) (ease : Fade → ℝ → ℝ) (m : ℕ) :
    let e : Ev ℝ one.σ := { unit := u0, start := 0, stop := none, ease := .smooth, fadeIn := 0, fadeOut := 0, id := 0 }
    let ops : List (BOp ℝ one.σ 1) := .front .reset :: .front (.push e) :: List.replicate m .tick
    (Be.run one H ease (fun _ u => u) 2048 1 ops ⟨[], Sq.new false 1⟩).2 = List.replicate m (fun _ => 0) ∧
    (Sq.run one H ease (fun _ u => u) (ops.map BOp.op) (Sq.new false 1)).2 = List.replicate m (fun _ => 1) := by
  intro e ops
  refine ⟨?_, ?_⟩
  · -- after the batch the sequencer is as new
    have hbatch : handle one.reset [.reset, .push e] (Sq.new false 1) = (Sq.new false 1 : Sq ℝ one.σ) := by
      simp only [handle, Sq.pushEvent, Sq.new, Sq.reset, below, Bool.false_eq_true, if_false]
    cases m with
    | zero => rfl
    | succ m =>
      have h1 : Be.run one H ease (fun _ u => u) 2048 1 ops ⟨[], Sq.new false 1⟩ =
          Be.run one H ease (fun _ u => u) 2048 1 (List.replicate (m + 1) .tick) ⟨[], Sq.new false 1⟩ := by
        simp only [ops, List.replicate_succ, Be.run]
        have hs : (Be.step one H ease (fun _ u => u) 2048 1 (Be.step one H ease (fun _ u => u) 2048 1 ⟨[], Sq.new false 1⟩ (.front .reset)).1 (.front (.push e))).1 =
            ⟨[.reset, .push e], Sq.new false 1⟩ := rfl
        have hs2 : Be.step one H ease (fun _ u => u) 2048 1 ⟨[.reset, .push e], Sq.new false 1⟩ .tick =
            Be.step one H ease (fun _ u => u) 2048 1 ⟨[], Sq.new false 1⟩ .tick := by
          simp only [Be.step]
          rw [hbatch]; rfl
        have hs3 : (Be.step one H ease (fun _ u => u) 2048 1 ⟨[], Sq.new false 1⟩ (.front .reset)).2 = [] := rfl
        have hs4 : (Be.step one H ease (fun _ u => u) 2048 1 (Be.step one H ease (fun _ u => u) 2048 1 ⟨[], Sq.new false 1⟩ (.front .reset)).1 (.front (.push e))).2 = [] := rfl
        rw [hs, hs2, hs3, hs4]
        simp only [List.nil_append]
      rw [h1]
      have hcalm : ∀ k q, Calm 2048 q false (List.replicate k (BOp.tick : BOp ℝ one.σ 1)) := by
        intro k
        induction k with
        | zero => intro q; trivial
        | succ k ih => intro q; exact ih 0
      have h2 := C24_backend_partial one H ease (fun _ u => u) 2048 (List.replicate (m + 1) .tick) (Sq.new false 1) (hcalm (m + 1) 0)
      refine h2.trans ?_
      have h3 := C22_windows one H ease (fun _ u => u) false 1 one_pos [] (by simp) (m + 1)
      simp only [playOps, List.map_nil, List.nil_append] at h3
      rw [List.map_replicate]
      refine h3.trans ?_
      apply List.ext_getElem?
      intro i
      simp only [List.getElem?_map, List.getElem?_replicate]
      by_cases hi : i < m + 1
      · rw [List.getElem?_range hi, if_pos hi]; rfl
      · simp [hi]
  · have h1 : ops.map BOp.op = .reset :: playOps [e] m := by
      simp only [ops, List.map_cons, List.map_replicate, playOps]; rfl
    have h2 : (Sq.new false 1 : Sq ℝ one.σ).reset one.reset = Sq.new false 1 := rfl
    rw [h1]
    simp only [Sq.run, Sq.step, List.nil_append]
    rw [h2]
    refine (C22_windows one H ease (fun _ u => u) false 1 one_pos [e] (by simp) m).trans ?_
    apply List.ext_getElem?
    intro i
    simp only [List.getElem?_map, List.getElem?_replicate]
    by_cases hi : i < m
    · rw [List.getElem?_range hi, if_pos hi]
      simp only [Option.map_some, Option.some.injEq]
      funext c
      simp only [mixture, List.map_cons, List.map_nil, List.sum_cons, List.sum_nil, add_zero, part, one_stream, mul_one]
      rw [if_pos ⟨by simp only [e]; positivity, by simp [e]⟩]
      unfold gain gainIn gainOut
      simp only [e]
      norm_num
    · simp [hi]

/-- **C24** violation: a message that does not fit into the channel is lost without notice: after `cap` messages the next one has no effect whatsoever. The actual `cap` is 2048.
-/
theorem C24_violation_overflow (X : Node K 0 n) (H : Heap K X.σ) (ease : Fade → K → K) (setRate : K → X.σ → X.σ) (cap : ℕ) (sr : K)
    (es : List (FrontCall K X.σ)) (hes : es.length = cap) (c : FrontCall K X.σ) (s : Sq K X.σ) (os : List (BOp K X.σ n)) :
    Be.run X H ease setRate cap sr (es.map BOp.front ++ .front c :: os) ⟨[], s⟩ = Be.run X H ease setRate cap sr (es.map BOp.front ++ os) ⟨[], s⟩ := by
  suffices ∀ (es : List (FrontCall K X.σ)) (q : List (Msg K X.σ)), q.length + es.length = cap →
      Be.run X H ease setRate cap sr (es.map BOp.front ++ .front c :: os) ⟨q, s⟩ = Be.run X H ease setRate cap sr (es.map BOp.front ++ os) ⟨q, s⟩ from
    this es [] (by simpa using hes)
  intro es
  induction es with
  | nil =>
    intro q hq
    simp only [List.length_nil, Nat.add_zero] at hq
    have : Be.step X H ease setRate cap sr ⟨q, s⟩ (.front c) = (⟨q, s⟩, []) := by
      simp only [Be.step]; rw [if_neg (by omega)]
    simp only [List.map_nil, List.nil_append, Be.run]
    rw [this]; rfl
  | cons d es ih =>
    intro q hq
    simp only [List.length_cons] at hq
    have : Be.step X H ease setRate cap sr ⟨q, s⟩ (.front d) = (⟨q ++ [d.msg setRate sr], s⟩, []) := by
      simp only [Be.step]; rw [if_pos (by omega)]
    simp only [List.map_cons, List.cons_append, Be.run]
    rw [this, ih _ (by simp; omega)]

/-- `C24_backend_partial`: pushes between ticks, a reset at the end of its batch. -/
example (H : Heap ℝ one.σ) (ease : Fade → ℝ → ℝ) (e e' : Ev ℝ one.σ) :
    (Be.run one H ease (fun _ u => u) 2048 1 [.front (.push e), .front .reset, .tick, .front (.push e'), .front (.editRel e'.id (some 4) 1), .tick, .reset, .tick]
      ⟨[], Sq.new true 1⟩).2 =
    (Sq.run one H ease (fun _ u => u) [.push e, .reset, .tick, .push e', .editRel e'.id (some 4) 1, .tick, .reset, .tick] (Sq.new true 1)).2 :=
  C24_backend_partial one H ease (fun _ u => u) 2048 _ (Sq.new true 1) (by simp [Calm, FrontCall.isReset])

end Fundsp.Seq
