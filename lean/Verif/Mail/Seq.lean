import Verif.Mail.Slot
import Verif.Seq.Rate

/-!
# C114: units are not freed on the audio thread, in sequencers

The channel that returns events in `/repo/src/realseq.rs` and `/repo/src/sequencer.rs`.
-/

namespace Fundsp.Mail
open Fundsp.Seq
variable {K : Type} [Field K] [LinearOrder K] [IsStrictOrderedRing K] [FloorRing K] {n : Nat} {U : Type}

/-! ## Model -/

/-- Values are dropped in the thread of the backend. -/
def Post.die {T : Type} (m : Post T) (l : List T) : Post T := { m with lost := m.lost ++ l }

/-- Frontend and backend with both channels. -/
structure SeqSt (K U : Type) where
  be : Be K U
  post : Post (Ev K U)

/-- `reset` of the backend after `handle_messages`: `realseq.rs:105-116`. The heap is emptied in another order, which is of no account. -/
def resetBack (reset : U → U) (p : Sq K U × Post (Ev K U)) : Sq K U × Post (Ev K U) :=
  (p.1.reset reset, if p.1.replay then p.2 else p.2.sendAll (p.1.past.reverse ++ p.1.ready ++ p.1.active.reverse))

/-- `handle_messages`: `realseq.rs:61-82`, as in `Seq.handle`. -/
def handleBack (reset : U → U) : List (Seq.Msg K U) → Sq K U × Post (Ev K U) → Sq K U × Post (Ev K U)
  | [], p => p
  | .reset :: ms, p => resetBack reset (handleBack reset ms p)
  | .push e :: ms, p => handleBack reset ms (p.1.pushEvent e, p.2)
  | .pushRel e :: ms, p => handleBack reset ms (p.1.pushRelativeEvent e, p.2)
  | .edit id stop fo :: ms, p => handleBack reset ms (p.1.edit id stop fo, p.2)
  | .editRel id stop fo :: ms, p => handleBack reset ms (p.1.editRelative id stop fo, p.2)

/-- The event in a call, if any. -/
def callEvs : FrontCall K U → List (Ev K U)
  | .push e => [e]
  | .pushRel e => [e]
  | _ => []

/-- What `tick` and `process` do with past events: those from before are dropped, `sequencer.rs:635-637, 704-706`; the new ones are sent back,
`realseq.rs:84-89`. -/
def playBack (old new : Sq K U) (m : Post (Ev K U)) : Post (Ev K U) := if old.replay then m else (m.die old.past).sendAll new.past.reverse

/-- Calls on either side, and `set_sample_rate` of the backend. -/
inductive SCall (K U : Type) (n : Nat) where
  | op (o : BOp K U n)
  | rate (r : K)

/-- One call. `cap` is the capacity of the channel to the backend. Calls of the frontend: `sequencer.rs:338-342`, `sequencer.rs:386-390`,
`sequencer.rs:431-441`, `sequencer.rs:472-482`, `sequencer.rs:578-582`; of the backend: `realseq.rs:103-145`. -/
def SeqSt.step (X : Node K 0 n) (H : Heap K X.σ) (ease : Fade → K → K) (setRate : K → X.σ → X.σ) (cap : Nat) (sr : K) (s : SeqSt K X.σ) :
    SCall K X.σ n → SeqSt K X.σ
  | .op (.front c) => ⟨(s.be.step X H ease setRate cap sr (.front c)).1,
      if s.be.queue.length < cap then s.post.drain else (callEvs c).foldl Post.free s.post.drain⟩
  | .op .reset => ⟨(s.be.step X H ease setRate cap sr .reset).1, (resetBack X.reset (handleBack X.reset s.be.queue (s.be.seq, s.post))).2⟩
  | .op .tick =>
    let p := handleBack X.reset s.be.queue (s.be.seq, s.post)
    ⟨(s.be.step X H ease setRate cap sr .tick).1, playBack p.1 (p.1.tick X H ease).1 p.2⟩
  | .op (.block size out buf g inp) =>
    let p := handleBack X.reset s.be.queue (s.be.seq, s.post)
    ⟨(s.be.step X H ease setRate cap sr (.block size out buf g inp)).1, playBack p.1 (p.1.process X H ease g inp buf size out).1 p.2⟩
  | .rate r => ⟨s.be.setSampleRate X.reset setRate r, (handleBack X.reset s.be.queue (s.be.seq, s.post)).2⟩

def SeqSt.run (X : Node K 0 n) (H : Heap K X.σ) (ease : Fade → K → K) (setRate : K → X.σ → X.σ) (cap : Nat) (sr : K) (cs : List (SCall K X.σ n))
    (s : SeqSt K X.σ) : SeqSt K X.σ := cs.foldl (SeqSt.step X H ease setRate cap sr) s

/-- A new sequencer and its backend: `sequencer.rs:276-297, 535-544`. -/
def SeqSt.new (cap : Nat) (replay : Bool) (sr : K) : SeqSt K U := ⟨⟨[], Sq.new replay sr⟩, .new cap⟩

/-- The frontend is dropped. -/
def SeqSt.close (s : SeqSt K U) : SeqSt K U := { s with post := s.post.close }

/-! ## Specification -/

/-- The events that were pushed. -/
def pushed : List (SCall K U n) → List (Ev K U)
  | [] => []
  | .op (.front c) :: cs => callEvs c ++ pushed cs
  | _ :: cs => pushed cs

/-- The events in a message. -/
def msgEvs : Seq.Msg K U → List (Ev K U)
  | .push e => [e]
  | .pushRel e => [e]
  | _ => []

/-! ## Lemmas -/

abbrev eids (l : List (Ev K U)) : Multiset ℕ := labs Ev.id l

/-- Events in a sequencer. -/
def inSq (s : Sq K U) : List (Ev K U) := s.active ++ s.ready ++ s.past

omit [IsStrictOrderedRing K] [FloorRing K] [LinearOrder K] [Field K] in
theorem labs_perm {T : Type} (lab : T → ℕ) {l m : List T} (h : l.Perm m) : labs lab l = labs lab m := by
  unfold labs
  exact Multiset.coe_eq_coe.2 (h.map lab)

theorem handleBack_fst (reset : U → U) (ms : List (Seq.Msg K U)) (p : Sq K U × Post (Ev K U)) : (handleBack reset ms p).1 = Seq.handle reset ms p.1 := by
  induction ms generalizing p with
  | nil => rfl
  | cons m ms ih => cases m <;> simp only [handleBack, Seq.handle, resetBack, ih]

omit [IsStrictOrderedRing K] [FloorRing K] [LinearOrder K] [Field K] in
theorem sendAll_all {T : Type} (lab : T → ℕ) (l : List T) (m : Post T) : labs lab (m.sendAll l).all = labs lab m.all + labs lab l := by
  induction l generalizing m with
  | nil => simp [Post.sendAll, labs_nil]
  | cons x l ih =>
    have := ih (m.send x)
    simp only [Post.sendAll, List.foldl_cons] at this ⊢
    rw [this, send_all, labs_cons]; abel

omit [IsStrictOrderedRing K] [FloorRing K] [LinearOrder K] [Field K] in
theorem modify_ids (l : List (Ev K U)) (i : Nat) (f : Ev K U → Ev K U) (hf : ∀ e, (f e).id = e.id) : eids (l.modify i f) = eids l := by
  unfold eids labs
  congr 1
  refine List.ext_getElem? fun k => ?_
  simp only [List.getElem?_map, List.getElem?_modify]
  cases l[k]? with
  | none => rfl
  | some e => by_cases h : i = k <;> simp [h, hf]

theorem edit_ids (s : Sq K U) (id : Nat) (stop : Option K) (fo : K) : eids (inSq (s.edit id stop fo)) = eids (inSq s) := by
  unfold Sq.edit
  split
  · rename_i i _
    have h := modify_ids s.active i (fun e => { e with stop := stop, fadeOut := fo }) (fun _ => rfl)
    simp only [inSq, eids, labs_append] at h ⊢
    rw [h]
  · split <;> rfl

theorem editRel_ids (s : Sq K U) (id : Nat) (stop : Option K) (fo : K) : eids (inSq (s.editRelative id stop fo)) = eids (inSq s) := by
  unfold Sq.editRelative
  split
  · rename_i i _
    have h := modify_ids s.active i (fun e => { e with stop := stop.map (s.time + ·), fadeOut := fo }) (fun _ => rfl)
    simp only [inSq, eids, labs_append] at h ⊢
    rw [h]
  · split <;> rfl

theorem push_ids (s : Sq K U) (e : Ev K U) : eids (inSq (s.pushEvent e)) = eids (inSq s) + {e.id} := by
  unfold Sq.pushEvent
  split <;> simp only [inSq, eids, labs_append, labs_single] <;> abel

theorem pushRel_ids (s : Sq K U) (e : Ev K U) : eids (inSq (s.pushRelativeEvent e)) = eids (inSq s) + {e.id} := by
  unfold Sq.pushRelativeEvent
  simp only
  split <;> simp only [inSq, eids, labs_append, labs_single, Ev.shift] <;> abel

/-- Identifiers of all events in a sequencer and in its returning channel. -/
def pairIds (p : Sq K U × Post (Ev K U)) : Multiset ℕ := eids (inSq p.1) + eids p.2.all

theorem resetBack_ids (reset : U → U) (p : Sq K U × Post (Ev K U)) : pairIds (resetBack reset p) = pairIds p := by
  obtain ⟨s, m⟩ := p
  have hm : ∀ l : List (Ev K U), eids (l.map fun e => { e with unit := reset e.unit }) = eids l := by
    intro l; unfold eids labs; rw [List.map_map]; rfl
  have hr : ∀ l : List (Ev K U), eids l.reverse = eids l := fun l => labs_perm _ l.reverse_perm
  unfold resetBack pairIds Sq.reset
  cases hp : s.replay
  · simp only [inSq, Bool.false_eq_true, if_false, List.append_nil]
    rw [eids, eids, sendAll_all]
    simp only [labs_append, labs_nil]
    rw [show labs Ev.id s.past.reverse = labs Ev.id s.past from hr _, show labs Ev.id s.active.reverse = labs Ev.id s.active from hr _]
    abel
  · simp only [inSq, if_true, List.nil_append, List.append_nil]
    rw [hm]

theorem handleBack_ids (reset : U → U) (ms : List (Seq.Msg K U)) (p : Sq K U × Post (Ev K U)) :
    pairIds (handleBack reset ms p) = pairIds p + eids (ms.flatMap msgEvs) := by
  induction ms generalizing p with
  | nil => simp [handleBack, eids, labs_nil]
  | cons m ms ih =>
    cases m with
    | reset => simp only [handleBack, resetBack_ids, ih, List.flatMap_cons, msgEvs, List.nil_append]
    | push e =>
      rw [handleBack, ih]
      simp only [List.flatMap_cons, msgEvs, List.cons_append, List.nil_append, eids, labs_cons, pairIds]
      have := push_ids p.1 e
      simp only [eids] at this
      rw [this]; abel
    | pushRel e =>
      rw [handleBack, ih]
      simp only [List.flatMap_cons, msgEvs, List.cons_append, List.nil_append, eids, labs_cons, pairIds]
      have := pushRel_ids p.1 e
      simp only [eids] at this
      rw [this]; abel
    | edit id stop fo =>
      rw [handleBack, ih]
      simp only [List.flatMap_cons, msgEvs, List.nil_append, pairIds, edit_ids]
    | editRel id stop fo =>
      rw [handleBack, ih]
      simp only [List.flatMap_cons, msgEvs, List.nil_append, pairIds, editRel_ids]

theorem readyLoop_ids (H : Heap K U) (θ : K) : ∀ (f : Nat) (s : Sq K U), eids (inSq (readyLoop H θ f s)) = eids (inSq s) ∧
    (readyLoop H θ f s).past = s.past ∧ (readyLoop H θ f s).replay = s.replay
  | 0, _ => ⟨rfl, rfl, rfl⟩
  | f + 1, s => by
    simp only [readyLoop]
    cases hp : H.pop s.ready with
    | none => exact ⟨rfl, rfl, rfl⟩
    | some x =>
      obtain ⟨e, r⟩ := x
      simp only
      split
      · have hl := labs_perm Ev.id (H.pop_perm _ _ _ hp)
        obtain ⟨ih1, ih2, ih3⟩ := readyLoop_ids H θ f { s with
          ready := r
          amap := Function.update s.amap e.id (some s.active.length)
          active := s.active ++ [applyEdit s.edits e]
          edits := Function.update s.edits e.id none }
        refine ⟨ih1.trans ?_, ih2, ih3⟩
        simp only [inSq, eids, labs_append, labs_single, applyEdit_id, hl, labs_cons]; abel
      · exact ⟨rfl, rfl, rfl⟩

omit [IsStrictOrderedRing K] [FloorRing K] in
theorem evLoop_ids {A : Type} (x : K) (play : Ev K U → A → Ev K U × A) (hp : ∀ e a, (play e a).1.id = e.id) : ∀ (f i : Nat) (l : Lp K U A),
    eids (evLoop x play f i l).active + eids (evLoop x play f i l).past = eids l.active + eids l.past
  | 0, _, _ => rfl
  | f + 1, i, l => by
    simp only [evLoop]
    cases hi : l.active[i]? with
    | none => rfl
    | some e =>
      obtain ⟨hlt, he⟩ := List.getElem?_eq_some_iff.1 hi
      simp only
      split
      · rw [evLoop_ids x play hp f i]
        have hsp : l.active = l.active.take i ++ e :: l.active.drop (i + 1) := by
          rw [← he]; simp
        have hlen : (l.active.take i).length = i := by simp; omega
        obtain ⟨r, h1, h2⟩ := swapRemove_split (l.active.take i) e (l.active.drop (i + 1))
        rw [hlen, ← hsp] at h1
        simp only [h1, eids, labs_append, labs_single]
        conv_rhs => rw [hsp]
        simp only [labs_append, labs_cons, labs_perm Ev.id h2]; abel
      · rw [evLoop_ids x play hp f (i + 1)]
        simp only
        congr 1
        unfold eids labs
        congr 1
        rw [List.map_set, hp, ← he]
        refine List.ext_getElem? fun k => ?_
        by_cases h : i = k
        · subst h; simp [hlt]
        · simp [List.getElem?_set, h]

/-- What playing does with the events. -/
theorem tick_ids (X : Node K 0 n) (H : Heap K X.σ) (ease : Fade → K → K) (s : Sq K X.σ) :
    eids (inSq (s.tick X H ease).1) + (if s.replay then 0 else eids s.past) = eids (inSq s) ∧ (s.tick X H ease).1.replay = s.replay := by
  unfold Sq.tick
  simp only
  generalize hs : (if s.replay then s else { s with past := [] }) = s'
  obtain ⟨h1, h2, h3⟩ := readyLoop_ids H (s'.time + s'.sd - s'.sd * (1 / 2)) s'.ready.length { s' with thr := some (s'.time + s'.sd - s'.sd * (1 / 2)) }
  have e := evLoop_ids ((s'.readyToActive H (s'.time + s'.sd)).time + 1 / 2 * (s'.readyToActive H (s'.time + s'.sd)).sd)
    (tickPlay X ease (s'.readyToActive H (s'.time + s'.sd)).time) (fun _ _ => rfl) (s'.readyToActive H (s'.time + s'.sd)).active.length 0
    ⟨(s'.readyToActive H (s'.time + s'.sd)).active, (s'.readyToActive H (s'.time + s'.sd)).amap, (s'.readyToActive H (s'.time + s'.sd)).past, fun _ => 0⟩
  have h1' : eids (inSq (s'.readyToActive H (s'.time + s'.sd))) = eids (inSq s') := h1
  have h3' : (s'.readyToActive H (s'.time + s'.sd)).replay = s'.replay := h3
  refine ⟨?_, ?_⟩
  · have hs2 : eids (inSq s') + (if s.replay then 0 else eids s.past) = eids (inSq s) := by
      rw [← hs]
      cases s.replay
      · simp only [Bool.false_eq_true, if_false, inSq, eids, labs_append, labs_nil]; abel
      · simp
    rw [← hs2, ← h1']
    congr 1
    simp only [inSq, eids, labs_append] at e ⊢
    simp only [add_right_comm _ (labs Ev.id (s'.readyToActive H (s'.time + s'.sd)).ready)]
    rw [e]
  · show (s'.readyToActive H (s'.time + s'.sd)).replay = s.replay
    rw [h3', ← hs]
    cases h : s.replay <;> simp [h]

theorem process_ids (X : Node K 0 n) (H : Heap K X.σ) (ease : Fade → K → K) (g : Garb K) (inp : Buf K 0) (buf : Buf K n) (s : Sq K X.σ) (size : Nat)
    (out : Buf K n) :
    eids (inSq (s.process X H ease g inp buf size out).1) + (if s.replay then 0 else eids s.past) = eids (inSq s) ∧
    (s.process X H ease g inp buf size out).1.replay = s.replay := by
  unfold Sq.process
  simp only
  generalize hs : (if s.replay then s else { s with past := [] }) = s'
  obtain ⟨h1, h2, h3⟩ := readyLoop_ids H (s'.time + s'.sd * size - s'.sd * (1 / 2)) s'.ready.length
    { s' with thr := some (s'.time + s'.sd * size - s'.sd * (1 / 2)) }
  have h1' : eids (inSq (s'.readyToActive H (s'.time + s'.sd * size))) = eids (inSq s') := h1
  have h3' : (s'.readyToActive H (s'.time + s'.sd * size)).replay = s'.replay := h3
  generalize s'.readyToActive H (s'.time + s'.sd * size) = r at h1' h3'
  have hp : ∀ (e : Ev K X.σ) a, (blockPlay X ease g inp r.sr r.sd r.time (s'.time + s'.sd * size) size e a).1.id = e.id := by
    intro e a
    unfold blockPlay
    simp only
    split <;> rfl
  have e := evLoop_ids (r.time + 1 / 2 * r.sd) (blockPlay X ease g inp r.sr r.sd r.time (s'.time + s'.sd * size) size) hp r.active.length 0
    ⟨r.active, r.amap, r.past, (setItems size (fun _ _ => 0) out, buf)⟩
  refine ⟨?_, ?_⟩
  · have hs2 : eids (inSq s') + (if s.replay then 0 else eids s.past) = eids (inSq s) := by
      rw [← hs]
      cases s.replay
      · simp only [Bool.false_eq_true, if_false, inSq, eids, labs_append, labs_nil]; abel
      · simp
    rw [← hs2, ← h1']
    congr 1
    simp only [inSq, eids, labs_append] at e ⊢
    simp only [add_right_comm _ (labs Ev.id r.ready)]
    rw [e]
  · rw [h3', ← hs]
    cases h : s.replay <;> simp [h]

end Fundsp.Mail
