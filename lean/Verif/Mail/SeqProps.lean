import Verif.Mail.Seq

/-! # C114: units are not freed on the audio thread, in sequencers: properties -/

namespace Fundsp.Mail
open Fundsp.Seq
variable {K : Type} [Field K] [LinearOrder K] [IsStrictOrderedRing K] [FloorRing K] {n : Nat} {U : Type}

/-! ## Events are kept -/

/-- Identifiers of all events anywhere. -/
def SeqSt.ids (s : SeqSt K U) : Multiset ℕ := pairIds (s.be.seq, s.post) + eids (s.be.queue.flatMap msgEvs)

theorem drain_split (s : Sq K U) : eids (inSq s.drain) + (if s.replay then 0 else eids s.past) = eids (inSq s) := by
  unfold Sq.drain
  cases s.replay
  · simp only [Bool.false_eq_true, if_false, inSq, eids, labs_append, labs_nil]; abel
  · simp

theorem playBack_ids (old new : Sq K U) (m : Post (Ev K U)) (h : eids (inSq new) + (if old.replay then 0 else eids old.past) = eids (inSq old))
    (hr : new.replay = old.replay) : pairIds (new.drain, playBack old new m) = pairIds (old, m) := by
  have hd := drain_split new
  have hrev : eids new.past.reverse = eids new.past := labs_perm _ new.past.reverse_perm
  unfold pairIds playBack
  simp only
  rw [hr] at hd
  rw [← h, ← hd]
  cases old.replay
  · simp only [Bool.false_eq_true, if_false]
    have e : eids ((m.die old.past).sendAll new.past.reverse).all = eids m.all + eids old.past + eids new.past := by
      rw [eids, sendAll_all]
      change labs Ev.id (m.die old.past).all + eids new.past.reverse = _
      rw [hrev]
      simp only [Post.die, Post.all, eids, labs_append]; abel
    rw [e]; abel
  · simp

theorem frees_all (l : List (Ev K U)) (m : Post (Ev K U)) : eids (l.foldl Post.free m).all = eids m.all + eids l := by
  induction l generalizing m with
  | nil => simp [eids, labs_nil]
  | cons x l ih =>
    rw [List.foldl_cons, ih, eids, free_all]
    simp only [eids, labs_cons]; abel

theorem callEvs_msg (setRate : K → U → U) (sr : K) (c : FrontCall K U) : eids (msgEvs (c.msg setRate sr)) = eids (callEvs c) := by
  cases c <;> rfl

theorem step_ids (X : Node K 0 n) (H : Heap K X.σ) (ease : Fade → K → K) (setRate : K → X.σ → X.σ) (cap : Nat) (sr : K) (s : SeqSt K X.σ)
    (c : SCall K X.σ n) : (s.step X H ease setRate cap sr c).ids = s.ids + eids (pushed [c]) := by
  have hq : pairIds (handleBack X.reset s.be.queue (s.be.seq, s.post)) = s.ids := handleBack_ids _ _ _
  have hf := handleBack_fst X.reset s.be.queue (s.be.seq, s.post)
  cases c with
  | rate r =>
    rw [← hq]
    simp only [SeqSt.step, SeqSt.ids, Be.setSampleRate, List.flatMap_nil, pushed]
    simp only [pairIds, hf]
    have : ∀ t : Sq K X.σ, eids (inSq (t.setSampleRate setRate r)) = eids (inSq t) := by
      intro t
      unfold Sq.setSampleRate
      split
      · rfl
      · simp only [inSq, List.nil_append, List.append_nil]
        unfold eids labs
        rw [List.map_map]; rfl
    rw [this]
  | op o =>
    cases o with
    | front c =>
      simp only [SeqSt.step, SeqSt.ids, Be.step, pushed, List.append_nil]
      split
      · simp only [pairIds, List.flatMap_append, List.flatMap_cons, List.flatMap_nil, List.append_nil]
        rw [show eids s.post.drain.all = eids s.post.all from drain_all _ _,
          show eids (s.be.queue.flatMap msgEvs ++ msgEvs (c.msg setRate sr)) = eids (s.be.queue.flatMap msgEvs) + eids (callEvs c) by
            rw [← callEvs_msg setRate sr c]; exact labs_append _ _ _]
        abel
      · simp only [pairIds, frees_all]
        rw [show eids s.post.drain.all = eids s.post.all from drain_all _ _]
        abel
    | reset =>
      simp only [SeqSt.step, SeqSt.ids, Be.step, pushed, List.flatMap_nil]
      have := resetBack_ids X.reset (handleBack X.reset s.be.queue (s.be.seq, s.post))
      rw [hq] at this
      rw [← hf]
      simp only [eids, labs_nil, add_zero]
      exact this
    | tick =>
      simp only [SeqSt.step, SeqSt.ids, Be.step, pushed, List.flatMap_nil]
      obtain ⟨h1, h2⟩ := tick_ids X H ease (handleBack X.reset s.be.queue (s.be.seq, s.post)).1
      have := playBack_ids _ _ (handleBack X.reset s.be.queue (s.be.seq, s.post)).2 h1 h2
      simp only [eids, labs_nil, add_zero]
      rw [← hf, this]
      exact hq
    | block size out buf g inp =>
      simp only [SeqSt.step, SeqSt.ids, Be.step, pushed, List.flatMap_nil]
      obtain ⟨h1, h2⟩ := process_ids X H ease g inp buf (handleBack X.reset s.be.queue (s.be.seq, s.post)).1 size out
      have := playBack_ids _ _ (handleBack X.reset s.be.queue (s.be.seq, s.post)).2 h1 h2
      simp only [eids, labs_nil, add_zero]
      rw [← hf, this]
      exact hq

theorem pushed_append (cs ds : List (SCall K U n)) : pushed (cs ++ ds) = pushed cs ++ pushed ds := by
  induction cs with
  | nil => rfl
  | cons c cs ih =>
    cases c with
    | rate r => exact ih
    | op o => cases o <;> simp [pushed, ih]

theorem seq_run_append (X : Node K 0 n) (H : Heap K X.σ) (ease : Fade → K → K) (setRate : K → X.σ → X.σ) (cap : Nat) (sr : K)
    (cs ds : List (SCall K X.σ n)) (s : SeqSt K X.σ) :
    s.run X H ease setRate cap sr (cs ++ ds) = (s.run X H ease setRate cap sr cs).run X H ease setRate cap sr ds := by
  simp [SeqSt.run, List.foldl_append]

theorem seq_run_ids (X : Node K 0 n) (H : Heap K X.σ) (ease : Fade → K → K) (setRate : K → X.σ → X.σ) (cap : Nat) (sr : K)
    (cs : List (SCall K X.σ n)) (s : SeqSt K X.σ) : (s.run X H ease setRate cap sr cs).ids = s.ids + eids (pushed cs) := by
  induction cs generalizing s with
  | nil => simp [SeqSt.run, pushed, eids, labs_nil]
  | cons c cs ih =>
    have := ih (s.step X H ease setRate cap sr c)
    simp only [SeqSt.run, List.foldl_cons] at this ⊢
    rw [this, step_ids, show pushed (c :: cs) = pushed [c] ++ pushed cs from pushed_append [c] cs]
    simp only [eids, labs_append]; abel

/-- The backend with the returning channel is that of C24 and C88. -/
theorem C114_seq_same (X : Node K 0 n) (H : Heap K X.σ) (ease : Fade → K → K) (setRate : K → X.σ → X.σ) (cap : Nat) (sr : K) (s : SeqSt K X.σ) :
    (∀ o, (s.step X H ease setRate cap sr (.op o)).be = (s.be.step X H ease setRate cap sr o).1) ∧
    ∀ r, (s.step X H ease setRate cap sr (.rate r)).be = s.be.setSampleRate X.reset setRate r :=
  ⟨fun o => by cases o <;> rfl, fun _ => rfl⟩

/-- **C114** (sequencers keep events): after any calls, every event that was ever pushed is in exactly one place: in the backend, on the way to it, on the way
back, or freed by one of the two threads. -/
theorem C114_seq_kept (X : Node K 0 n) (H : Heap K X.σ) (ease : Fade → K → K) (setRate : K → X.σ → X.σ) (cap : Nat) (replay : Bool) (sr : K)
    (cs : List (SCall K X.σ n)) :
    let s := (SeqSt.new cap replay sr).run X H ease setRate cap sr cs
    ((s.be.seq.active ++ s.be.seq.ready ++ s.be.seq.past ++ s.be.queue.flatMap msgEvs ++ s.post.box ++ s.post.taken ++ s.post.lost).map Ev.id).Perm
      ((pushed cs).map Ev.id) := by
  intro s
  have h := seq_run_ids X H ease setRate cap sr cs (SeqSt.new cap replay sr)
  rw [← Multiset.coe_eq_coe]
  have e0 : (SeqSt.new cap replay sr : SeqSt K X.σ).ids = 0 := rfl
  rw [e0, zero_add] at h
  refine Eq.trans ?_ h
  change labs Ev.id _ = s.ids
  simp only [SeqSt.ids, pairIds, inSq, Post.all, eids, labs_append]; abel

/-! ## With room, nothing is freed by the backend -/

omit [IsStrictOrderedRing K] [FloorRing K] [LinearOrder K] [Field K] in
theorem sendAll_ok {T : Type} (l : List T) {m : Post T} (ho : m.isOpen = true) (hl : m.lost = []) (hb : m.box.length + l.length ≤ m.cap) :
    (m.sendAll l).isOpen = true ∧ (m.sendAll l).lost = [] := by
  induction l generalizing m with
  | nil => exact ⟨ho, hl⟩
  | cons x l ih =>
    simp only [List.length_cons] at hb
    obtain ⟨a, b, c, d⟩ := send_ok ho hl (show m.box.length < m.cap by omega) x
    exact ih a b (by rw [c, d]; omega)

omit [IsStrictOrderedRing K] [FloorRing K] [LinearOrder K] [Field K] in
theorem sendAll_rest {T : Type} (l : List T) (m : Post T) : (m.sendAll l).cap = m.cap ∧ (m.sendAll l).taken = m.taken := by
  induction l generalizing m with
  | nil => exact ⟨rfl, rfl⟩
  | cons x l ih =>
    have h : (m.send x).cap = m.cap ∧ (m.send x).taken = m.taken := by unfold Post.send; split <;> exact ⟨rfl, rfl⟩
    exact ⟨(ih (m.send x)).1.trans h.1, (ih (m.send x)).2.trans h.2⟩

/-- The channel is open, nothing has been freed by the backend, and there is room for all events in the sequencer and `k` more. -/
def Good (p : Sq K U × Post (Ev K U)) (k : Nat) : Prop :=
  p.2.isOpen = true ∧ p.2.lost = [] ∧ (p.1.replay = false → p.1.past = []) ∧ (inSq p.1).length + p.2.box.length + k ≤ p.2.cap

/-- Equal identifiers, equal numbers. -/
theorem card_of_ids {p q : Sq K U × Post (Ev K U)} {l : List (Ev K U)} (h : pairIds p = pairIds q + eids l) (hp : p.2.lost = []) (hq : q.2.lost = [])
    (ht : p.2.taken = q.2.taken) : (inSq p.1).length + p.2.box.length = (inSq q.1).length + q.2.box.length + l.length := by
  have := congrArg Multiset.card h
  simp only [pairIds, eids, Multiset.card_add, labs_card, Post.all, List.length_append, hp, hq, ht, List.length_nil] at this
  omega

theorem resetBack_good (reset : U → U) {p : Sq K U × Post (Ev K U)} {k : Nat} (h : Good p k) :
    Good (resetBack reset p) k ∧ (resetBack reset p).2.taken = p.2.taken ∧ (resetBack reset p).2.cap = p.2.cap := by
  obtain ⟨h1, h2, h3, h4⟩ := h
  have hk := resetBack_ids reset p
  have hlen : (p.1.past.reverse ++ p.1.ready ++ p.1.active.reverse).length = (inSq p.1).length := by simp [inSq]; omega
  have hs := sendAll_ok (p.1.past.reverse ++ p.1.ready ++ p.1.active.reverse) h1 h2 (by rw [hlen]; omega)
  have hr := sendAll_rest (p.1.past.reverse ++ p.1.ready ++ p.1.active.reverse) p.2
  have hA : (resetBack reset p).2.isOpen = true ∧ (resetBack reset p).2.lost = [] ∧ (resetBack reset p).2.taken = p.2.taken ∧
      (resetBack reset p).2.cap = p.2.cap := by
    unfold resetBack
    simp only
    split
    · exact ⟨h1, h2, rfl, rfl⟩
    · exact ⟨hs.1, hs.2, hr.2, hr.1⟩
  have hc := card_of_ids (l := []) (by rw [hk]; simp [eids, labs_nil]) hA.2.1 h2 hA.2.2.1
  simp only [List.length_nil] at hc
  refine ⟨⟨hA.1, hA.2.1, fun _ => ?_, by rw [hA.2.2.2]; omega⟩, hA.2.2.1, hA.2.2.2⟩
  show (p.1.reset reset).past = []
  unfold Sq.reset
  split <;> rfl

theorem handleBack_good (reset : U → U) (ms : List (Seq.Msg K U)) {p : Sq K U × Post (Ev K U)} {k : Nat} (h : Good p ((ms.flatMap msgEvs).length + k)) :
    Good (handleBack reset ms p) k ∧ (handleBack reset ms p).2.taken = p.2.taken ∧ (handleBack reset ms p).2.cap = p.2.cap := by
  induction ms generalizing p with
  | nil => exact ⟨by simpa [handleBack] using h, rfl, rfl⟩
  | cons m ms ih =>
    have hlen : ∀ (t : Sq K U) (l : List (Ev K U)), eids (inSq t) = eids (inSq p.1) + eids l → (inSq t).length = (inSq p.1).length + l.length := by
      intro t l ht
      have := congrArg Multiset.card ht
      simpa only [eids, Multiset.card_add, labs_card] using this
    have hput : ∀ t : Sq K U, (t.replay = p.1.replay ∧ t.past = p.1.past) → (inSq t).length = (inSq p.1).length + (msgEvs m).length →
        Good (t, p.2) ((ms.flatMap msgEvs).length + k) := by
      intro t ht hl
      obtain ⟨h1, h2, h3, h4⟩ := h
      refine ⟨h1, h2, fun hr => ?_, ?_⟩
      · show t.past = []
        rw [ht.2]; exact h3 (by rw [← ht.1]; exact hr)
      · simp only [List.flatMap_cons, List.length_append] at h4
        simp only; omega
    cases m with
    | reset =>
      obtain ⟨a, b, c⟩ := ih (p := p) (by simpa [msgEvs] using h)
      obtain ⟨a', b', c'⟩ := resetBack_good reset a
      exact ⟨a', b'.trans b, c'.trans c⟩
    | push e =>
      refine ih (hput _ ?_ (hlen _ [e] (push_ids p.1 e)))
      unfold Sq.pushEvent; split <;> exact ⟨rfl, rfl⟩
    | pushRel e =>
      refine ih (hput _ ?_ (hlen _ [e] (pushRel_ids p.1 e)))
      unfold Sq.pushRelativeEvent; simp only; split <;> exact ⟨rfl, rfl⟩
    | edit id stop fo =>
      refine ih (hput _ ?_ (hlen _ [] (by rw [edit_ids]; simp [eids, labs_nil])))
      unfold Sq.edit
      split
      · exact ⟨rfl, rfl⟩
      · split <;> exact ⟨rfl, rfl⟩
    | editRel id stop fo =>
      refine ih (hput _ ?_ (hlen _ [] (by rw [editRel_ids]; simp [eids, labs_nil])))
      unfold Sq.editRelative
      split
      · exact ⟨rfl, rfl⟩
      · split <;> exact ⟨rfl, rfl⟩

theorem playBack_good {old new : Sq K U} {m : Post (Ev K U)} (h : Good (old, m) 0)
    (hi : eids (inSq new) + (if old.replay then 0 else eids old.past) = eids (inSq old)) (hr : new.replay = old.replay) :
    Good (new.drain, playBack old new m) 0 ∧ (playBack old new m).taken = m.taken ∧ (playBack old new m).cap = m.cap := by
  obtain ⟨h1, h2, h3, h4⟩ := h
  have hk := playBack_ids old new m hi hr
  have hA : (playBack old new m).isOpen = true ∧ (playBack old new m).lost = [] ∧ (playBack old new m).taken = m.taken ∧ (playBack old new m).cap = m.cap := by
    unfold playBack
    cases ho : old.replay
    · have hp : old.past = [] := h3 ho
      have hlen : (inSq new).length = (inSq old).length := by
        have := congrArg Multiset.card hi
        simpa [ho, eids, Multiset.card_add, labs_card, hp, labs_nil] using this
      have hle : new.past.reverse.length ≤ (inSq new).length := by simp [inSq]; omega
      simp only [Bool.false_eq_true, if_false]
      have hm : m.die old.past = m := by simp [Post.die, hp]
      rw [hm]
      have hs := sendAll_ok new.past.reverse h1 h2 (by simp only at h4 ⊢; omega)
      have hr := sendAll_rest new.past.reverse m
      exact ⟨hs.1, hs.2, hr.2, hr.1⟩
    · exact ⟨h1, h2, rfl, rfl⟩
  have hc := card_of_ids (p := (new.drain, playBack old new m)) (q := (old, m)) (l := []) (by rw [hk]; simp [eids, labs_nil]) hA.2.1 h2 hA.2.2.1
  simp only [List.length_nil] at hc
  refine ⟨⟨hA.1, hA.2.1, fun hd => ?_, ?_⟩, hA.2.2.1, hA.2.2.2⟩
  · simp only [Sq.drain] at hd ⊢
    cases hn : new.replay
    · simp
    · simp [hn] at hd
  · rw [hA.2.2.2]; simp only at h4 hc ⊢; omega

/-- The invariant of a run. -/
def SeqSt.Ok (s : SeqSt K U) : Prop := Good (s.be.seq, s.post) (s.be.queue.flatMap msgEvs).length

theorem step_ok (X : Node K 0 n) (H : Heap K X.σ) (ease : Fade → K → K) (setRate : K → X.σ → X.σ) (cap : Nat) (sr : K) (s : SeqSt K X.σ) (h : s.Ok)
    (c : SCall K X.σ n) (hp : Multiset.card (s.ids + eids (pushed [c])) ≤ s.post.cap + (s.step X H ease setRate cap sr c).post.taken.length) :
    (s.step X H ease setRate cap sr c).Ok ∧ (s.step X H ease setRate cap sr c).post.cap = s.post.cap := by
  have hf := handleBack_fst X.reset s.be.queue (s.be.seq, s.post)
  obtain ⟨g1, g2, g3⟩ := handleBack_good X.reset s.be.queue (p := (s.be.seq, s.post)) (k := 0) h
  cases c with
  | rate r =>
    refine ⟨?_, g3⟩
    obtain ⟨a, b, c, d⟩ := g1
    refine ⟨a, b, fun hr => ?_, ?_⟩
    · simp only [SeqSt.step, Be.setSampleRate, Sq.setSampleRate] at hr ⊢
      split
      · rename_i hsr
        rw [if_pos hsr] at hr
        rw [← hf] at hr ⊢; exact c hr
      · rfl
    · simp only [SeqSt.step, Be.setSampleRate, List.flatMap_nil, List.length_nil]
      have : (inSq ((Seq.handle X.reset s.be.queue s.be.seq).setSampleRate setRate r)).length = (inSq (handleBack X.reset s.be.queue (s.be.seq, s.post)).1).length := by
        rw [hf]
        unfold Sq.setSampleRate
        split
        · rfl
        · simp [inSq]
      rw [this]; exact d
  | op o =>
    cases o with
    | front c =>
      obtain ⟨h1, h2, h3, h4⟩ := h
      have hids := step_ids X H ease setRate cap sr s (.op (.front c))
      have hfree : ∀ (l : List (Ev K X.σ)) (m : Post (Ev K X.σ)), (l.foldl Post.free m).isOpen = m.isOpen ∧ (l.foldl Post.free m).lost = m.lost ∧
          (l.foldl Post.free m).cap = m.cap := by
        intro l
        induction l with
        | nil => intro m; exact ⟨rfl, rfl, rfl⟩
        | cons x l ih => intro m; exact ih (m.free x)
      have hA : (s.step X H ease setRate cap sr (.op (.front c))).post.isOpen = true ∧ (s.step X H ease setRate cap sr (.op (.front c))).post.lost = [] ∧
          (s.step X H ease setRate cap sr (.op (.front c))).post.cap = s.post.cap ∧
          (s.step X H ease setRate cap sr (.op (.front c))).be.seq = s.be.seq := by
        simp only [SeqSt.step, Be.step]
        split
        · exact ⟨h1, h2, rfl, rfl⟩
        · obtain ⟨a, b, d⟩ := hfree (callEvs c) s.post.drain
          exact ⟨a.trans h1, b.trans h2, d, rfl⟩
      have hcard := congrArg Multiset.card hids
      refine ⟨⟨hA.1, hA.2.1, fun hr => ?_, ?_⟩, hA.2.2.1⟩
      · rw [hA.2.2.2] at hr ⊢; exact h3 hr
      · rw [← hids] at hp
        simp only [SeqSt.ids, pairIds, eids, Multiset.card_add, labs_card, Post.all, List.length_append, hA.2.1, List.length_nil] at hp
        rw [hA.2.2.1]
        simp only
        omega
    | reset =>
      obtain ⟨a, b, d⟩ := resetBack_good X.reset g1
      refine ⟨?_, d.trans g3⟩
      show Good ((Seq.handle X.reset s.be.queue s.be.seq).reset X.reset, _) _
      rw [← hf]
      exact a
    | tick =>
      obtain ⟨i1, i2⟩ := tick_ids X H ease (handleBack X.reset s.be.queue (s.be.seq, s.post)).1
      obtain ⟨a, b, d⟩ := playBack_good g1 i1 i2
      refine ⟨?_, d.trans g3⟩
      show Good ((((Seq.handle X.reset s.be.queue s.be.seq).tick X H ease).1).drain, _) _
      rw [← hf]
      exact a
    | block size out buf g inp =>
      obtain ⟨i1, i2⟩ := process_ids X H ease g inp buf (handleBack X.reset s.be.queue (s.be.seq, s.post)).1 size out
      obtain ⟨a, b, d⟩ := playBack_good g1 i1 i2
      refine ⟨?_, d.trans g3⟩
      show Good ((((Seq.handle X.reset s.be.queue s.be.seq).process X H ease g inp buf size out).1).drain, _) _
      rw [← hf]
      exact a

/-- **C114** (sequencers): as long as there are never more than `cap` (2048) events about that were pushed and that the frontend has not yet freed, the backend
frees no event, whatever is called in whatever order. Missing: more events, see `C114_violation_seq`; a frontend that is dropped, see
`C114_violation_seq_dropped`; a sequencer that has played before, see `C114_violation_seq_played`. -/
theorem C114_seq_partial (X : Node K 0 n) (H : Heap K X.σ) (ease : Fade → K → K) (setRate : K → X.σ → X.σ) (cap : Nat) (replay : Bool) (sr : K)
    (cs : List (SCall K X.σ n))
    (hc : ∀ pre, pre <+: cs → (pushed pre).length ≤ cap + ((SeqSt.new cap replay sr).run X H ease setRate cap sr pre).post.taken.length) :
    ((SeqSt.new cap replay sr).run X H ease setRate cap sr cs).post.lost = [] := by
  suffices h : ((SeqSt.new cap replay sr).run X H ease setRate cap sr cs).Ok ∧ ((SeqSt.new cap replay sr).run X H ease setRate cap sr cs).post.cap = cap from h.1.2.1
  induction cs using List.reverseRecOn with
  | nil => exact ⟨⟨rfl, rfl, fun _ => rfl, by simp [SeqSt.run, SeqSt.new, Sq.new, inSq, Post.new]⟩, rfl⟩
  | append_singleton cs c ih =>
    obtain ⟨i1, i2⟩ := ih (fun pre hpre => hc pre (hpre.trans (List.prefix_append _ _)))
    have e : (SeqSt.new cap replay sr).run X H ease setRate cap sr (cs ++ [c]) =
        ((SeqSt.new cap replay sr).run X H ease setRate cap sr cs).step X H ease setRate cap sr c := by
      rw [seq_run_append]; rfl
    have hall := hc (cs ++ [c]) (List.prefix_refl _)
    rw [e] at hall ⊢
    have hids := seq_run_ids X H ease setRate cap sr cs (SeqSt.new cap replay sr)
    obtain ⟨j1, j2⟩ := step_ok X H ease setRate cap sr _ i1 c (by
      rw [hids, i2]
      have e0 : (SeqSt.new cap replay sr : SeqSt K X.σ).ids = 0 := rfl
      rw [e0, zero_add, Multiset.card_add, eids, eids, labs_card, labs_card, ← List.length_append, ← pushed_append]
      exact hall)
    exact ⟨j1, j2.trans i2⟩

/-- **C114** (sequencers, few events): with at most `cap` (2048) pushes in all, the backend frees no event. -/
theorem C114_seq_few (X : Node K 0 n) (H : Heap K X.σ) (ease : Fade → K → K) (setRate : K → X.σ → X.σ) (cap : Nat) (replay : Bool) (sr : K)
    (cs : List (SCall K X.σ n)) (hc : (pushed cs).length ≤ cap) : ((SeqSt.new cap replay sr).run X H ease setRate cap sr cs).post.lost = [] := by
  refine C114_seq_partial X H ease setRate cap replay sr cs fun pre ⟨r, hr⟩ => ?_
  rw [← hr, pushed_append, List.length_append] at hc
  omega

/-! ## Violations -/

theorem handle_pushes (reset : U → U) (l : List (Ev K U)) (s : Sq K U) (hs : s.thr = none) :
    Seq.handle reset (l.map .push) s = { s with ready := s.ready ++ l } := by
  induction l generalizing s with
  | nil => simp [Seq.handle]
  | cons e l ih =>
    have e1 : s.pushEvent e = { s with ready := s.ready ++ [e] } := by simp [Sq.pushEvent, hs, below]
    simp only [List.map_cons, Seq.handle]
    rw [e1, ih { s with ready := s.ready ++ [e] } hs]
    simp

theorem handleBack_pushes (reset : U → U) (l : List (Ev K U)) (p : Sq K U × Post (Ev K U)) : (handleBack reset (l.map .push) p).2 = p.2 := by
  induction l generalizing p with
  | nil => rfl
  | cons e l ih => exact ih (p.1.pushEvent e, p.2)

/-- Pushes while there is room in the channel. -/
theorem pushes_run (X : Node K 0 n) (H : Heap K X.σ) (ease : Fade → K → K) (setRate : K → X.σ → X.σ) (cap : Nat) (sr : K) (l : List (Ev K X.σ))
    (s : SeqSt K X.σ) (hp : s.post.box = []) (hq : s.be.queue.length + l.length ≤ cap) :
    s.run X H ease setRate cap sr (l.map fun e => .op (.front (.push e))) =
      ⟨⟨s.be.queue ++ l.map fun e => .push (e.rated setRate sr), s.be.seq⟩, s.post⟩ := by
  induction l generalizing s with
  | nil => simp [SeqSt.run]
  | cons e l ih =>
    simp only [List.length_cons] at hq
    have e1 : s.step X H ease setRate cap sr (.op (.front (.push e))) = ⟨⟨s.be.queue ++ [.push (e.rated setRate sr)], s.be.seq⟩, s.post⟩ := by
      have h : s.be.queue.length < cap := by omega
      have hd : s.post.drain = s.post := by unfold Post.drain; rw [hp, List.append_nil]; cases hs : s.post; simp only [hs] at hp; subst hp; rfl
      simp only [SeqSt.step, Be.step, if_pos h, hd, FrontCall.msg]
    have := ih (s.step X H ease setRate cap sr (.op (.front (.push e)))) (by rw [e1]; exact hp) (by rw [e1]; simp; omega)
    simp only [SeqSt.run, List.map_cons, List.foldl_cons] at this ⊢
    rw [this, e1]
    simp

/-- A tick before any event starts. -/
theorem tick_early (X : Node K 0 n) (H : Heap K X.σ) (ease : Fade → K → K) (s : Sq K X.σ) (ha : s.active = []) (hp : s.past = [])
    (hr : ∀ e ∈ s.ready, s.time + s.sd - s.sd * (1 / 2) ≤ e.start) :
    (s.tick X H ease).1.active = [] ∧ (s.tick X H ease).1.past = [] ∧ (s.tick X H ease).1.ready = s.ready ∧ (s.tick X H ease).1.replay = s.replay := by
  have hl : ∀ (k : Nat) (t : Sq K X.σ) (θ : K), (∀ e ∈ t.ready, θ ≤ e.start) → readyLoop H θ k t = t := by
    intro k t θ ht
    cases k with
    | zero => rfl
    | succ k =>
      simp only [readyLoop]
      split
      · rfl
      · rename_i e r he
        rw [if_neg (not_lt.2 (ht e ((H.pop_perm _ _ _ he).mem_iff.2 (List.mem_cons_self ..))))]
  obtain ⟨active, amap, thr, ready, past, edits, time, ssr, sd, replay⟩ := s
  cases ha
  cases hp
  have e := hl ready.length ⟨[], amap, some (time + sd - sd * (1 / 2)), ready, [], edits, time, ssr, sd, replay⟩ (time + sd - sd * (1 / 2)) hr
  unfold Sq.tick Sq.readyToActive
  cases replay <;> simp only [Bool.false_eq_true, if_false, if_true, e, List.length_nil, evLoop, and_self]

theorem sendAll_box {T : Type} (l : List T) (m : Post T) (h : m.box.length ≤ m.cap) : (m.sendAll l).box.length ≤ m.cap := by
  induction l generalizing m with
  | nil => exact h
  | cons x l ih =>
    have h1 : (m.send x).box.length ≤ (m.send x).cap := by
      unfold Post.send
      split
      · simp only [List.length_append, List.length_cons, List.length_nil]; omega
      · exact h
    have h2 : (m.send x).cap = m.cap := send_cap m x
    have := ih (m.send x) h1
    rw [h2] at this
    exact this

/-- **C114, the code violates it** (full channel): a score of `cap` (2048) events is pushed, none of which starts within the first half sample, the backend plays
a sample, one more event is pushed, and the backend is reset: it frees exactly one event. -/
theorem C114_violation_seq (X : Node K 0 n) (H : Heap K X.σ) (ease : Fade → K → K) (setRate : K → X.σ → X.σ) (cap : Nat) (hcap : 0 < cap) (sr : K)
    (l : List (Ev K X.σ)) (hl : l.length = cap) (hs : ∀ e ∈ l, 1 / sr * (1 / 2) ≤ e.start) (e : Ev K X.σ) :
    let s := (SeqSt.new cap false sr).run X H ease setRate cap sr
      (l.map (fun e => .op (.front (.push e))) ++ [.op .tick, .op (.front (.push e)), .op .reset])
    s.post.lost.length = 1 ∧ s.post.box.length = cap ∧ s.post.taken = [] := by
  intro s
  have hn := seq_run_ids X H ease setRate cap sr (l.map (fun e => .op (.front (.push e))) ++ [.op .tick, .op (.front (.push e)), .op .reset])
    (SeqSt.new cap false sr)
  have e0 : (SeqSt.new cap false sr : SeqSt K X.σ).ids = 0 := rfl
  have hpush : ∀ l : List (Ev K X.σ), pushed (n := n) (l.map fun e => .op (.front (.push e))) = l := by
    intro l
    induction l with
    | nil => rfl
    | cons e l ih => simp [pushed, callEvs, ih]
  have hcard := congrArg Multiset.card hn
  rw [e0, zero_add, pushed_append, hpush, eids, labs_card, List.length_append, hl] at hcard
  have hone : (pushed [(.op .tick : SCall K X.σ n), .op (.front (.push e)), .op .reset]).length = 1 := rfl
  rw [hone] at hcard
  -- after the score and the tick
  generalize hA : (SeqSt.new cap false sr : SeqSt K X.σ).run X H ease setRate cap sr (l.map fun e => .op (.front (.push e))) = A
  have hA' := pushes_run X H ease setRate cap sr l (SeqSt.new cap false sr) rfl (by simp [SeqSt.new, hl])
  rw [hA] at hA'
  have hsr : s = ((A.step X H ease setRate cap sr (.op .tick)).step X H ease setRate cap sr (.op (.front (.push e)))).step X H ease setRate cap sr (.op .reset) := by
    show (SeqSt.new cap false sr : SeqSt K X.σ).run X H ease setRate cap sr _ = _
    rw [seq_run_append, hA]; rfl
  have hq : A.be.queue = (l.map (Ev.rated setRate sr)).map .push := by rw [hA']; simp [SeqSt.new]
  have hh := handle_pushes X.reset (l.map (Ev.rated setRate sr)) (Sq.new false sr : Sq K X.σ) rfl
  have hseq : A.be.seq = Sq.new false sr := by rw [hA']; rfl
  have hpost : A.post = .new cap := by rw [hA']; rfl
  have hB : (A.step X H ease setRate cap sr (.op .tick)).post = .new cap ∧ (A.step X H ease setRate cap sr (.op .tick)).be.queue = [] ∧
      (A.step X H ease setRate cap sr (.op .tick)).be.seq.replay = false := by
    obtain ⟨t1, t2, t3, t4⟩ := tick_early X H ease (Seq.handle X.reset A.be.queue A.be.seq) (by rw [hq, hseq, hh]; rfl) (by rw [hq, hseq, hh]; rfl) (by
      rw [hq, hseq, hh]
      intro x hx
      obtain ⟨y, hy, rfl⟩ := List.mem_map.1 hx
      have := hs y hy
      show 0 + 1 / sr - 1 / sr * (1 / 2) ≤ y.start
      linarith)
    have hr : (Seq.handle X.reset A.be.queue A.be.seq).replay = false := by rw [hq, hseq, hh]; rfl
    have hpp : (Seq.handle X.reset A.be.queue A.be.seq).past = [] := by rw [hq, hseq, hh]; rfl
    refine ⟨?_, rfl, ?_⟩
    · simp only [SeqSt.step]
      have h2 : (handleBack X.reset A.be.queue (A.be.seq, A.post)).2 = .new cap := by rw [hq, handleBack_pushes, hpost]
      rw [handleBack_fst, h2]
      simp only [playBack, hr, Bool.false_eq_true, if_false, hpp, t2]
      simp [Post.die, Post.new, Post.sendAll]
    · show (((Seq.handle X.reset A.be.queue A.be.seq).tick X H ease).1.drain).replay = false
      unfold Sq.drain
      split
      · rw [t4, hr]
      · exact t4.trans hr
  generalize (A.step X H ease setRate cap sr (.op .tick)) = B at hB hsr
  obtain ⟨b1, b2, b3⟩ := hB
  have hC := pushes_run X H ease setRate cap sr [e] B (by rw [b1]; rfl) (by rw [b2]; simp; omega)
  have hC' : B.step X H ease setRate cap sr (.op (.front (.push e))) = ⟨⟨[.push (e.rated setRate sr)], B.be.seq⟩, .new cap⟩ := by
    rw [b2, b1] at hC
    simpa [SeqSt.run] using hC
  rw [hC'] at hsr
  -- the reset
  have hrep : (B.be.seq.pushEvent (e.rated setRate sr)).replay = false := by
    unfold Sq.pushEvent; split <;> exact b3
  have hres : s.be.queue = [] ∧ inSq s.be.seq = [] ∧ s.post.taken = [] ∧ s.post.box.length ≤ cap ∧
      s.post = (Post.new cap).sendAll ((B.be.seq.pushEvent (e.rated setRate sr)).past.reverse ++ (B.be.seq.pushEvent (e.rated setRate sr)).ready ++
        (B.be.seq.pushEvent (e.rated setRate sr)).active.reverse) := by
    have hpo : s.post = (Post.new cap).sendAll ((B.be.seq.pushEvent (e.rated setRate sr)).past.reverse ++ (B.be.seq.pushEvent (e.rated setRate sr)).ready ++
        (B.be.seq.pushEvent (e.rated setRate sr)).active.reverse) := by
      rw [hsr]
      show (if (B.be.seq.pushEvent (e.rated setRate sr)).replay then Post.new cap else _) = _
      rw [hrep]; rfl
    refine ⟨by rw [hsr]; rfl, ?_, ?_, ?_, hpo⟩
    · have : s.be.seq = (B.be.seq.pushEvent (e.rated setRate sr)).reset X.reset := by rw [hsr]; rfl
      rw [this]
      unfold Sq.reset
      rw [hrep]; rfl
    · rw [hpo, (sendAll_rest _ _).2]; rfl
    · rw [hpo]; exact sendAll_box _ _ (Nat.zero_le _)
  obtain ⟨r1, r2, r3, r4, r5⟩ := hres
  have hs' : Multiset.card s.ids = cap + 1 := hcard
  simp only [SeqSt.ids, pairIds, eids, Multiset.card_add, labs_card, Post.all, List.length_append, r1, r2, r3, List.flatMap_nil, List.length_nil] at hs'
  -- what is sent fits as long as it can
  have hfull : ∀ (w : List (Ev K X.σ)) (m : Post (Ev K X.σ)), m.isOpen = true → m.box.length ≤ m.cap → m.lost = [] → m.box.length + w.length = m.cap + 1 →
      (m.sendAll w).lost.length = 1 := by
    intro w
    induction w with
    | nil => intro m _ h2 _ h4; simp only [List.length_nil] at h4; omega
    | cons x w ih =>
      intro m h1 h2 h3 h4
      simp only [List.length_cons] at h4
      by_cases hlt : m.box.length < m.cap
      · obtain ⟨c1, c2, c3, c4⟩ := send_ok h1 h3 hlt x
        exact ih (m.send x) c1 (by rw [c3, c4]; omega) c2 (by rw [c3, c4]; omega)
      · have hw : w = [] := List.length_eq_zero_iff.1 (by omega)
        subst hw
        show (m.send x).lost.length = 1
        unfold Post.send
        rw [if_neg (fun h => hlt h.2)]
        simp [h3]
  have hw : ((B.be.seq.pushEvent (e.rated setRate sr)).past.reverse ++ (B.be.seq.pushEvent (e.rated setRate sr)).ready ++
        (B.be.seq.pushEvent (e.rated setRate sr)).active.reverse).length = cap + 1 := by
    have := congrArg (fun m : Post (Ev K X.σ) => m.all.length) r5
    have hall := congrArg Multiset.card (sendAll_all Ev.id ((B.be.seq.pushEvent (e.rated setRate sr)).past.reverse ++ (B.be.seq.pushEvent (e.rated setRate sr)).ready ++
        (B.be.seq.pushEvent (e.rated setRate sr)).active.reverse) (Post.new cap))
    rw [← r5, Multiset.card_add, labs_card, labs_card, labs_card] at hall
    have hz : (Post.new (T := Ev K X.σ) cap).all = [] := rfl
    rw [hz, List.length_nil, zero_add] at hall
    rw [← hall]
    simp only [Post.all, List.length_append, r3, List.length_nil]
    omega
  have hlost : s.post.lost.length = 1 := by
    rw [r5]
    exact hfull _ _ rfl (Nat.zero_le _) rfl (by rw [hw]; simp [Post.new])
  exact ⟨hlost, by omega, r3⟩

/-- **C114, the code violates it** (frontend dropped): after the frontend is gone, the backend frees every event itself. -/
theorem C114_violation_seq_dropped (X : Node K 0 n) (H : Heap K X.σ) (ease : Fade → K → K) (setRate : K → X.σ → X.σ) (cap : Nat) (hcap : 0 < cap) (sr : K)
    (e : Ev K X.σ) :
    ((((SeqSt.new cap false sr).run X H ease setRate cap sr [.op (.front (.push e))]).close).run X H ease setRate cap sr [.op .reset]).post.lost =
      [e.rated setRate sr] := by
  have h := pushes_run X H ease setRate cap sr [e] (SeqSt.new cap false sr) rfl (by simp [SeqSt.new]; omega)
  simp only [List.map_cons, List.map_nil] at h
  rw [h]
  rfl

/-- **C114, the code violates it** (played before): a backend is made from a copy of the sequencer as it is; the events that had just ended in it are freed by
the first tick of the backend. -/
theorem C114_violation_seq_played (X : Node K 0 n) (H : Heap K X.σ) (ease : Fade → K → K) (setRate : K → X.σ → X.σ) (cap : Nat) (sr : K) (s : Sq K X.σ)
    (hr : s.replay = false) (hp : s.past ≠ []) : ((SeqSt.mk ⟨[], s⟩ (.new cap)).step X H ease setRate cap sr (.op .tick)).post.lost ≠ [] := by
  intro h
  have hlost : ∀ (w : List (Ev K X.σ)) (m : Post (Ev K X.σ)), m.lost ≠ [] → (m.sendAll w).lost ≠ [] := by
    intro w
    induction w with
    | nil => intro m h; exact h
    | cons x w ih =>
      intro m h
      refine ih (m.send x) ?_
      unfold Post.send
      split
      · exact h
      · simp
  refine hlost _ _ ?_ (show (((Post.new cap).die s.past).sendAll (s.tick X H ease).1.past.reverse).lost = [] from ?_)
  · simpa [Post.die, Post.new] using hp
  · simpa [SeqSt.step, handleBack, playBack, hr] using h

omit [Field K] [LinearOrder K] [IsStrictOrderedRing K] [FloorRing K] in
theorem frees_fields (l : List (Ev K U)) (m : Post (Ev K U)) :
    (l.foldl Post.free m).box = m.box ∧ (l.foldl Post.free m).lost = m.lost ∧ (l.foldl Post.free m).taken = m.taken ++ l := by
  induction l generalizing m with
  | nil => exact ⟨rfl, rfl, (List.append_nil _).symm⟩
  | cons x l ih =>
    obtain ⟨h1, h2, h3⟩ := ih (m.free x)
    exact ⟨h1, h2, h3.trans (by simp [Post.free])⟩

/-- **C114** (sequencers, the frontend frees): in whatever state, every push and every edit on the frontend frees all events that have come back, in the thread
of the frontend: none is left in the channel. -/
theorem C114_seq_freed (X : Node K 0 n) (H : Heap K X.σ) (ease : Fade → K → K) (setRate : K → X.σ → X.σ) (cap : Nat) (sr : K) (s : SeqSt K X.σ)
    (c : FrontCall K X.σ) :
    let t := s.step X H ease setRate cap sr (.op (.front c))
    t.post.box = [] ∧ t.post.lost = s.post.lost ∧ ∀ e ∈ s.post.taken ++ s.post.box, e ∈ t.post.taken := by
  intro t
  by_cases hq : s.be.queue.length < cap
  · have h : t.post = s.post.drain := if_pos hq
    rw [h]
    exact ⟨rfl, rfl, fun e he => he⟩
  · have h : t.post = (callEvs c).foldl Post.free s.post.drain := if_neg hq
    obtain ⟨h1, h2, h3⟩ := frees_fields (callEvs c) s.post.drain
    rw [h, h1, h2, h3]
    exact ⟨rfl, rfl, fun e he => List.mem_append_left _ he⟩

/-- Two events that ended are on the way back; an edit frees them. -/
example (X : Node K 0 n) (H : Heap K X.σ) (ease : Fade → K → K) (setRate : K → X.σ → X.σ) (e d : Ev K X.σ) :
    ((SeqSt.mk ⟨[], Sq.new false 44100⟩ ⟨2048, true, [e, d], [], []⟩).step X H ease setRate 2048 44100 (.op (.front (.edit 7 none 1)))).post.taken = [e, d] := rfl

end Fundsp.Mail
