import Verif.Mail.Model
import Mathlib.Tactic.Abel

/-! Lemmas for C114: units of a slot are kept. -/

namespace Fundsp.Mail
open Fundsp.Net Fundsp.Slot
variable {T U α : Type}

/-- All that has gone through a returning channel. -/
def Post.all (m : Post T) : List T := m.box ++ m.taken ++ m.lost

/-- Labels of units, in no order. -/
def labs (lab : T → ℕ) (l : List T) : Multiset ℕ := (l.map lab : List ℕ)

theorem labs_append (lab : T → ℕ) (l m : List T) : labs lab (l ++ m) = labs lab l + labs lab m := by
  simp [labs]

theorem labs_nil (lab : T → ℕ) : labs lab [] = 0 := rfl

theorem labs_single (lab : T → ℕ) (x : T) : labs lab [x] = {lab x} := rfl

theorem labs_card (lab : T → ℕ) (l : List T) : Multiset.card (labs lab l) = l.length := by simp [labs]

theorem send_all (lab : T → ℕ) (m : Post T) (x : T) : labs lab (m.send x).all = labs lab m.all + {lab x} := by
  unfold Post.send Post.all
  split <;> simp only [labs_append, labs_single] <;> abel

theorem drain_all (lab : T → ℕ) (m : Post T) : labs lab m.drain.all = labs lab m.all := by
  unfold Post.drain Post.all
  simp only [labs_append, labs_nil]; abel

theorem free_all (lab : T → ℕ) (m : Post T) (x : T) : labs lab (m.free x).all = labs lab m.all + {lab x} := by
  unfold Post.free Post.all
  simp only [labs_append, labs_single]; abel

/-- Units in the backend of a slot and on their way to it. -/
def inSlot (b : Back U α) : List U := b.current :: (b.next.toList ++ b.latest.toList ++ b.queue.map (·.unit))

variable {S : Units U α} {P : Proc U α} {lab : U → ℕ} {cap : Nat}

theorem step_back (S : Units U α) (P : Proc U α) (cap : Nat) (s : SlotSt U α) (c : Slot.Call U α) : (s.step S P cap c).back = s.back.step S P cap c := by
  have hf : ∀ (q : List (Upd U α)) (s : SlotSt U α), (q.foldl (SlotSt.receive S) s).back = q.foldl (Back.receive S) s.back := by
    intro q
    induction q with
    | nil => intro s; rfl
    | cons d q ih => intro s; simp only [List.foldl_cons, ih]; rfl
  have hh : (s.handle S).back = s.back.handle S := by
    simp only [SlotSt.handle, Back.handle, hf]
  cases c with
  | set d => rfl
  | tick x => simp only [SlotSt.step, SlotSt.tick', hh]; rfl
  | block size x old tmp => simp only [SlotSt.step, SlotSt.process', hh]; rfl
  | reset => rfl
  | setRate sr => rfl

theorem run_back (S : Units U α) (P : Proc U α) (cap : Nat) (cs : List (Slot.Call U α)) (s : SlotSt U α) : (s.run S P cap cs).back = s.back.run S P cap cs := by
  induction cs generalizing s with
  | nil => rfl
  | cons c cs ih => simp only [SlotSt.run, Back.run, List.foldl_cons] at ih ⊢; rw [ih, step_back]

/-- Labels in a slot and in its returning channel. -/
def SlotSt.labels (lab : U → ℕ) (s : SlotSt U α) : Multiset ℕ := labs lab (inSlot s.back) + labs lab s.post.all

theorem labs_toList (lab : U → ℕ) (o : Option U) : labs lab o.toList = match o with | none => 0 | some u => {lab u} := by
  cases o <;> rfl

theorem labs_cons (lab : T → ℕ) (x : T) (l : List T) : labs lab (x :: l) = {lab x} + labs lab l := rfl

theorem receive_queue (S : Units U α) (b : Back U α) (d : Upd U α) : (b.receive S d).queue = b.queue := by
  unfold Back.receive; split <;> rfl

theorem receive_labels (S : Units U α) (lab : U → ℕ) (s : SlotSt U α) (d : Upd U α) :
    (s.receive S d).labels lab = s.labels lab + {lab d.unit} := by
  obtain ⟨⟨ins, outs, sr, current, next, fade, time, phase, latest, lf, lt, queue⟩, post⟩ := s
  cases next <;> cases latest <;>
    simp only [SlotSt.labels, SlotSt.receive, Back.receive, inSlot, Option.toList, labs_cons, labs_append, labs_single, labs_nil, send_all] <;> abel

theorem handle_labels (S : Units U α) (lab : U → ℕ) (s : SlotSt U α) : (s.handle S).labels lab = s.labels lab := by
  have hf : ∀ (q : List (Upd U α)) (s : SlotSt U α), (q.foldl (SlotSt.receive S) s).labels lab = s.labels lab + labs lab (q.map (·.unit)) ∧
      (q.foldl (SlotSt.receive S) s).back.queue = s.back.queue := by
    intro q
    induction q with
    | nil => intro s; exact ⟨by simp [labs_nil], rfl⟩
    | cons d q ih =>
      intro s
      simp only [List.foldl_cons, List.map_cons, labs_cons]
      obtain ⟨h1, h2⟩ := ih (s.receive S d)
      exact ⟨by rw [h1, receive_labels]; abel, h2.trans (receive_queue S s.back d)⟩
  obtain ⟨h1, h2⟩ := hf s.back.queue s
  unfold SlotSt.handle
  simp only
  generalize s.back.queue.foldl (SlotSt.receive S) s = r at h1 h2
  have e : r.labels lab = (SlotSt.mk { r.back with queue := [] } r.post).labels lab + labs lab (s.back.queue.map (·.unit)) := by
    simp only [SlotSt.labels, inSlot, labs_cons, labs_append, h2, List.map_nil, labs_nil]; abel
  rw [e] at h1
  exact add_right_cancel h1

theorem step_labels (hL : Lab S P lab) (s : SlotSt U α) (c : Slot.Call U α) :
    (s.step S P cap c).labels lab = s.labels lab + match c with | .set d => {lab d.unit} | _ => 0 := by
  cases c with
  | set d =>
    obtain ⟨b, post⟩ := s
    simp only [SlotSt.step, SlotSt.set, Back.set]
    split
    · split
      · simp only [SlotSt.labels, inSlot, drain_all, labs_cons, labs_append, List.map_append, List.map_cons, List.map_nil, labs_nil]; abel
      · simp only [SlotSt.labels, free_all, drain_all]; abel
    · simp only [SlotSt.labels, free_all]; abel
  | tick x =>
    simp only [SlotSt.step, add_zero]
    rw [← handle_labels S lab s]
    generalize s.handle S = s
    obtain ⟨⟨ins, outs, sr, current, next, fade, time, phase, latest, lf, lt, queue⟩, post⟩ := s
    cases next with
    | none => simp only [SlotSt.labels, SlotSt.tick', Back.tick', inSlot, labs_cons, hL.tick]; 
    | some nx =>
      simp only [SlotSt.labels, SlotSt.tick', Back.tick']
      split
      · simp only [Back.nextPhase, inSlot, labs_cons, labs_append, hL.tick, send_all, Option.toList, labs_nil]; abel
      · simp only [inSlot, labs_cons, labs_append, hL.tick, Option.toList, labs_nil]
  | block size x old tmp =>
    simp only [SlotSt.step, add_zero]
    rw [← handle_labels S lab s]
    generalize s.handle S = s
    obtain ⟨⟨ins, outs, sr, current, next, fade, time, phase, latest, lf, lt, queue⟩, post⟩ := s
    cases next with
    | none => simp only [SlotSt.labels, SlotSt.process', Back.process', inSlot, labs_cons, hL.proc]
    | some nx =>
      simp only [SlotSt.labels, SlotSt.process', Back.process']
      split
      · simp only [Back.nextPhase, inSlot, labs_cons, labs_append, hL.proc, send_all, Option.toList, labs_nil]; abel
      · simp only [inSlot, labs_cons, labs_append, hL.proc, Option.toList, labs_nil]
  | reset =>
    obtain ⟨⟨ins, outs, sr, current, next, fade, time, phase, latest, lf, lt, queue⟩, post⟩ := s
    cases next <;> cases latest <;>
      simp only [SlotSt.step, SlotSt.reset, Back.reset, SlotSt.labels, inSlot, labs_cons, labs_append, hL.reset, send_all, Option.toList, labs_nil] <;> abel
  | setRate sr =>
    obtain ⟨⟨ins, outs, sr, current, next, fade, time, phase, latest, lf, lt, queue⟩, post⟩ := s
    cases next <;> cases latest <;>
      simp only [SlotSt.step, Back.setRate, SlotSt.labels, inSlot, labs_cons, labs_append, hL.setSR, Option.toList, labs_nil, Option.map, add_zero]

/-- Nothing is freed by the backend as long as the channel has room for all units that may come. -/
def SlotSt.Fits (s : SlotSt U α) : Prop :=
  s.post.isOpen = true ∧ s.post.lost = [] ∧ s.post.box.length + s.back.queue.length + s.back.next.toList.length + s.back.latest.toList.length ≤ s.post.cap

theorem send_ok {m : Post T} (ho : m.isOpen = true) (hl : m.lost = []) (hb : m.box.length < m.cap) (x : T) :
    (m.send x).isOpen = true ∧ (m.send x).lost = [] ∧ (m.send x).box.length = m.box.length + 1 ∧ (m.send x).cap = m.cap := by
  unfold Post.send
  rw [if_pos ⟨ho, hb⟩]
  exact ⟨ho, hl, by simp, rfl⟩

theorem send_cap (m : Post T) (x : T) : (m.send x).cap = m.cap := by unfold Post.send; split <;> rfl

theorem receive_fits (S : Units U α) (d : Upd U α) {q : List (Upd U α)} {s : SlotSt U α}
    (h : (SlotSt.mk { s.back with queue := d :: q } s.post).Fits) : (SlotSt.mk { (s.receive S d).back with queue := q } (s.receive S d).post).Fits := by
  obtain ⟨⟨ins, outs, sr, current, next, fade, time, phase, latest, lf, lt, queue⟩, post⟩ := s
  obtain ⟨h1, h2, h3⟩ := h
  simp only [List.length_cons] at h3
  cases next with
  | none =>
    refine ⟨h1, h2, ?_⟩
    simp only [SlotSt.receive, Back.receive, Option.toList, List.length_nil, List.length_cons] at h3 ⊢
    omega
  | some n =>
    cases latest with
    | none =>
      refine ⟨h1, h2, ?_⟩
      simp only [SlotSt.receive, Back.receive, Option.toList, List.length_nil, List.length_cons] at h3 ⊢
      omega
    | some l =>
      simp only [Option.toList, List.length_nil, List.length_cons] at h3
      obtain ⟨g1, g2, g3, g4⟩ := send_ok (m := post) h1 h2 (show post.box.length < post.cap by omega) l
      refine ⟨g1, g2, ?_⟩
      simp only [SlotSt.receive, Back.receive, Option.toList, List.length_nil, List.length_cons, g3, g4] at h3 ⊢
      omega

theorem handle_fits (S : Units U α) {s : SlotSt U α} (h : s.Fits) : (s.handle S).Fits := by
  have hf : ∀ (q : List (Upd U α)) (s : SlotSt U α), (SlotSt.mk { s.back with queue := q } s.post).Fits →
      (SlotSt.mk { (q.foldl (SlotSt.receive S) s).back with queue := [] } (q.foldl (SlotSt.receive S) s).post).Fits := by
    intro q
    induction q with
    | nil => intro s h; exact h
    | cons d q ih =>
      intro s h
      exact ih _ (receive_fits S d h)
  exact hf s.back.queue s h

/-- Calls of the backend keep the room. -/
theorem back_fits (S : Units U α) (P : Proc U α) {s : SlotSt U α} (h : s.Fits) (c : Slot.Call U α) (hc : ∀ d, c ≠ .set d) : (s.step S P cap c).Fits := by
  cases c with
  | set d => exact absurd rfl (hc d)
  | tick x =>
    have h := handle_fits S h
    simp only [SlotSt.step]
    generalize s.handle S = s at h ⊢
    obtain ⟨⟨ins, outs, sr, current, next, fade, time, phase, latest, lf, lt, queue⟩, post⟩ := s
    obtain ⟨h1, h2, h3⟩ := h
    cases next with
    | none => exact ⟨h1, h2, h3⟩
    | some nx =>
      simp only [Option.toList, List.length_cons, List.length_nil] at h3
      obtain ⟨g1, g2, g3, g4⟩ := send_ok (m := post) h1 h2 (show post.box.length < post.cap by omega) (S.utick current x).1
      simp only [SlotSt.tick', Back.tick']
      split
      · refine ⟨g1, g2, ?_⟩
        simp only [Back.nextPhase, g3, g4, Option.toList, List.length_nil]
        omega
      · exact ⟨h1, h2, h3⟩
  | block size x old tmp =>
    have h := handle_fits S h
    simp only [SlotSt.step]
    generalize s.handle S = s at h ⊢
    obtain ⟨⟨ins, outs, sr, current, next, fade, time, phase, latest, lf, lt, queue⟩, post⟩ := s
    obtain ⟨h1, h2, h3⟩ := h
    cases next with
    | none => exact ⟨h1, h2, h3⟩
    | some nx =>
      simp only [Option.toList, List.length_cons, List.length_nil] at h3
      obtain ⟨g1, g2, g3, g4⟩ := send_ok (m := post) h1 h2 (show post.box.length < post.cap by omega) (P current size x old).1
      simp only [SlotSt.process', Back.process']
      split
      · refine ⟨g1, g2, ?_⟩
        simp only [Back.nextPhase, g3, g4, Option.toList, List.length_nil]
        omega
      · exact ⟨h1, h2, h3⟩
  | reset =>
    obtain ⟨⟨ins, outs, sr, current, next, fade, time, phase, latest, lf, lt, queue⟩, post⟩ := s
    obtain ⟨h1, h2, h3⟩ := h
    cases next with
    | none =>
      cases latest with
      | none => exact ⟨h1, h2, h3⟩
      | some l =>
        simp only [Option.toList, List.length_cons, List.length_nil] at h3
        obtain ⟨g1, g2, g3, g4⟩ := send_ok (m := post) h1 h2 (show post.box.length < post.cap by omega) current
        refine ⟨g1, g2, ?_⟩
        simp only [SlotSt.step, SlotSt.reset, Back.reset, g3, g4, Option.toList, List.length_nil]
        omega
    | some nx =>
      cases latest with
      | none =>
        simp only [Option.toList, List.length_cons, List.length_nil] at h3
        obtain ⟨g1, g2, g3, g4⟩ := send_ok (m := post) h1 h2 (show post.box.length < post.cap by omega) current
        refine ⟨g1, g2, ?_⟩
        simp only [SlotSt.step, SlotSt.reset, Back.reset, g3, g4, Option.toList, List.length_nil]
        omega
      | some l =>
        simp only [Option.toList, List.length_cons, List.length_nil] at h3
        obtain ⟨g1, g2, g3, g4⟩ := send_ok (m := post) h1 h2 (show post.box.length < post.cap by omega) current
        obtain ⟨k1, k2, k3, k4⟩ := send_ok (m := post.send current) g1 g2 (show (post.send current).box.length < (post.send current).cap by omega) nx
        refine ⟨k1, k2, ?_⟩
        simp only [SlotSt.step, SlotSt.reset, Back.reset, k3, k4, g3, g4, Option.toList, List.length_nil]
        omega
  | setRate sr =>
    obtain ⟨⟨ins, outs, sr, current, next, fade, time, phase, latest, lf, lt, queue⟩, post⟩ := s
    obtain ⟨h1, h2, h3⟩ := h
    cases next <;> cases latest <;> exact ⟨h1, h2, h3⟩

theorem toList_le (o : Option U) : o.toList.length ≤ 1 := by cases o <;> simp

/-- A `set` empties the channel, and takes room for one unit. -/
theorem set_fits (S : Units U α) {s : SlotSt U α} (h : s.Fits) (d : Upd U α) (hq : s.back.queue.length + 3 ≤ s.post.cap) : (s.set S cap d).Fits := by
  obtain ⟨h1, h2, h3⟩ := h
  have a := toList_le s.back.next
  have b := toList_le s.back.latest
  unfold SlotSt.set Back.set
  split
  · split
    · refine ⟨h1, h2, ?_⟩
      simp only [Post.drain, List.length_append, List.length_nil, List.length_cons]
      omega
    · refine ⟨h1, h2, ?_⟩
      simp only [Post.drain, Post.free, List.length_nil]
      omega
  · exact ⟨h1, h2, h3⟩

end Fundsp.Mail
