import Verif.Mail.Slot

/-!
# C114: units are not freed on the audio thread, in slots
-/

namespace Fundsp.Mail
open Fundsp.Net Fundsp.Slot
variable {T U α : Type}

/-- The units that were given to `set`. -/
def handed : List (Slot.Call U α) → List U
  | [] => []
  | .set d :: cs => d.unit :: handed cs
  | _ :: cs => handed cs

theorem handed_append (cs ds : List (Slot.Call U α)) : handed (cs ++ ds) = handed cs ++ handed ds := by
  induction cs with
  | nil => rfl
  | cons c cs ih => cases c <;> simp [handed, ih]

theorem run_labels {S : Units U α} {P : Proc U α} {lab : U → ℕ} (hL : Lab S P lab) (cap : Nat) (cs : List (Slot.Call U α)) (s : SlotSt U α) :
    (s.run S P cap cs).labels lab = s.labels lab + labs lab (handed cs) := by
  induction cs generalizing s with
  | nil => simp [SlotSt.run, handed, labs_nil]
  | cons c cs ih =>
    have := ih (s.step S P cap c)
    simp only [SlotSt.run, List.foldl_cons] at this ⊢
    rw [this, step_labels hL]
    cases c <;> simp only [handed, labs_cons, add_zero]
    abel

/-- The slot with its returning channel is the slot of C25. -/
theorem C114_slot_same (S : Units U α) (P : Proc U α) (cap : Nat) (sr : α) (u0 : U) (cs : List (Slot.Call U α)) :
    ((SlotSt.new S cap sr u0).run S P cap cs).back = (Back.new S sr u0).run S P cap cs := run_back S P cap cs _

/-- **C114** (slots keep units): after any calls, every unit that was ever given to the slot is in exactly one place: playing, fading in or waiting in the
backend, on the way to it, on the way back, or freed by one of the two threads. `lab` gives units any labels that playing does not change. -/
theorem C114_slot_kept {S : Units U α} {P : Proc U α} {lab : U → ℕ} (hL : Lab S P lab) (cap : Nat) (sr : α) (u0 : U) (cs : List (Slot.Call U α)) :
    let s := (SlotSt.new S cap sr u0).run S P cap cs
    ((s.back.current :: (s.back.next.toList ++ s.back.latest.toList ++ s.back.queue.map (·.unit) ++ s.post.box ++ s.post.taken ++ s.post.lost)).map lab).Perm
      ((u0 :: handed cs).map lab) := by
  intro s
  have h := run_labels hL cap cs (SlotSt.new S cap sr u0)
  rw [← Multiset.coe_eq_coe]
  have e0 : (SlotSt.new S cap sr u0).labels lab = {lab u0} := by
    simp only [SlotSt.labels, SlotSt.new, Back.new, inSlot, Post.new, Post.all, labs_cons, labs_append, labs_nil, Option.toList, List.map_nil, hL.setSR, add_zero]
  rw [e0] at h
  have e1 : s.labels lab = labs lab (s.back.current :: (s.back.next.toList ++ s.back.latest.toList ++ s.back.queue.map (·.unit) ++ s.post.box ++ s.post.taken ++
      s.post.lost)) := by
    simp only [SlotSt.labels, inSlot, Post.all, labs_cons, labs_append]; abel
  exact e1.symm.trans h

theorem run_fits (S : Units U α) (P : Proc U α) (cap k : Nat) (hk : k + 2 ≤ cap) (cs : List (Slot.Call U α)) (s : SlotSt U α) (hc : s.post.cap = cap)
    (hs : s.Fits) (q : Nat) (hq : s.back.queue.length ≤ q) (hr : Roomy k q cs) : (s.run S P cap cs).Fits ∧ (s.run S P cap cs).post.cap = cap := by
  induction cs generalizing s q with
  | nil => exact ⟨hs, hc⟩
  | cons c cs ih =>
    have hcap : ∀ (s : SlotSt U α) (c : Slot.Call U α), (s.step S P cap c).post.cap = s.post.cap := by
      have hh : ∀ (q : List (Upd U α)) (s : SlotSt U α), (q.foldl (SlotSt.receive S) s).post.cap = s.post.cap := by
        intro q
        induction q with
        | nil => intro s; rfl
        | cons d q ih =>
          intro s
          rw [List.foldl_cons, ih]
          unfold SlotSt.receive
          split
          · rfl
          · split
            · rfl
            · exact send_cap _ _
      intro s c
      have hh' : (s.handle S).post.cap = s.post.cap := hh s.back.queue s
      cases c with
      | set d =>
        simp only [SlotSt.step, SlotSt.set]
        split
        · split <;> rfl
        · rfl
      | tick x =>
        simp only [SlotSt.step, SlotSt.tick']
        split
        · exact hh'
        · split
          · rw [send_cap]; exact hh'
          · exact hh'
      | block size x old tmp =>
        simp only [SlotSt.step, SlotSt.process']
        split
        · exact hh'
        · split
          · rw [send_cap]; exact hh'
          · exact hh'
      | reset =>
        simp only [SlotSt.step, SlotSt.reset]
        split <;> split <;> simp only [send_cap]
      | setRate sr => rfl
    have hempty : ∀ (s : SlotSt U α), (s.handle S).back.queue = [] := fun _ => rfl
    cases c with
    | set d =>
      refine ih (s.step S P cap (.set d)) ((hcap s _).trans hc) (set_fits S hs d ?_) (q + 1) ?_ hr.2
      · have := hr.1; omega
      · simp only [SlotSt.step, SlotSt.set, Back.set]
        split
        · split
          · simp only [List.length_append, List.length_cons, List.length_nil]; omega
          · omega
        · omega
    | tick x =>
      refine ih (s.step S P cap (.tick x)) ((hcap s _).trans hc) (back_fits S P hs _ (fun _ h => by cases h)) 0 ?_ hr
      have h := hempty s
      simp only [SlotSt.step, SlotSt.tick', Back.tick']
      split
      · simp [h]
      · split
        · simp only [Back.nextPhase]; simp [h]
        · simp [h]
    | block size x old tmp =>
      refine ih (s.step S P cap (.block size x old tmp)) ((hcap s _).trans hc) (back_fits S P hs _ (fun _ h => by cases h)) 0 ?_ hr
      have h := hempty s
      simp only [SlotSt.step, SlotSt.process', Back.process']
      split
      · simp [h]
      · split
        · simp only [Back.nextPhase]; simp [h]
        · simp [h]
    | reset =>
      refine ih (s.step S P cap .reset) ((hcap s _).trans hc) (back_fits S P hs _ (fun _ h => by cases h)) q ?_ hr
      simp only [SlotSt.step, SlotSt.reset, Back.reset]
      split
      · exact hq
      · split <;> exact hq
    | setRate sr =>
      exact ih (s.step S P cap (.setRate sr)) ((hcap s _).trans hc) (back_fits S P hs _ (fun _ h => by cases h)) q hq hr

/-- **C114** (slots): as long as never more than `cap - 2` (1022) units are on their way to the backend, the backend frees no unit, whatever is called in
whatever order. Missing: longer rows of `set` calls between two blocks, see `C114_violation_slot`, and a frontend that is dropped, see
`C114_violation_slot_dropped`. -/
theorem C114_slot_partial (S : Units U α) (P : Proc U α) (cap k : Nat) (hk : k + 2 ≤ cap) (sr : α) (u0 : U) (cs : List (Slot.Call U α)) (hr : Roomy k 0 cs) :
    ((SlotSt.new S cap sr u0).run S P cap cs).post.lost = [] := by
  refine (run_fits S P cap k hk cs _ rfl ⟨rfl, rfl, ?_⟩ 0 le_rfl hr).1.2.1
  simp [SlotSt.new, Post.new, Back.new]

theorem run_append (S : Units U α) (P : Proc U α) (cap : Nat) (cs ds : List (Slot.Call U α)) (s : SlotSt U α) :
    s.run S P cap (cs ++ ds) = (s.run S P cap cs).run S P cap ds := by
  simp [SlotSt.run, List.foldl_append]

/-- The number of units in a slot and its returning channel grows by one with each `set`. -/
theorem run_count (S : Units U α) (P : Proc U α) (cap : Nat) (cs : List (Slot.Call U α)) (s : SlotSt U α) :
    (inSlot (s.run S P cap cs).back).length + (s.run S P cap cs).post.all.length = (inSlot s.back).length + s.post.all.length + (handed cs).length := by
  have h := congrArg Multiset.card (run_labels (S := S) (P := P) (lab := fun _ => 0) ⟨fun _ _ => rfl, fun _ _ _ _ => rfl, fun _ => rfl, fun _ _ => rfl⟩ cap cs s)
  simp only [SlotSt.labels, Multiset.card_add, labs_card] at h
  exact h

theorem send_box (m : Post T) (h : m.box.length ≤ m.cap) (x : T) : (m.send x).box.length ≤ (m.send x).cap := by
  unfold Post.send
  split
  · simp only [List.length_append, List.length_cons, List.length_nil]; omega
  · exact h

theorem send_taken (m : Post T) (x : T) : (m.send x).taken = m.taken := by unfold Post.send; split <;> rfl

theorem handle_post (S : Units U α) (s : SlotSt U α) (h : s.post.box.length ≤ s.post.cap) :
    (s.handle S).post.box.length ≤ (s.handle S).post.cap ∧ (s.handle S).post.taken = s.post.taken ∧ (s.handle S).post.cap = s.post.cap := by
  have hh : ∀ (q : List (Upd U α)) (s : SlotSt U α), s.post.box.length ≤ s.post.cap → (q.foldl (SlotSt.receive S) s).post.box.length ≤
      (q.foldl (SlotSt.receive S) s).post.cap ∧ (q.foldl (SlotSt.receive S) s).post.taken = s.post.taken ∧ (q.foldl (SlotSt.receive S) s).post.cap = s.post.cap := by
    intro q
    induction q with
    | nil => intro s h; exact ⟨h, rfl, rfl⟩
    | cons d q ih =>
      intro s h
      have : (s.receive S d).post.box.length ≤ (s.receive S d).post.cap ∧ (s.receive S d).post.taken = s.post.taken ∧ (s.receive S d).post.cap = s.post.cap := by
        unfold SlotSt.receive
        split
        · exact ⟨h, rfl, rfl⟩
        · split
          · exact ⟨h, rfl, rfl⟩
          · exact ⟨send_box _ h _, send_taken _ _, send_cap _ _⟩
      obtain ⟨a, b, c⟩ := ih (s.receive S d) this.1
      exact ⟨a, b.trans this.2.1, c.trans this.2.2⟩
  exact hh s.back.queue s h

/-- Calls of the backend send, but do not take. -/
theorem back_post (S : Units U α) (P : Proc U α) (cap : Nat) (s : SlotSt U α) (h : s.post.box.length ≤ s.post.cap) (c : Slot.Call U α) (hc : ∀ d, c ≠ .set d) :
    (s.step S P cap c).post.box.length ≤ (s.step S P cap c).post.cap ∧ (s.step S P cap c).post.taken = s.post.taken ∧
    (s.step S P cap c).post.cap = s.post.cap := by
  have hh := handle_post S s h
  cases c with
  | set d => exact absurd rfl (hc d)
  | tick x =>
    simp only [SlotSt.step, SlotSt.tick']
    split
    · exact hh
    · split
      · exact ⟨send_box _ hh.1 _, (send_taken _ _).trans hh.2.1, (send_cap _ _).trans hh.2.2⟩
      · exact hh
  | block size x old tmp =>
    simp only [SlotSt.step, SlotSt.process']
    split
    · exact hh
    · split
      · exact ⟨send_box _ hh.1 _, (send_taken _ _).trans hh.2.1, (send_cap _ _).trans hh.2.2⟩
      · exact hh
  | reset =>
    simp only [SlotSt.step, SlotSt.reset]
    split <;> split
    · exact ⟨send_box _ (send_box _ h _) _, (send_taken _ _).trans (send_taken _ _), (send_cap _ _).trans (send_cap _ _)⟩
    · exact ⟨send_box _ h _, send_taken _ _, send_cap _ _⟩
    · exact ⟨send_box _ h _, send_taken _ _, send_cap _ _⟩
    · exact ⟨h, rfl, rfl⟩
  | setRate sr => exact ⟨h, rfl, rfl⟩

/-- A row of `set` calls takes what is in the returning channel. -/
theorem sets_post (S : Units U α) (P : Proc U α) (cap : Nat) (ds : List (Upd U α)) (s : SlotSt U α)
    (hf : ∀ d ∈ ds, S.ins d.unit = s.back.ins ∧ S.outs d.unit = s.back.outs) (hq : s.back.queue.length + ds.length ≤ cap) :
    let s' := s.run S P cap (ds.map .set)
    s'.post.box.length + s'.post.taken.length = s.post.box.length + s.post.taken.length ∧ s'.post.box.length ≤ s.post.box.length ∧
    s'.post.cap = s.post.cap := by
  induction ds generalizing s with
  | nil => exact ⟨rfl, le_rfl, rfl⟩
  | cons d ds ih =>
    have hd := hf d (List.mem_cons_self ..)
    simp only [List.length_cons] at hq
    have e : s.step S P cap (.set d) = ⟨{ s.back with queue := s.back.queue ++ [d] }, s.post.drain⟩ := by
      simp only [SlotSt.step, SlotSt.set, Back.set]
      rw [if_pos hd, if_pos hd, if_pos (show s.back.queue.length < cap by omega), if_pos (show s.back.queue.length < cap by omega)]
    have := ih (s.step S P cap (.set d)) (fun x hx => by rw [e]; exact hf x (List.mem_cons_of_mem _ hx)) (by rw [e]; simp; omega)
    simp only [SlotSt.run, List.map_cons, List.foldl_cons] at this ⊢
    rw [e] at this ⊢
    obtain ⟨a, b, c⟩ := this
    refine ⟨a.trans ?_, b.trans ?_, c⟩
    · simp [Post.drain]; omega
    · simp [Post.drain]

theorem set_ok (S : Units U α) (cap : Nat) (s : SlotSt U α) (d : Upd U α) (hd : S.ins d.unit = s.back.ins ∧ S.outs d.unit = s.back.outs)
    (hq : s.back.queue.length < cap) : s.set S cap d = ⟨{ s.back with queue := s.back.queue ++ [d] }, s.post.drain⟩ := by
  simp only [SlotSt.set, Back.set]
  rw [if_pos hd, if_pos hd, if_pos hq, if_pos hq]

/-- A tick while fading. -/
theorem tick_fading (S : Units U α) (s : SlotSt U α) (x : List α) (n : U) (hn : s.back.next = some n) :
    (s.tick' S x).back.queue = s.back.queue ∧ (s.tick' S x).back.ins = s.back.ins ∧ (s.tick' S x).back.outs = s.back.outs ∧
    (((s.tick' S x).post = s.post.send (S.utick s.back.current x).1 ∧ (s.tick' S x).back.next = s.back.latest ∧ (s.tick' S x).back.latest = none) ∨
      ((s.tick' S x).post = s.post ∧ (s.tick' S x).back.current = (S.utick s.back.current x).1 ∧ (s.tick' S x).back.next = some (S.utick n x).1 ∧
        (s.tick' S x).back.latest = s.back.latest)) := by
  obtain ⟨⟨ins, outs, sr, current, next, fade, time, phase, latest, lf, lt, queue⟩, post⟩ := s
  cases hn
  simp only [SlotSt.tick', Back.tick']
  split
  · exact ⟨rfl, rfl, rfl, .inl ⟨rfl, rfl, rfl⟩⟩
  · exact ⟨rfl, rfl, rfl, .inr ⟨rfl, rfl, rfl, rfl⟩⟩

/-- **C114, the code violates it** (full channel): if two units are fading or waiting, `cap` (1024) calls of `set` before the next block and a `reset` free at
least one unit in the thread of the backend. For all units, fades and capacities. -/
theorem C114_violation_slot (S : Units U α) (P : Proc U α) (cap : Nat) (hcap : 2 ≤ cap) (sr : α) (u0 : U) (d1 d2 : Upd U α) (ds : List (Upd U α)) (x y : List α)
    (h1 : S.ins d1.unit = S.ins u0 ∧ S.outs d1.unit = S.outs u0) (h2 : S.ins d2.unit = S.ins u0 ∧ S.outs d2.unit = S.outs u0)
    (hd : ∀ d ∈ ds, S.ins d.unit = S.ins u0 ∧ S.outs d.unit = S.outs u0) (hl : ds.length = cap) :
    ((SlotSt.new S cap sr u0).run S P cap ([.set d1, .set d2, .tick x] ++ ds.map .set ++ [.tick y, .reset])).post.lost ≠ [] := by
  intro hlost
  have hn := run_count S P cap ([.set d1, .set d2, .tick x] ++ ds.map .set ++ [.tick y, .reset]) (SlotSt.new S cap sr u0)
  have hh : ∀ ds : List (Upd U α), handed (ds.map (Slot.Call.set (α := α))) = ds.map (·.unit) := by
    intro ds
    induction ds with
    | nil => rfl
    | cons d ds ih => simp [handed, ih]
  simp only [handed_append, hh, handed, List.length_append, List.length_cons, List.length_nil, List.length_map, hl] at hn
  have hinit : (inSlot (SlotSt.new S cap sr u0).back).length + (SlotSt.new S cap sr u0).post.all.length = 1 := by
    simp [SlotSt.new, Back.new, inSlot, Post.new, Post.all]
  rw [hinit, run_append, run_append] at hn
  rw [run_append, run_append] at hlost
  -- after the first block
  have hA : ∀ A, A = (SlotSt.new S cap sr u0).run S P cap [.set d1, .set d2, .tick x] → A.post.taken = [] ∧ A.post.box.length ≤ 1 ∧ A.back.queue = [] ∧
      A.back.ins = S.ins u0 ∧ A.back.outs = S.outs u0 ∧ A.post.cap = cap := by
    rintro _ rfl
    have e : ((SlotSt.new S cap sr u0).set S cap d1).set S cap d2 = ⟨{ Back.new S sr u0 with queue := [d1, d2] }, .new cap⟩ := by
      rw [set_ok S cap (SlotSt.new S cap sr u0) d1 h1 (show 0 < cap by omega)]
      exact set_ok S cap ⟨{ Back.new S sr u0 with queue := [] ++ [d1] }, (Post.new (T := U) cap).drain⟩ d2 h2 (show 1 < cap by omega)
    have e0 : (SlotSt.new S cap sr u0).run S P cap [.set d1, .set d2, .tick x] = ((((SlotSt.new S cap sr u0).set S cap d1).set S cap d2).handle S).tick' S x := rfl
    rw [e0, e]
    have e2 : ((SlotSt.mk { Back.new S sr u0 with queue := [d1, d2] } (Post.new (T := U) cap)).handle S).post = .new cap := rfl
    obtain ⟨g1, g2, g3, g4⟩ := tick_fading S ((SlotSt.mk { Back.new S sr u0 with queue := [d1, d2] } (Post.new (T := U) cap)).handle S) x d1.unit rfl
    rcases g4 with ⟨g4, _⟩ | ⟨g4, _⟩
    · refine ⟨?_, ?_, g1, g2, g3, ?_⟩
      · rw [g4, send_taken]; rfl
      · rw [g4, e2]
        unfold Post.send
        split <;> simp [Post.new]
      · rw [g4, send_cap]; rfl
    · refine ⟨?_, ?_, g1, g2, g3, ?_⟩ <;> rw [g4, e2] <;> simp [Post.new]
  generalize hAe : (SlotSt.new S cap sr u0).run S P cap [.set d1, .set d2, .tick x] = A at hn hlost
  obtain ⟨t1, t2, t3, t4, t5, t6⟩ := hA A hAe.symm
  obtain ⟨b1, b2, b3⟩ := sets_post S P cap ds A (fun d h => by rw [t4, t5]; exact hd d h) (by rw [t3, hl]; simp)
  generalize A.run S P cap (ds.map .set) = B at hn hlost b1 b2 b3
  obtain ⟨c1, c2, c3⟩ := back_post S P cap B (by omega) (.tick y) (fun _ h => by cases h)
  obtain ⟨e1, e2, e3⟩ := back_post S P cap (B.step S P cap (.tick y)) c1 .reset (fun _ h => by cases h)
  have hin : (inSlot (B.run S P cap [.tick y, .reset]).back).length = 1 := by
    have hq : (B.step S P cap (.tick y)).back.queue = [] := by
      simp only [SlotSt.step, SlotSt.tick', Back.tick']
      split
      · rfl
      · split
        · simp only [Back.nextPhase]; rfl
        · rfl
    show (inSlot ((B.step S P cap (.tick y)).back.reset S)).length = 1
    generalize (B.step S P cap (.tick y)).back = b at hq
    unfold Back.reset
    split
    · simp [inSlot, hq]
    · rename_i hl'
      split <;> rename_i hn' <;> simp [inSlot, hq, hl', hn']
  have hz : (B.run S P cap [.tick y, .reset]) = (B.step S P cap (.tick y)).step S P cap .reset := rfl
  rw [hin, hz] at hn
  rw [hz] at hlost
  simp only [Post.all, List.length_append, hlost, List.length_nil, e2, c2] at hn
  have : A.post.taken.length = 0 := by rw [t1]; rfl
  omega

/-- **C114, the code violates it** (frontend gone): if the frontend is dropped after a `set`, as when it goes out of scope, the replaced unit is freed in the
thread of the backend, at the latest when the backend is reset. -/
theorem C114_violation_slot_dropped {S : Units U α} {P : Proc U α} {lab : U → ℕ} (hL : Lab S P lab) (cap : Nat) (hcap : 1 ≤ cap) (sr : α) (u0 : U) (d : Upd U α)
    (x : List α) (h : S.ins d.unit = S.ins u0 ∧ S.outs d.unit = S.outs u0) :
    (((SlotSt.new S cap sr u0).run S P cap [.set d]).close.run S P cap [.tick x, .reset]).post.lost.map lab = [lab u0] := by
  have e : ((SlotSt.new S cap sr u0).run S P cap [.set d]).close = ⟨{ Back.new S sr u0 with queue := [d] }, ⟨cap, false, [], [], []⟩⟩ := by
    show ((SlotSt.new S cap sr u0).set S cap d).close = _
    rw [set_ok S cap (SlotSt.new S cap sr u0) d h (show 0 < cap by omega)]
    rfl
  rw [e]
  generalize hs : (SlotSt.mk { Back.new S sr u0 with queue := [d] } (⟨cap, false, [], [], []⟩ : Post U)).handle S = s
  have s1 : s.back.next = some d.unit := by rw [← hs]; rfl
  have s2 : s.back.latest = none := by rw [← hs]; rfl
  have s3 : s.post = ⟨cap, false, [], [], []⟩ := by rw [← hs]; rfl
  have s4 : lab s.back.current = lab u0 := by rw [← hs]; exact hL.setSR sr u0
  show (((SlotSt.mk { Back.new S sr u0 with queue := [d] } (⟨cap, false, [], [], []⟩ : Post U)).handle S |>.tick' S x).reset S).post.lost.map lab = _
  rw [hs]
  obtain ⟨_, _, _, g4⟩ := tick_fading S s x d.unit s1
  rcases g4 with ⟨g4, g5, g6⟩ | ⟨g4, g5, g6, g7⟩
  · simp only [SlotSt.reset, g4, g5, g6, s2, s3, Post.send]
    simp [hL.tick, s4]
  · simp only [SlotSt.reset, g4, g5, g6, g7, s2, s3, Post.send]
    simp [hL.tick, s4]

/-- **C114** (slots, the frontend frees): in whatever state, every `set` with a unit of the right arity frees all units that have come back, in the thread
of the frontend: none is left in the channel. -/
theorem C114_slot_freed (S : Units U α) (P : Proc U α) (cap : Nat) (s : SlotSt U α) (d : Upd U α) (h : S.ins d.unit = s.back.ins ∧ S.outs d.unit = s.back.outs) :
    let t := s.step S P cap (.set d)
    t.post.box = [] ∧ t.post.lost = s.post.lost ∧ ∀ u ∈ s.post.taken ++ s.post.box, u ∈ t.post.taken := by
  intro t
  have ht : t.post = if s.back.queue.length < cap then s.post.drain else s.post.drain.free d.unit := if_pos h
  rw [ht]
  split
  · exact ⟨rfl, rfl, fun u hu => hu⟩
  · exact ⟨rfl, rfl, fun u hu => List.mem_append_left _ hu⟩

end Fundsp.Mail
