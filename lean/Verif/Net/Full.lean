import Verif.Net.BackendFade
import Verif.Net.RateProps

/-!
# C123: commits over whole executions, with channels of limited size

C11 is about one commit that the backend finds in its channel. Here frontend and backend run in any order for any time; a commit or setting that finds
the channel full is dropped, as `try_send` does (`/repo/src/net.rs:1162`, `:1359`; the channel has room for 1024 messages, `net.rs:1097`).
-/
namespace Fundsp.Net
variable {U α : Type}

/-! ## Model -/

/-- `sender.try_send(message)` on a channel with room for `cap` messages: a message that finds no room is dropped (`net.rs:1162`, `:1359`). -/
def trySend (cap : Nat) (chan : List (Msg U α)) (m : Msg U α) : List (Msg U α) := if chan.length < cap then chan ++ [m] else chan

/-- The backend reads its messages and does something with its net (`realnet.rs:119-137`): plays a sample or a block, after reading; or resets or sets
the sample rate, before reading. -/
inductive Works [DecidableEq α] (E : Env U α) (P : Proc U α) (back : Net U α) (q : List (Msg U α)) : Net U α → Prop
  | tick (x : List α) : Works E P back q (tick E.S E.seed E.hash0 (handle E.S back q) x).1
  | process (size : Nat) (x old : CBuf α) (tmp : Nat → CBuf α) : Works E P back q (process E.S P E.seed E.hash0 (handle E.S back q) size x old tmp).1
  | reset : Works E P back q (handle E.S (reset E.S E.seed E.hash0 back) q)
  | setSampleRate (r : α) : Works E P back q (handle E.S (setSampleRate E.S E.seed E.hash0 back r) q)

/-! ## Specification -/

/-- What an observer of the frontend notes down. -/
structure Notes (U α : Type) where
  /-- the frontend when the last commit that found room was made -/
  last : Net U α
  /-- the frontend right after that commit -/
  sent : Net U α
  /-- nodes whose unit has been changed since -/
  fresh : NodeId → Prop
  /-- nodes whose unit was changed before that commit and after the one that the backend has taken over -/
  waiting : NodeId → Prop
  /-- the backend has not run since that commit -/
  pending : Prop

/-- Executions: any calls on the frontend, commits, settings and work of the backend, in any order. -/
inductive Linked [DecidableEq α] (E : Env U α) (P : Proc U α) (cap : Nat) : NodeId → Sys U α → Notes U α → Prop
  | start {n f front back} (hw : WF E.S n f) (hst : Stamped f) (hb : backend E f = some (front, back)) :
      Linked E P cap n ⟨front, [], back⟩ ⟨f, front, fun _ => False, fun _ => False, False⟩
  | later {n m s k} (h : Linked E P cap n s k) (hm : n ≤ m) : Linked E P cap m s k
  | edit {n m s k f'} (h : Linked E P cap n s k) (e : Edit U α) (hr : InRange s.front e) (he : e.apply E n s.front = some (f', m)) :
      Linked E P cap m { s with front := f' } { k with fresh := fun id => k.fresh id ∨ Touches s.front e id }
  | commit {n s k f' M} (h : Linked E P cap n s k) (hroom : s.chan.length < cap) (hc : commit E s.front = some (f', M)) :
      Linked E P cap n { s with front := f', chan := trySend cap s.chan (.net M) }
        ⟨s.front, f', fun _ => False, fun id => k.waiting id ∨ k.fresh id, True⟩
  | commitFull {n s k f' M} (h : Linked E P cap n s k) (hfull : ¬ s.chan.length < cap) (hc : commit E s.front = some (f', M)) :
      Linked E P cap n { s with front := f', chan := trySend cap s.chan (.net M) } k
  | setting {n s k} (h : Linked E P cap n s k) (id : NodeId) (g : U → U) :
      Linked E P cap n { s with chan := trySend cap s.chan (.setting id g) } k
  | work {n s k b} (h : Linked E P cap n s k) (hb : Works E P s.back s.chan b) :
      Linked E P cap n { s with chan := [], back := b } { k with waiting := fun _ => False, pending := False }

/-! ## Lemmas -/

theorem Since.trans [DecidableEq α] {E : Env U α} {n0 n1 n : NodeId} {base g f : Net U α} {T T' : NodeId → Prop} (h : Since E n0 base n1 g T)
    (h' : Since E n1 g n f T') : Since E n0 base n f (fun id => T id ∨ T' id) := by
  induction h' with
  | start =>
    have : (fun id => T id ∨ False) = T := by funext id; simp
    rw [this]; exact h
  | later _ hm ih => exact ih.later hm
  | edit _ e hr he ih =>
    have := ih.edit e hr he
    simpa only [or_assoc] using this
  | commit _ hc ih => exact ih.commit hc

theorem since_stamped [DecidableEq α] {E : Env U α} (hS : E.S.Lawful) {n0 n : NodeId} {base f : Net U α} {T : NodeId → Prop} (hw : WF E.S n0 base)
    (hst : Stamped base) (h : Since E n0 base n f T) : WF E.S n f ∧ Stamped f := by
  induction h with
  | start => exact ⟨hw, hst⟩
  | later _ hm ih => exact ⟨ih.1.mono hm, ih.2⟩
  | edit _ e hr he ih => exact ⟨(wf_edit hS ih.1 e hr he).1, stamped_edit ih.1 ih.2 e he⟩
  | commit _ hc ih =>
    exact ⟨(sent_struct hS ih.1 (.inr hc)).1, fun v hv => Nat.le_of_lt (stamped_sent hS ih.1 ih.2 (.inr hc) v hv)⟩

/-- What relates frontend, channel and backend. -/
structure LinkInv [DecidableEq α] (E : Env U α) (n : NodeId) (s : Sys U α) (k : Notes U α) (n0 n1 : NodeId) (f0 base M0 M : Net U α) : Prop where
  wf0 : WF E.S n0 f0
  st0 : Stamped f0
  sent0 : Sent E f0 base M0
  back : SameNet M0 s.back
  wf1 : WF E.S n1 k.last
  st1 : Stamped k.last
  sent1 : Sent E k.last k.sent M
  front : Since E n1 k.sent n s.front k.fresh
  chan : (¬ k.pending ∧ (∀ m ∈ s.chan, ∃ id g, m = .setting id g) ∧ (∀ id, ¬ k.waiting id) ∧ f0 = k.last ∧ base = k.sent ∧ M0 = M ∧ n0 = n1) ∨
    (k.pending ∧ LastNet s.chan M ∧ Since E n0 base n1 k.last k.waiting ∧ commit E k.last = some (k.sent, M))

theorem works_same [DecidableEq α] {E : Env U α} (hS : E.S.Lawful) {P : Proc U α} {back b M N : Net U α} {q : List (Msg U α)} (hb : SameNet M back)
    (h : Works E P back q b) (hq : ∀ x, SameNet M x → SameNet N (handle E.S x q)) : SameNet N b := by
  cases h with
  | tick x => exact (C11_stays hS P (hq back hb)).1 x
  | process size x old tmp => exact (C11_stays hS P (hq back hb)).2.1 size x old tmp
  | reset => exact hq _ (C11_stays (E := E) hS P hb).2.2.1
  | setSampleRate r => exact hq _ ((C11_stays (E := E) hS P hb).2.2.2.1 r)

theorem LastNet.snoc {q : List (Msg U α)} {M : Net U α} (h : LastNet q M) (id : NodeId) (g : U → U) : LastNet (q ++ [.setting id g]) M := by
  obtain ⟨a, b, rfl, hb⟩ := h
  refine ⟨a, b ++ [.setting id g], by simp, fun m hm => ?_⟩
  rcases List.mem_append.1 hm with h | h
  · exact hb m h
  · simp only [List.mem_singleton] at h; exact ⟨id, g, h⟩

theorem linked_inv [DecidableEq α] {E : Env U α} (hS : E.S.Lawful) {P : Proc U α} {cap : Nat} {n : NodeId} {s : Sys U α} {k : Notes U α}
    (h : Linked E P cap n s k) : ∃ n0 n1 f0 base M0 M, LinkInv E n s k n0 n1 f0 base M0 M := by
  induction h with
  | @start n f front back hw hst hb =>
    exact ⟨n, n, f, front, back, back, hw, hst, .inl hb, .refl _, hw, hst, .inl hb, .start, .inl ⟨id, by simp, fun _ => id, rfl, rfl, rfl, rfl⟩⟩
  | later _ hm ih =>
    obtain ⟨n0, n1, f0, base, M0, M, i⟩ := ih
    exact ⟨n0, n1, f0, base, M0, M, i.wf0, i.st0, i.sent0, i.back, i.wf1, i.st1, i.sent1, i.front.later hm, i.chan⟩
  | edit _ e hr he ih =>
    obtain ⟨n0, n1, f0, base, M0, M, i⟩ := ih
    exact ⟨n0, n1, f0, base, M0, M, i.wf0, i.st0, i.sent0, i.back, i.wf1, i.st1, i.sent1, i.front.edit e hr he, i.chan⟩
  | commitFull _ hfull hc ih =>
    obtain ⟨n0, n1, f0, base, M0, M, i⟩ := ih
    refine ⟨n0, n1, f0, base, M0, M, i.wf0, i.st0, i.sent0, i.back, i.wf1, i.st1, i.sent1, i.front.commit hc, ?_⟩
    simp only [trySend, if_neg hfull]
    exact i.chan
  | @commit n s k f' N _ hroom hc ih =>
    obtain ⟨n0, n1, f0, base, M0, M, i⟩ := ih
    have hsw : WF E.S n1 k.sent := (sent_struct hS i.wf1 i.sent1).1
    have hss : Stamped k.sent := fun v hv => Nat.le_of_lt (stamped_sent hS i.wf1 i.st1 i.sent1 v hv)
    obtain ⟨hwf, hstf⟩ := since_stamped hS hsw hss i.front
    refine ⟨n0, n, f0, base, M0, N, i.wf0, i.st0, i.sent0, i.back, hwf, hstf, .inr hc, .start, .inr ⟨trivial, ⟨s.chan, [], ?_, by simp⟩, ?_, hc⟩⟩
    · simp only [trySend, if_pos hroom]
    · rcases i.chan with ⟨_, _, c3, c4, c5, _, c7⟩ | ⟨_, _, c3, c4⟩
      · have hf := i.front
        have hwn : k.waiting = fun _ => False := funext fun id => eq_false (c3 id)
        simp only [hwn, false_or]
        rw [c5, c7]
        exact hf
      · exact (c3.commit c4).trans i.front
  | setting _ id g ih =>
    obtain ⟨n0, n1, f0, base, M0, M, i⟩ := ih
    refine ⟨n0, n1, f0, base, M0, M, i.wf0, i.st0, i.sent0, i.back, i.wf1, i.st1, i.sent1, i.front, ?_⟩
    simp only [trySend]
    split
    · rcases i.chan with ⟨c1, c2, c3⟩ | ⟨c1, c2, c3⟩
      · refine .inl ⟨c1, fun m hm => ?_, c3⟩
        rcases List.mem_append.1 hm with h | h
        · exact c2 m h
        · simp only [List.mem_singleton] at h; exact ⟨id, g, h⟩
      · exact .inr ⟨c1, c2.snoc id g, c3⟩
    · exact i.chan
  | @work n s k b _ hb ih =>
    obtain ⟨n0, n1, f0, base, M0, M, i⟩ := ih
    obtain ⟨_, m2, m3, _⟩ := sent_struct hS i.wf1 i.sent1
    obtain ⟨_, z2, z3, _⟩ := sent_struct hS i.wf0 i.sent0
    refine ⟨n1, n1, k.last, k.sent, M, M, i.wf1, i.st1, i.sent1, works_same hS i.back hb ?_, i.wf1, i.st1, i.sent1, i.front,
      .inl ⟨fun h => h, by simp, fun _ h => h, rfl, rfl, rfl, rfl⟩⟩
    intro x hx
    rcases i.chan with ⟨_, c2, _, _, _, c6, _⟩ | ⟨_, c2, _⟩
    · rw [← c6]
      exact (C11_stays (E := E) hS P hx).2.2.2.2 s.chan (z2.same hx.toSameWiring) c2
    · exact (handle_spec (S := E.S) (z2.same hx.toSameWiring) m2 m3 c2).1

/-! ## C123 -/

/-- **C123** (graph): at every moment of every execution, once the backend reads its messages it has the graph of the frontend at the last commit that
found room, and keeps it in whatever it does then. -/
theorem C123_graph_partial [DecidableEq α] {E : Env U α} (hS : E.S.Lawful) {P : Proc U α} {cap : Nat} {n : NodeId} {s : Sys U α} {k : Notes U α}
    (h : Linked E P cap n s k) : SameGraph k.last (handle E.S s.back s.chan) ∧ ∀ b, Works E P s.back s.chan b → SameGraph k.last b := by
  obtain ⟨n0, n1, f0, base, M0, M, i⟩ := linked_inv hS h
  obtain ⟨_, m2, m3, m4, m5, _⟩ := sent_struct hS i.wf1 i.sent1
  obtain ⟨_, z2, z3, _⟩ := sent_struct hS i.wf0 i.sent0
  have key : ∀ x, SameNet M0 x → SameNet M (handle E.S x s.chan) := by
    intro x hx
    rcases i.chan with ⟨_, c2, _, _, _, c6, _⟩ | ⟨_, c2, _⟩
    · rw [← c6]
      exact (C11_stays (E := E) hS P hx).2.2.2.2 s.chan (z2.same hx.toSameWiring) c2
    · exact (handle_spec (S := E.S) (z2.same hx.toSameWiring) m2 m3 c2).1
  exact ⟨((m5.trans m4).trans (key _ i.back).toSameWiring).graph, fun b hb =>
    ((m5.trans m4).trans (works_same hS i.back hb key).toSameWiring).graph⟩

/-- **C123** (kept nodes): a node that the backend has, that is in the last commit that found room and whose unit was not changed since the commit that
the backend runs, goes on as it is, with the settings and crossfades that are in the channel. -/
theorem C123_kept_partial [DecidableEq α] {E : Env U α} (hS : E.S.Lawful) {P : Proc U α} {cap : Nat} {n : NodeId} {s : Sys U α} {k : Notes U α}
    (h : Linked E P cap n s k) (hp : k.pending) {id : NodeId} {e : Eng U α} (he : engOf s.back id = some e) (hid : contains k.last id = true)
    (hT : ¬ k.waiting id) :
    engOf (handle E.S s.back s.chan) id = some { e.enqueueAll E.S (editsIn id s.chan) with unit := settingsIn id s.chan e.unit } := by
  obtain ⟨n0, n1, f0, base, M0, M, i⟩ := linked_inv hS h
  rcases i.chan with ⟨c1, _⟩ | ⟨_, c2, c3, c4⟩
  · exact absurd hp c1
  · exact C11_kept hS i.wf0 i.st0 i.sent0 i.back c3 c4 c2 he hid hT

/-- **C123** (changed and new nodes): every other node of that commit runs the unit it had in the frontend then. -/
theorem C123_new_partial [DecidableEq α] {E : Env U α} (hS : E.S.Lawful) {P : Proc U α} {cap : Nat} {n : NodeId} {s : Sys U α} {k : Notes U α}
    (h : Linked E P cap n s k) (hp : k.pending) {id : NodeId} (hid : contains k.last id = true) (hT : k.waiting id ∨ contains s.back id = false) :
    unitOf (handle E.S s.back s.chan) id = unitOf k.sent id := by
  obtain ⟨n0, n1, f0, base, M0, M, i⟩ := linked_inv hS h
  rcases i.chan with ⟨c1, _⟩ | ⟨_, c2, c3, c4⟩
  · exact absurd hp c1
  · exact (C11_new hS i.wf0 i.st0 i.sent0 i.back c3 c4 c2 hid hT).2

/-- **C123** (no commit waiting): the backend keeps its units; only the settings in the channel reach them. -/
theorem C123_idle [DecidableEq α] {E : Env U α} (hS : E.S.Lawful) {P : Proc U α} {cap : Nat} {n : NodeId} {s : Sys U α} {k : Notes U α}
    (h : Linked E P cap n s k) (hp : ¬ k.pending) (id : NodeId) :
    engOf (handle E.S s.back s.chan) id = (engOf s.back id).map (fun e => { e with unit := settingsIn id s.chan e.unit }) := by
  obtain ⟨n0, n1, f0, base, M0, M, i⟩ := linked_inv hS h
  obtain ⟨_, z2, _⟩ := sent_struct hS i.wf0 i.sent0
  have hm : MapOK s.back := z2.same i.back.toSameWiring
  rcases i.chan with ⟨_, c2, _⟩ | ⟨c1, _⟩
  · have hno : ∀ (q : List (Msg U α)) (st : Net U α × Option (Net U α)), (∀ m ∈ q, ∃ id g, m = .setting id g) → st.2 = none → (q.foldl (recv E.S) st).2 = none := by
      intro q
      induction q with
      | nil => intro st _ h; exact h
      | cons m q ih =>
        intro st hq h
        obtain ⟨j, g, rfl⟩ := hq m (by simp)
        exact ih _ (fun m hm => hq m (List.mem_cons_of_mem _ hm)) h
    have hed : ∀ q : List (Msg U α), (∀ m ∈ q, ∃ id g, m = .setting id g) → editsIn id q = [] := by
      intro q
      induction q with
      | nil => intro _; rfl
      | cons m q ih =>
        intro hq
        obtain ⟨j, g, rfl⟩ := hq m (by simp)
        exact ih (fun m hm => hq m (List.mem_cons_of_mem _ hm))
    have h0 := hno s.chan (s.back, none) c2 rfl
    have := (recv_spec E.S id s.chan (s.back, none) hm).2
    rw [hed _ c2] at this
    simp only [handle, h0]
    simp only [full, h0, Option.map_none, Option.getD_none, Eng.enqueueAll, List.foldl_nil, Option.map_map] at this
    have hfun : ∀ o : Option (Eng U α), o.map (fun e => e) = o := by intro o; cases o <;> rfl
    rw [hfun] at this
    rw [this]
    cases engOf s.back id <;> rfl
  · exact absurd c1 hp

/-- **C123** (room): after the backend has run there is room for `cap` messages. -/
theorem C123_room [DecidableEq α] {E : Env U α} {P : Proc U α} {cap : Nat} {n : NodeId} {s : Sys U α} {k : Notes U α}
    (h : Linked E P cap n s k) : s.chan.length ≤ cap := by
  have push : ∀ (c : List (Msg U α)) m, c.length ≤ cap → (trySend cap c m).length ≤ cap := by
    intro c m hc
    simp only [trySend]; split
    · simp only [List.length_append, List.length_singleton]; omega
    · exact hc
  induction h with
  | start | work => exact Nat.zero_le _
  | later _ _ ih | edit _ _ _ _ ih => exact ih
  | commit _ _ _ ih | commitFull _ _ _ ih => exact push _ _ ih
  | setting _ _ _ ih => exact push _ _ ih

/-! ## Violations -/

theorem linked_ex (P : Proc DU Int) (cap : Nat) :
    Linked demoEnv P cap 1 ⟨exBase, [], exM0⟩ ⟨exF, exBase, fun _ => False, fun _ => False, False⟩ := by
  have r0 : Reach demoEnv InRange 0 (new 1 0 1 : Net DU Int) := .new 0 _ 0 1
  have r1 := r0.edit (.push gen1) trivial rfl
  have r2 : Reach demoEnv InRange 1 exF := r1.edit (.pipeOutput 0) trivial rfl
  have s0 : Stamped (new 1 0 1 : Net DU Int) := by intro v hv; cases hv
  have s1 := stamped_edit (r0.wf demo_lawful) s0 (.push gen1) rfl
  exact .start (r2.wf demo_lawful) (stamped_edit (r1.wf demo_lawful) s1 (.pipeOutput 0) rfl) rfl

/-- The channel fills up with settings. -/
theorem linked_fill (P : Proc DU Int) (cap : Nat) : ∀ j, j ≤ cap →
    Linked demoEnv P cap 1 ⟨exBase, List.replicate j (.setting 0 (fun u => u)), exM0⟩ ⟨exF, exBase, fun _ => False, fun _ => False, False⟩
  | 0, _ => linked_ex P cap
  | j + 1, hj => by
    have := (linked_fill P cap j (by omega)).setting 0 (fun u => u)
    simp only [trySend, List.length_replicate, show j < cap by omega, if_true] at this
    rw [List.replicate_succ']
    exact this

/-- **C123** is violated: a commit that finds the channel full, here after as many settings as the channel has room for, is lost without notice. The
frontend has two nodes, the backend stays with one, whatever it does, until a later commit finds room. -/
theorem C123_violation_full (P : Proc DU Int) (cap : Nat) : ∃ n s k f' M, Linked demoEnv P cap n s k ∧ commit demoEnv s.front = some (f', M) ∧ size f' = 2 ∧
    Linked demoEnv P cap n { s with front := f', chan := trySend cap s.chan (.net M) } k ∧
    ∀ b, Works demoEnv P s.back (trySend cap s.chan (.net M)) b → size b = 1 := by
  have h := (linked_fill P cap cap (Nat.le_refl _)).edit (.push fil1) trivial rfl
  have h2 := h.commitFull (by simp) rfl
  exact ⟨_, _, _, _, _, h, rfl, rfl, h2, fun b hb => ((C123_graph_partial demo_lawful h2).2 b hb).count⟩

/-- **C123** is violated: a crossfade in a commit that finds the channel full is never heard. The frontend forgets it with that commit: the next
commit has no edits, and the node has its old unit in the frontend, too. -/
theorem C123_violation_crossfade (P : Proc DU Int) (cap : Nat) : ∃ n s k f' M f'' M', Linked demoEnv P cap n s k ∧
    (editsOf 0 s.front.editQueue).map NodeEdit.unit = [some demoFade] ∧ commit demoEnv s.front = some (f', M) ∧ trySend cap s.chan (.net M) = s.chan ∧
    commit demoEnv f' = some (f'', M') ∧ editsIn 0 [.net M'] = [] ∧ unitOf f'' 0 = some gen1 := by
  have h := (linked_fill P cap cap (Nat.le_refl _)).edit (.crossfade 0 .power 1 demoFade) trivial rfl
  exact ⟨_, _, _, _, _, _, _, h, rfl, rfl, by simp [trySend], rfl, rfl, rfl⟩

/-- Non-vacuity: the backend plays two samples; the frontend adds a node, sends a setting and commits; the generator goes on and the new node is there. -/
example : ∃ n s k, Linked demoEnv (fun u _ _ old => (u, old)) 1024 n s k ∧ k.pending ∧ ¬ k.waiting 0 ∧ contains k.last 1 = true ∧ contains s.back 1 = false ∧
    unitOf s.back 0 = some { gen1 with k := 3 } ∧ unitOf (handle demo s.back s.chan) 0 = some { gen1 with k := 10 } ∧
    unitOf (handle demo s.back s.chan) 1 = some fil1 := by
  have h1 := (linked_ex (fun u _ _ old => (u, old)) 1024).work (.tick [])
  have h2 := h1.work (.tick [])
  have h3 := h2.edit (.push fil1) trivial rfl
  have h4 := h3.setting 0 (fun u => { u with k := 10 })
  have h5 := h4.commit (by decide) rfl
  refine ⟨_, _, _, h5, trivial, ?_, rfl, rfl, rfl, rfl, rfl⟩
  rintro (c | c | c) <;> exact c

end Fundsp.Net
