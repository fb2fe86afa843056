import Verif.Net.BackendProps

/-!
# C12 and C69: crossfades and settings on their way to the backend
-/
namespace Fundsp.Net
variable {U α : Type}

/-- An edit without the position of its node. -/
def NodeEdit.strip (d : NodeEdit U α) : Option U × NodeId × Fade × α := (d.unit, d.id, d.fade, d.time)

/-- **C12** (queueing): with a backend, `crossfade` puts the unit, set to the sample rate of the net, last in the queue of the frontend. -/
theorem C12_queued {S : Units U α} {f f1 : Net U α} {id : NodeId} {fade : Fade} {t : α} {u : U} (hb : f.hasBackend = true)
    (h : crossfade S f id fade t u = some f1) :
    ∃ d, f1.editQueue = f.editQueue ++ [d] ∧ d.strip = (some (S.setSR f.sampleRate u), id, fade, t) := by
  simp only [crossfade, Option.bind_eq_bind, Option.bind_eq_some_iff] at h
  obtain ⟨i, _, v, _, h⟩ := h
  split at h
  · simp only [hb, if_true] at h
    cases h
    exact ⟨_, rfl, rfl⟩
  · cases h

/-- **C12** (queueing): no other call removes an edit from the queue of the frontend or changes the order. -/
theorem C12_waits [DecidableEq α] {E : Env U α} {n m : NodeId} {f f' : Net U α} (hw : WF E.S n f) (e : Edit U α)
    (he : e.apply E n f = some (f', m)) : ∃ l, f'.editQueue = f.editQueue ++ l := (stamp_edit hw.valid e he).queue

/-- **C12** (commit): a commit carries the edits of every node that still exists, in order, and empties the queue. -/
theorem C12_carried {E : Env U α} (hS : E.S.Lawful) {f f' M : Net U α} (h : commit E f = some (f', M)) {id : NodeId}
    (hid : contains f id = true) :
    (editsOf id M.editQueue).map NodeEdit.strip = (editsOf id f.editQueue).map NodeEdit.strip ∧ f'.editQueue = [] := by
  simp only [commit] at h
  split at h
  · cases h
  split at h
  · cases h
  split at h
  · cases h
  have hsw := ready_sameWiring hS E.seed E.hash0 f
  have hq : (ready E.S E.seed E.hash0 f).editQueue = f.editQueue := by
    unfold ready; split <;> rfl
  simp only [Option.some.injEq, Prod.mk.injEq] at h
  obtain ⟨rfl, rfl⟩ := h
  refine ⟨?_, rfl⟩
  simp only [hsw.index, hq]
  obtain ⟨i, hi⟩ := Option.isSome_iff_exists.1 hid
  induction f.editQueue with
  | nil => rfl
  | cons d l ih =>
    simp only [editsOf] at ih ⊢
    rw [List.filterMap_cons, List.filter_cons]
    by_cases hd : d.id = id
    · simp only [hd, hi, Option.map_some, List.filter_cons, beq_self_eq_true, if_true, List.map_cons, ih]
      simp [NodeEdit.strip, hd]
    · cases hg : f.nodeIndex.get d.id with
      | none => simp only [Option.map_none, hd, beq_iff_eq, if_false]; exact ih
      | some k => simp only [Option.map_some, List.filter_cons, hd, beq_iff_eq, if_false]; exact ih

/-- **C12** (partial): if the backend already has the node and its unit was not touched by `replace`, `reset` or a change of sample rate since the net
of the backend was sent, then whatever the interleaving — any number of commits in the queue — the last crossfade of the node in the queue ends up
as the only unit running there, once its crossfade and the one before it had time to complete.
Missing: nodes that are not yet in the backend (`C12_violation_lost`), and nodes touched later (`C12_violation_undone`). -/
theorem C12_eventually_partial [DecidableEq ℝ] {E : Env U ℝ} (hS : E.S.Lawful) (hA : E.S.toArith = realArith) {P : Proc U ℝ} {lab : U → ℕ}
    (hL : Label E.S P lab) (outs : Nat) {n0 n : NodeId} {f0 base M0 back f f' M : Net U ℝ} {T : NodeId → Prop}
    (hw : WF E.S n0 f0) (hst : Stamped f0) (hs0 : Sent E f0 base M0) (hb : SameNet M0 back) (hf : Since E n0 base n f T)
    (hc : commit E f = some (f', M)) {q : List (Msg U ℝ)} (hq : LastNet q M) {id : NodeId} (hid : contains f id = true) (hT : ¬ T id)
    (e0 : Eng U ℝ) (h0 : e0.Fresh) (vs : List (NodeEv U)) (he : engOf back id = some (after E.S P back.sampleRate outs e0 vs))
    {l : List (NodeEdit U ℝ)} {d : NodeEdit U ℝ} {u : U} (hl : editsIn id q = l ++ [d]) (hd : d.unit = some u) (hset : ∀ u, settingsIn id q u = u)
    (hv : ∀ v ∈ vs ++ (l ++ [d]).map NodeEv.edit, EvOK back.sampleRate v) (Tm : ℝ)
    (hTm : ∀ d', NodeEv.edit d' ∈ vs ++ (l ++ [d]).map NodeEv.edit → d'.time * back.sampleRate ≤ Tm)
    (q1 q2 : List (NodeEv U)) (hq1 : ∀ v ∈ q1, Quiet v) (hq2 : ∀ v ∈ q2, Quiet v)
    (hs1 : Tm ≤ ((q1.map samples).sum : ℕ)) (hs2 : Tm ≤ ((q2.map samples).sum : ℕ)) :
    ∃ e, engOf (handle E.S back q) id = some e ∧ (after E.S P back.sampleRate outs e (q1 ++ q2)).Fresh ∧
      lab (after E.S P back.sampleRate outs e (q1 ++ q2)).unit = lab u := by
  refine ⟨_, C11_kept hS hw hst hs0 hb hf hc hq he hid hT, ?_⟩
  have hed : ∀ (l : List (NodeEdit U ℝ)) (e : Eng U ℝ), e.enqueueAll E.S l = after E.S P back.sampleRate outs e (l.map NodeEv.edit) := by
    intro l
    induction l with
    | nil => intro e; rfl
    | cons d l ih => intro e; exact ih (e.enqueue E.S d)
  have hun : ∀ e : Eng U ℝ, ({ e.enqueueAll E.S (editsIn id q) with unit := settingsIn id q e.unit } : Eng U ℝ) = e.enqueueAll E.S (editsIn id q) := by
    intro e
    rw [hset, ← enqueueAll_unit E.S (editsIn id q) e]
  rw [hun, hl, hed, ← after_append, ← after_append]
  have := C13_last_edit_wins hA hL back.sampleRate outs e0 h0 Tm (vs ++ l.map NodeEv.edit) d u hd
    (by intro v hm; exact hv v (by simpa using hm)) (by intro d' hm; exact hTm d' (by simpa using hm)) q1 q2 hq1 hq2 hs1 hs2
  simpa only [List.map_append, List.map_cons, List.map_nil, List.append_assoc] using this

/-- **C12** (partial): a node that is new to the backend gets the crossfades of the last commit in the queue (`fade_in`). -/
theorem C12_fade_in_partial [DecidableEq α] {E : Env U α} (hS : E.S.Lawful) {n0 n : NodeId} {f0 base M0 back f f' M : Net U α} {T : NodeId → Prop}
    (hw : WF E.S n0 f0) (hst : Stamped f0) (hs0 : Sent E f0 base M0) (hb : SameNet M0 back) (hf : Since E n0 base n f T)
    (hc : commit E f = some (f', M)) {q : List (Msg U α)} (hq : LastNet q M) {id : NodeId} (hid : contains f id = true)
    (hnew : contains back id = false) : ∃ e l, engOf f' id = some e ∧ engOf (handle E.S back q) id = some (e.enqueueAll E.S l) ∧
      l.map NodeEdit.strip = (editsOf id f.editQueue).map NodeEdit.strip := by
  obtain ⟨⟨e, h1, h2⟩, _⟩ := C11_new hS hw hst hs0 hb hf hc hq hid (Or.inr hnew)
  exact ⟨e, _, h1, h2, (C12_carried hS hc hid).1⟩

/-- **C69** (partial): a setting for a node that the backend already has, and that was not touched meanwhile, is applied to the unit that is running
there, in the order of the calls, whatever commits it is mixed with. Missing: nodes that the backend gets with the same queue, see
`C69_violation_lost`. -/
theorem C69_settings_partial [DecidableEq α] {E : Env U α} (hS : E.S.Lawful) {n0 n : NodeId} {f0 base M0 back f f' M : Net U α} {T : NodeId → Prop}
    (hw : WF E.S n0 f0) (hst : Stamped f0) (hs0 : Sent E f0 base M0) (hb : SameNet M0 back) (hf : Since E n0 base n f T)
    (hc : commit E f = some (f', M)) {q : List (Msg U α)} (hq : LastNet q M) {id : NodeId} {u : U} (he : unitOf back id = some u)
    (hid : contains f id = true) (hT : ¬ T id) : unitOf (handle E.S back q) id = some (settingsIn id q u) := by
  rw [engOf_unit] at he ⊢
  obtain ⟨e, he', rfl⟩ := Option.map_eq_some_iff.1 he
  rw [C11_kept hS hw hst hs0 hb hf hc hq he' hid hT]
  rfl

/-- **C69**: without commits in the queue, every setting reaches the unit of its node and no other. -/
theorem C69_settings (S : Units U α) {back : Net U α} (hb : MapOK back) (ss : List (NodeId × (U → U))) (id : NodeId) :
    unitOf (handle S back (ss.map (fun p => .setting p.1 p.2))) id =
      (unitOf back id).map (fun u => (ss.filter (fun p => p.1 == id)).foldl (fun u p => p.2 u) u) := by
  have hl : ∀ (ss : List (NodeId × (U → U))) (st : Net U α × Option (Net U α)), ((ss.map (fun p => Msg.setting p.1 p.2)).foldl (recv S) st).2 = st.2 := by
    intro ss
    induction ss with
    | nil => intro st; rfl
    | cons p ss ih => intro st; rw [List.map_cons, List.foldl_cons, ih]; rfl
  have hh : handle S back (ss.map (fun p => .setting p.1 p.2)) = ((ss.map (fun p => Msg.setting p.1 p.2)).foldl (recv S) (back, none)).1 := by
    simp only [handle, hl]
  have hr := (recv_spec S id (ss.map (fun p => Msg.setting p.1 p.2)) (back, none) hb).2
  simp only [full, hl, Option.map_none, Option.getD_none, Option.map_map] at hr
  have hu := congrArg (Option.map Eng.unit) hr
  simp only [Option.map_map] at hu
  rw [hh, engOf_unit, engOf_unit, Option.map_map]
  have hs : ∀ (ss : List (NodeId × (U → U))) (u : U), settingsIn id (ss.map (fun p => (Msg.setting p.1 p.2 : Msg U α))) u =
      (ss.filter (fun p => p.1 == id)).foldl (fun u p => p.2 u) u := by
    intro ss
    induction ss with
    | nil => intro u; rfl
    | cons p ss ih =>
      intro u
      simp only [List.map_cons, settingsIn, List.filter_cons, beq_iff_eq]
      split
      · rw [ih]; rfl
      · exact ih u
  refine Eq.trans ?_ (hu.trans ?_)
  · congr 1
  · congr 1
    funext e
    simp only [Function.comp]
    exact hs ss e.unit

/-! ## Counterexamples and examples -/

/-- Runs `backend` or `commit`. -/
def demoFade : DU := ⟨0, 1, 7, 0, none⟩

/-- **C12** is violated by the code: a node is created with `fade_in` and committed, and a second commit is made before the backend runs. The
backend handles both at once: the edit of the first is looked up in the old net, where the node does not exist. The node stays silent for ever:
it runs the placeholder and nothing is queued. If the backend runs between the commits, the unit arrives. -/
theorem C12_violation_lost : ∃ (f0 f1 f2 f3 f4 : Net DU Int) (B M1 M2 : Net DU Int) (m : NodeId),
    f0 = new 1 0 1 ∧ backend demoEnv f0 = some (f1, B) ∧
    runEdits demoEnv 0 f1 [.fadeIn .power 1 demoFade, .connectOutput 0 0 0] = some (f2, m) ∧
    commit demoEnv f2 = some (f3, M1) ∧ commit demoEnv f3 = some (f4, M2) ∧
    (engOf (handle demo B [.net M1, .net M2]) 0).map (fun e => (e.unit, e.next.unit, e.latest.unit)) = some (demo.dummy 0 1, none, none) ∧
    (engOf (handle demo (handle demo B [.net M1]) [.net M2]) 0).map (fun e => (e.unit, e.next.unit, e.latest.unit)) =
      some (demo.dummy 0 1, some demoFade, none) :=
  ⟨_, _, _, _, _, _, _, _, _, rfl, rfl, rfl, rfl, rfl, rfl, rfl⟩

/-- **C12** is violated by the code: the frontend never learns that a crossfade has taken place. After the new unit has taken over in the backend,
`reset` (or a change of sample rate) and `commit` in the frontend bring the old unit back. -/
theorem C12_violation_undone : ∃ (f1 f2 f3 f4 f5 f6 : Net DU Int) (B M1 M2 : Net DU Int) (m k l : NodeId),
    runEdits demoEnv 0 (new 1 0 1) [.push gen1, .connectOutput 0 0 0] = some (f1, m) ∧ backend demoEnv f1 = some (f2, B) ∧
    runEdits demoEnv m f2 [.crossfade 0 .power 1 demoFade] = some (f3, k) ∧ commit demoEnv f3 = some (f4, M1) ∧
    unitOf (tick demo demoEnv.seed demoEnv.hash0 (handle demo B [.net M1]) []).1 0 = some demoFade ∧
    runEdits demoEnv k f4 [.reset] = some (f5, l) ∧ commit demoEnv f5 = some (f6, M2) ∧
    (engOf (handle demo (tick demo demoEnv.seed demoEnv.hash0 (handle demo B [.net M1]) []).1 [.net M2]) 0).map
      (fun e => (e.unit, e.next.unit, e.latest.unit)) = some (demo.reset gen1, none, none) :=
  ⟨_, _, _, _, _, _, _, _, _, _, _, _, rfl, rfl, rfl, rfl, rfl, rfl, rfl, rfl⟩

/-- **C69** is violated by the code: a setting sent after the commit that brings its node is applied to the old net if the backend handles both
at once, and lost. -/
theorem C69_violation_lost : ∃ (f1 f2 f3 : Net DU Int) (B M1 : Net DU Int) (m : NodeId) (g : DU → DU),
    backend demoEnv (new 1 0 1) = some (f1, B) ∧ runEdits demoEnv 0 f1 [.push demoFade, .connectOutput 0 0 0] = some (f2, m) ∧
    commit demoEnv f2 = some (f3, M1) ∧
    unitOf (handle demo B [.net M1, .setting 0 g]) 0 = some demoFade ∧
    unitOf (handle demo (handle demo B [.net M1]) [.setting 0 g]) 0 = some (g demoFade) ∧ g demoFade ≠ demoFade :=
  ⟨_, _, _, _, _, _, fun u => { u with k := 8 }, rfl, rfl, rfl, rfl, rfl, by decide⟩

def exF : Net DU Int := ((runEdits demoEnv 0 (new 1 0 1) [.push gen1, .pipeOutput 0]).getD (new 1 0 1, 0)).1
def exBase : Net DU Int := ((backend demoEnv exF).getD (exF, exF)).1
def exM0 : Net DU Int := ((backend demoEnv exF).getD (exF, exF)).2

/-- Non-vacuity of `C11_kept`, `C11_new`, `C11_graph`: a generator that has been running in the backend for two samples keeps its count through a
commit that adds a second node and a connection, while the new node comes from the frontend. -/
example : ∃ (f1 base f f' M0 M back : Net DU Int) (T : NodeId → Prop), WF demo 1 f1 ∧ Stamped f1 ∧ Sent demoEnv f1 base M0 ∧ SameNet M0 back ∧
    Since demoEnv 1 base 2 f T ∧ commit demoEnv f = some (f', M) ∧ LastNet [.net M] M ∧ ¬ T 0 ∧ contains f 0 = true ∧ contains back 1 = false ∧
    contains f 1 = true ∧ unitOf back 0 = some { gen1 with k := 3 } ∧ unitOf f 0 = some gen1 ∧
    unitOf (handle demo back [.net M]) 0 = some { gen1 with k := 3 } ∧ unitOf (handle demo back [.net M]) 1 = some fil1 := by
  have r0 : Reach demoEnv InRange 0 (new 1 0 1 : Net DU Int) := .new 0 _ 0 1
  have r1 := r0.edit (.push gen1) trivial rfl
  have r2 : Reach demoEnv InRange 1 exF := r1.edit (.pipeOutput 0) trivial rfl
  have s0 : Stamped (new 1 0 1 : Net DU Int) := by intro v hv; cases hv
  have s1 := stamped_edit (r0.wf demo_lawful) s0 (.push gen1) rfl
  have s2 : Stamped exF := stamped_edit (r1.wf demo_lawful) s1 (.pipeOutput 0) rfl
  have b1 := C11_stays (E := demoEnv) demo_lawful (fun u _ _ old => (u, old)) (SameNet.refl exM0)
  have b2 := C11_stays (E := demoEnv) demo_lawful (fun u _ _ old => (u, old)) (b1.1 [])
  have h1 := (Since.start (E := demoEnv) (n0 := 1) (base := exBase)).edit (.push fil1) trivial rfl
  have h2 := h1.edit (.connect 0 0 1 0) (by intro o ho; cases ho; decide) rfl
  have h3 := h2.edit (.pipeOutput 1) trivial rfl
  refine ⟨exF, exBase, _, _, exM0, _, _, _, r2.wf demo_lawful, s2, Or.inl rfl, b2.1 [], h3, rfl, ⟨[], [], rfl, by simp⟩, ?_, rfl, rfl, rfl, rfl, rfl, rfl, rfl⟩
  rintro (((c | c) | c) | c) <;> exact c

def exC : Net DU Int := ((runEdits demoEnv 1 exBase [.crossfade 0 .power 1 demoFade]).getD (exF, 0)).1

/-- Non-vacuity of the hypotheses of `C12_eventually_partial`: two commits with one crossfade each of a node that is running; the backend handles
both at once, and both are queued in order. -/
example : ∃ (f1 f2 f3 f4 M1 M2 : Net DU Int) (T : NodeId → Prop), Since demoEnv 1 exBase 1 f3 T ∧ ¬ T 0 ∧ contains f3 0 = true ∧
    commit demoEnv f1 = some (f2, M1) ∧ commit demoEnv f3 = some (f4, M2) ∧ LastNet [.net M1, .net M2] M2 ∧
    (editsIn 0 [.net M1, .net M2]).map NodeEdit.unit = [some demoFade, some (⟨0, 1, 9, 0, none⟩ : DU)] ∧
    (engOf (handle demo exM0 [.net M1, .net M2]) 0).map (fun e => (e.unit, e.next.unit, e.latest.unit)) =
      some (gen1, some demoFade, some ⟨0, 1, 9, 0, none⟩) := by
  have h1 : Since demoEnv 1 exBase 1 exC _ := (Since.start (E := demoEnv) (n0 := 1) (base := exBase)).edit (.crossfade 0 .power 1 demoFade) trivial rfl
  have h2 := h1.commit rfl
  have h3 := h2.edit (.crossfade 0 .power 1 ⟨0, 1, 9, 0, none⟩) trivial rfl
  refine ⟨exC, _, _, _, _, _, _, h3, ?_, rfl, rfl, rfl, ⟨[_], [], rfl, by simp⟩, rfl, rfl⟩
  rintro ((c | c) | c) <;> exact c

end Fundsp.Net
