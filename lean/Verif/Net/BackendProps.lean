import Verif.Net.Stamp

/-!
# C11 and C12: commits reach the backend

A frontend `f0` starts a backend or commits; `base` is the frontend right after that and `M0` the net that was sent. Later the backend net
`back` stems from `M0` (`SameNet M0 back`: it has been running in any way since). Meanwhile the frontend has made any calls, including any
number of further commits (`Since`), and now commits again with message `M`. The backend then finds a queue whose last net is `M`.
-/
namespace Fundsp.Net
variable {U α : Type}

/-! ## Specification -/

/-- Calls of the frontend after `base`: any edits that do not panic, and any number of commits. `T` collects the nodes whose unit was changed. -/
inductive Since [DecidableEq α] (E : Env U α) (n0 : NodeId) (base : Net U α) : NodeId → Net U α → (NodeId → Prop) → Prop
  | start : Since E n0 base n0 base (fun _ => False)
  | later {n m f T} (h : Since E n0 base n f T) (hm : n ≤ m) : Since E n0 base m f T
  | edit {n m f f' T} (h : Since E n0 base n f T) (e : Edit U α) (hr : InRange f e) (he : e.apply E n f = some (f', m)) :
      Since E n0 base m f' (fun id => T id ∨ Touches f e id)
  | commit {n f f' M T} (h : Since E n0 base n f T) (hc : commit E f = some (f', M)) : Since E n0 base n f' T

/-- `M` is the last net in the queue; settings may follow. -/
def LastNet (q : List (Msg U α)) (M : Net U α) : Prop :=
  ∃ a b, q = a ++ .net M :: b ∧ ∀ m ∈ b, ∃ id f, m = .setting id f

/-- All edits of node `id` in a queue, in the order they were made. -/
def editsIn (id : NodeId) : List (Msg U α) → List (NodeEdit U α)
  | [] => []
  | .net n :: q => editsOf id n.editQueue ++ editsIn id q
  | .setting _ _ :: q => editsIn id q

/-- Effect on the unit of node `id` of all settings in a queue. -/
def settingsIn (id : NodeId) : List (Msg U α) → U → U
  | [], u => u
  | .net _ :: q, u => settingsIn id q u
  | .setting k f :: q, u => settingsIn id q (if k = id then f u else u)

/-- No stamp is in the future. -/
def Stamped (net : Net U α) : Prop := ∀ v ∈ net.vertex, v.changed ≤ net.revision

/-- The frontend `f0` has just sent `M0` and became `base`. -/
def Sent (E : Env U α) (f0 base M0 : Net U α) : Prop := backend E f0 = some (base, M0) ∨ commit E f0 = some (base, M0)

/-! ## Messages -/

theorem editsIn_append (id : NodeId) (a b : List (Msg U α)) : editsIn id (a ++ b) = editsIn id a ++ editsIn id b := by
  induction a with
  | nil => rfl
  | cons m a ih =>
    cases m with
    | net n => simp only [List.cons_append, editsIn, ih, List.append_assoc]
    | setting k f => simp only [List.cons_append, editsIn, ih]

/-- The state of node `id` in `(self.net, latest_net)`, with the edits of `latest_net` still to come. -/
def full (S : Units U α) (id : NodeId) (st : Net U α × Option (Net U α)) : Option (Eng U α) :=
  (engOf st.1 id).map (fun e => e.enqueueAll S ((st.2.map (fun l => editsOf id l.editQueue)).getD []))

theorem enqueueAll_append (S : Units U α) (e : Eng U α) (a b : List (NodeEdit U α)) :
    e.enqueueAll S (a ++ b) = (e.enqueueAll S a).enqueueAll S b := by simp [Eng.enqueueAll]

theorem recv_spec (S : Units U α) (id : NodeId) (q : List (Msg U α)) : ∀ (st : Net U α × Option (Net U α)), MapOK st.1 →
    SameNet st.1 (q.foldl (recv S) st).1 ∧
    full S id (q.foldl (recv S) st) = (full S id st).map (fun e => { e.enqueueAll S (editsIn id q) with unit := settingsIn id q e.unit }) := by
  induction q with
  | nil =>
    intro st _
    refine ⟨SameNet.refl _, ?_⟩
    simp only [List.foldl_nil, editsIn, settingsIn]
    cases full S id st <;> rfl
  | cons m q ih =>
    intro st hv
    rw [List.foldl_cons]
    cases m with
    | net n =>
      have hs : SameNet st.1 (recv S st (.net n)).1 := by
        simp only [recv]
        cases st.2 with
        | none => exact SameNet.refl _
        | some l => exact applyForeign_same S st.1 l
      obtain ⟨h1, h2⟩ := ih (recv S st (.net n)) (hv.same hs.toSameWiring)
      refine ⟨hs.trans h1, ?_⟩
      rw [h2]
      have : full S id (recv S st (.net n)) = (full S id st).map (fun e => e.enqueueAll S (editsOf id n.editQueue)) := by
        simp only [full, recv]
        cases hl : st.2 with
        | none => simp only [Option.map_none, Option.getD_none, Option.map_some, Option.getD_some, Option.map_map]; congr 1
        | some l =>
          simp only [engOf_applyForeign hv, Option.map_some, Option.getD_some, Option.map_map]
      rw [this, Option.map_map]
      congr 1
      funext e
      simp only [Function.comp, editsIn, settingsIn, enqueueAll_append, enqueueAll_unit]
    | setting k f =>
      obtain ⟨h1, h2⟩ := ih (recv S st (.setting k f)) (hv.same (set_same st.1 k f).toSameWiring)
      refine ⟨(set_same st.1 k f).trans h1, ?_⟩
      rw [h2]
      have : full S id (recv S st (.setting k f)) = (full S id st).map (fun e => { e with unit := if k = id then f e.unit else e.unit }) := by
        simp only [full, recv, engOf_set hv, Option.map_map]
        congr 1
        funext e
        simp only [Function.comp]
        split
        · rw [enqueueAll_withUnit, enqueueAll_unit]
        · rfl
      rw [this, Option.map_map]
      congr 1
      funext e
      simp only [Function.comp, editsIn, settingsIn]
      rw [enqueueAll_withUnit]

theorem recv_latest (S : Units U α) {q : List (Msg U α)} {M : Net U α} (h : LastNet q M) (st : Net U α × Option (Net U α)) :
    (q.foldl (recv S) st).2 = some M := by
  obtain ⟨a, b, rfl, hb⟩ := h
  rw [List.foldl_append, List.foldl_cons]
  have key : ∀ (b : List (Msg U α)), (∀ m ∈ b, ∃ id f, m = .setting id f) → ∀ st : Net U α × Option (Net U α), (b.foldl (recv S) st).2 = st.2 := by
    intro b
    induction b with
    | nil => intro _ st; rfl
    | cons m b ih =>
      intro hb st
      obtain ⟨k, f, rfl⟩ := hb m (by simp)
      rw [List.foldl_cons, ih (fun m hm => hb m (by simp [hm]))]
      rfl
  rw [key b hb]
  rfl

/-- What the backend has after it has handled a queue. -/
theorem handle_spec {S : Units U α} {back M : Net U α} {q : List (Msg U α)} (hb : MapOK back) (hM : MapOK M) (hx : Indexed M) (hq : LastNet q M) :
    SameNet M (handle S back q) ∧ (handle S back q).order = M.order ∧ (handle S back q).sampleRate = M.sampleRate ∧
    ∀ id j v, M.nodeIndex.get id = some j → M.vertex[j]? = some v →
      engOf (handle S back q) id =
        if v.changed ≤ back.revision then
          (match engOf back id with
            | some e => some { e.enqueueAll S (editsIn id q) with unit := settingsIn id q e.unit }
            | none => some (v.eng.enqueueAll S (editsOf id M.editQueue)))
        else some (v.eng.enqueueAll S (editsOf id M.editQueue)) := by
  have hl := recv_latest S hq (back, none)
  have hh : handle S back q = applyEdits S (migrate (q.foldl (recv S) (back, none)).1 M) := by
    simp only [handle, hl]
  set st := q.foldl (recv S) (back, none) with hst
  have hs : SameNet back st.1 := (recv_spec S 0 q (back, none) hb).1
  have hb' : MapOK st.1 := hb.same hs.toSameWiring
  have hm := migrate_same hM hb'
  have hmm : MapOK (migrate st.1 M) := hM.same hm.toSameWiring
  have hmx : Indexed (migrate st.1 M) := hx
  rw [hh]
  refine ⟨hm.trans (applyEdits_same S _), rfl, rfl, ?_⟩
  intro id j v hj hv
  have hid : v.id = id := by
    obtain ⟨w, h1, h2⟩ := (hM.map id j).1 hj
    rw [hv] at h1; cases h1; exact h2
  rw [engOf_applyEdits hmm hmx, engOf_of (a := M) (b := migrate st.1 M) rfl _ (migrate_vertex hM hb') id j v hj hv]
  simp only [Option.map_some, hs.rev, hid]
  have hf := (recv_spec S id q (back, none) hb).2
  rw [← hst] at hf
  have hf0 : full S id (back, (none : Option (Net U α))) = engOf back id := by
    simp only [full, Option.map_none, Option.getD_none]
    cases engOf back id <;> rfl
  rw [hf0] at hf
  simp only [full, hl, Option.map_some, Option.getD_some] at hf
  split
  · cases hb2 : engOf back id with
    | none =>
      have := engOf_none hb hs.toSameWiring hb2
      simp only [this, Option.getD_none]
      rfl
    | some e =>
      rw [hb2] at hf
      obtain ⟨e', he', hf⟩ := Option.map_eq_some_iff.1 hf
      simp only [he', Option.getD_some]
      exact congrArg some hf
  · rfl

/-! ## What a commit sends -/

theorem sent_struct {E : Env U α} (hS : E.S.Lawful) {n : NodeId} {f base M : Net U α} (hw : WF E.S n f) (h : Sent E f base M) :
    WF E.S n base ∧ MapOK M ∧ Indexed M ∧ SameWiring base M ∧ SameWiring f base ∧ M.vertex = base.vertex ∧ M.order = base.order ∧
    M.sampleRate = base.sampleRate ∧ M.revision = f.revision ∧ base.revision = f.revision + 1 ∧ Keep f.vertex base.vertex := by
  have of_wf : ∀ {a b : Net U α}, WF E.S n a → b.inputs = a.inputs → b.outputs = a.outputs → b.outputEdge = a.outputEdge →
      b.vertex = a.vertex → b.nodeIndex = a.nodeIndex → WF E.S n b := by
    intro a b ha h1 h2 h3 h4 h5
    obtain ⟨i, o, oe, vx, od, nx, sr, hb, bi, bo, eq, rv, ce⟩ := a
    obtain ⟨i', o', oe', vx', od', nx', sr', hb', bi', bo', eq', rv', ce'⟩ := b
    simp only at h1 h2 h3 h4 h5
    subst h1 h2 h3 h4 h5
    obtain ⟨⟨a1, a2, a3, a4, a5, a6, a7⟩, b, c, d⟩ := ha
    refine ⟨⟨a1, fun c e hc => ⟨(a2 c e hc).1, ?_⟩, a3, fun i v c e hv hc => ⟨(a4 i v c e hv hc).1, ?_⟩, a5, a6, a7⟩, b, c, d⟩
    · have := (a2 c e hc).2
      cases hp : e.source <;> rw [hp] at this <;> exact this
    · have := (a4 i v c e hv hc).2
      cases hp : e.source <;> rw [hp] at this <;> exact this
  rcases h with h | h
  · simp only [backend] at h
    split at h
    · cases h
    · set g : Net U α := { f with hasBackend := true, backendInputs := f.inputs, backendOutputs := f.outputs } with hg
      have hgw : WF E.S n g := of_wf hw rfl rfl rfl rfl rfl
      have hr := wf_ready hS E.seed E.hash0 hgw
      have hsw := ready_sameWiring hS E.seed E.hash0 g
      have hre := rest_ready E.S E.seed E.hash0 g
      have hk := keep_ready E.S E.seed E.hash0 g
      simp only [Option.some.injEq, Prod.mk.injEq] at h
      obtain ⟨rfl, rfl⟩ := h
      refine ⟨of_wf hr rfl rfl rfl rfl rfl, hr.valid.mapOK.same ⟨rfl, rfl, rfl, rfl, rfl, ?_⟩, ?_, ⟨rfl, rfl, rfl, rfl, rfl, ?_⟩,
        ⟨hsw.inputs, hsw.outputs, hsw.oe, hsw.index, hsw.len, hsw.node⟩, rfl, rfl, rfl, hre.rev, ?_, hk⟩
      · intro i v w h1 h2
        rw [show (clone (ready E.S E.seed E.hash0 g)).vertex = (ready E.S E.seed E.hash0 g).vertex from rfl, h1] at h2
        cases h2; exact ⟨rfl, rfl, rfl, rfl⟩
      · intro ed hed; simp [clone] at hed
      · intro i v w h1 h2
        simp only [clone] at h2
        simp only at h1
        rw [h1] at h2; cases h2; exact ⟨rfl, rfl, rfl, rfl⟩
      · simp only [hre.rev]; rfl
  · simp only [commit] at h
    split at h
    · cases h
    split at h
    · cases h
    split at h
    · cases h
    have hr := wf_ready hS E.seed E.hash0 hw
    have hsw := ready_sameWiring hS E.seed E.hash0 f
    have hre := rest_ready E.S E.seed E.hash0 f
    have hk := keep_ready E.S E.seed E.hash0 f
    simp only [Option.some.injEq, Prod.mk.injEq] at h
    obtain ⟨rfl, rfl⟩ := h
    refine ⟨of_wf hr rfl rfl rfl rfl rfl, hr.valid.mapOK.same ⟨rfl, rfl, rfl, rfl, rfl, ?_⟩, ?_, ⟨rfl, rfl, rfl, rfl, rfl, ?_⟩,
      ⟨hsw.inputs, hsw.outputs, hsw.oe, hsw.index, hsw.len, hsw.node⟩, rfl, rfl, rfl, hre.rev, ?_, hk⟩
    · intro i v w h1 h2
      simp only [clone] at h2
      rw [h1] at h2
      cases h2; exact ⟨rfl, rfl, rfl, rfl⟩
    · intro ed hed
      simp only [List.mem_filterMap, Option.map_eq_some_iff] at hed
      obtain ⟨d, _, i, hi, rfl⟩ := hed
      exact hi
    · intro i v w h1 h2
      simp only [clone] at h2
      simp only at h1
      rw [h1] at h2; cases h2; exact ⟨rfl, rfl, rfl, rfl⟩
    · simp only [hre.rev]

/-- Facts about the frontend that hold all the time after `base`. -/
structure SinceInv (E : Env U α) (base : Net U α) (n : NodeId) (f : Net U α) (T : NodeId → Prop) : Prop where
  wf : WF E.S n f
  below : Below n base
  rev : base.revision ≤ f.revision
  stamp : ∀ v ∈ f.vertex, contains base v.id = true → (T v.id → base.revision ≤ v.changed) ∧ (¬ T v.id → v.changed < base.revision)

theorem contains_lt {S : Units U α} {n m : NodeId} {net : Net U α} (hw : WF S m net) (hb : Below n net) {id : NodeId} (h : contains net id = true) : id < n := by
  obtain ⟨i, hi⟩ := Option.isSome_iff_exists.1 h
  obtain ⟨v, hv, rfl⟩ := (hw.valid.map id i).1 hi
  exact hb i v hv

theorem since_inv [DecidableEq α] {E : Env U α} (hS : E.S.Lawful) {n0 : NodeId} {base : Net U α} (hw : WF E.S n0 base)
    (hb : ∀ v ∈ base.vertex, v.changed < base.revision) {n : NodeId} {f : Net U α} {T : NodeId → Prop} (h : Since E n0 base n f T) :
    SinceInv E base n f T := by
  induction h with
  | start => exact ⟨hw, hw.below, Nat.le_refl _, fun v hv _ => ⟨fun c => c.elim, fun _ => hb v hv⟩⟩
  | later _ hm ih => exact ⟨ih.wf.mono hm, fun i v hv => Nat.lt_of_lt_of_le (ih.below i v hv) hm, ih.rev, ih.stamp⟩
  | @edit n m f f' T _ e hr he ih =>
    have hst := stamp_edit ih.wf.valid e he
    obtain ⟨hw', hnm⟩ := wf_edit hS ih.wf e hr he
    refine ⟨hw', fun i v hv => Nat.lt_of_lt_of_le (ih.below i v hv) hnm, by rw [hst.rev]; exact ih.rev, ?_⟩
    intro w hwm hc
    rcases hst.node w hwm with ⟨h1, h2, h3⟩ | ⟨v, hv, h1, h2⟩
    · exact absurd (contains_lt hw ih.below hc) (by rw [h1]; exact Nat.lt_irrefl _)
    · have ihv := ih.stamp v hv (by rw [h1]; exact hc)
      rw [h1] at ihv
      rcases h2 with ⟨ht, h2⟩ | ⟨ht, h2⟩
      · refine ⟨fun _ => by rw [h2]; exact ih.rev, fun c => absurd (Or.inr ht) c⟩
      · rw [h2]
        exact ⟨fun c => ihv.1 (c.resolve_right ht), fun c => ihv.2 (fun d => c (Or.inl d))⟩
  | @commit n f f' M T _ hc ih =>
    obtain ⟨h1, _, _, _, _, _, _, _, _, h9, h10⟩ := sent_struct hS ih.wf (Or.inr hc)
    refine ⟨h1, ih.below, by rw [h9]; exact Nat.le_succ_of_le ih.rev, ?_⟩
    intro w hwm hc
    obtain ⟨v, hv, hid, hch⟩ := h10 w hwm
    rw [← hid, ← hch]
    exact ih.stamp v hv (by rw [hid]; exact hc)

/-- Stamps are never in the future. -/
theorem stamped_edit [DecidableEq α] {E : Env U α} {n m : NodeId} {f f' : Net U α} (hw : WF E.S n f) (h : Stamped f) (e : Edit U α)
    (he : e.apply E n f = some (f', m)) : Stamped f' := by
  have hst := stamp_edit hw.valid e he
  intro w hwm
  rw [hst.rev]
  rcases hst.node w hwm with ⟨_, _, h3⟩ | ⟨v, hv, _, ⟨_, h2⟩ | ⟨_, h2⟩⟩
  · rw [h3]; exact Nat.zero_le _
  · rw [h2]
  · rw [h2]; exact h v hv

theorem stamped_sent {E : Env U α} (hS : E.S.Lawful) {n : NodeId} {f base M : Net U α} (hw : WF E.S n f) (h : Stamped f) (hs : Sent E f base M) :
    ∀ v ∈ base.vertex, v.changed < base.revision := by
  obtain ⟨_, _, _, _, _, _, _, _, _, h9, h10⟩ := sent_struct hS hw hs
  intro w hwm
  obtain ⟨v, hv, _, hch⟩ := h10 w hwm
  rw [h9, ← hch]
  exact Nat.lt_succ_of_le (h v hv)

/-! ## C11 -/

/-- **Specification**: the two nets have the same nodes, connections and outputs, as seen through the API. -/
structure SameGraph (a b : Net U α) : Prop where
  inputs : b.inputs = a.inputs
  outputs : b.outputs = a.outputs
  count : size b = size a
  keys : ids b = ids a
  node : ∀ id, contains b id = contains a id ∧ inputsIn b id = inputsIn a id ∧ outputsIn b id = outputsIn a id
  wire : ∀ id c, source b id c = source a id c
  out : ∀ c, outputSource b c = outputSource a c

theorem SameWiring.graph {a b : Net U α} (h : SameWiring a b) : SameGraph a b := by
  have hget : ∀ i : Nat, (b.vertex[i]?).map (fun v => (v.id, v.ins, v.outs, v.source)) = (a.vertex[i]?).map (fun v => (v.id, v.ins, v.outs, v.source)) := by
    intro i
    cases ha : a.vertex[i]? with
    | none =>
      rw [List.getElem?_eq_none_iff] at ha
      rw [List.getElem?_eq_none (by rw [h.len]; exact ha)]
    | some v =>
      have hi : i < b.vertex.length := by rw [h.len]; exact (List.getElem?_eq_some_iff.1 ha).1
      have hw : b.vertex[i]? = some b.vertex[i] := List.getElem?_eq_getElem hi
      obtain ⟨h1, h2, h3, h4⟩ := h.node i v _ ha hw
      rw [hw]
      simp only [Option.map_some, h1, h2, h3, h4]
  have proj : ∀ {γ : Type} (φ : NodeId × Nat × Nat × List Edge → γ) (i : Nat),
      (b.vertex[i]?).map (fun v => φ (v.id, v.ins, v.outs, v.source)) = (a.vertex[i]?).map (fun v => φ (v.id, v.ins, v.outs, v.source)) := by
    intro γ φ i
    have := congrArg (Option.map φ) (hget i)
    simpa only [Option.map_map, Function.comp_def] using this
  have rep : ∀ p, reportSource b p = reportSource a p := reportSource_congr (fun i => proj (fun x => x.1) i)
  refine ⟨h.inputs, h.outputs, h.len, by simp only [ids, h.index], fun id => ⟨by simp only [contains, h.index], ?_, ?_⟩, ?_, ?_⟩
  · simp only [inputsIn, h.index]
    congr 1
    funext i
    exact proj (fun x => x.2.1) i
  · simp only [outputsIn, h.index]
    congr 1
    funext i
    exact proj (fun x => x.2.2.1) i
  · intro id c
    simp only [source, h.index, Option.bind_eq_bind]
    congr 1
    funext i
    have := congrArg (fun o : Option (NodeId × Nat × Nat × List Edge) => o.bind (fun x => if c < x.2.1 then (x.2.2.2[c]?).bind (fun e => reportSource a e.source) else none)) (hget i)
    simpa only [Option.bind_map, Function.comp_def, rep] using this
  · intro c
    simp only [outputSource, h.outputs, h.oe, Option.bind_eq_bind, rep]

/-- **C11** (when a commit is accepted): exactly when there is a backend and the arity has not changed. -/
theorem C11_accepts (E : Env U α) (f : Net U α) :
    (commit E f).isSome = true ↔ f.hasBackend = true ∧ f.inputs = f.backendInputs ∧ f.outputs = f.backendOutputs := by
  simp only [commit]
  split
  · rename_i h; simp at h; simp [h]
  · rename_i h
    simp at h
    split
    · rename_i h'; simp [h']
    · rename_i h'
      simp at h'
      split
      · rename_i h2; simp [h2]
      · rename_i h2; simp at h2; simp [h, h', h2]

/-- **C11** (graph): after the backend has handled a queue whose last net is the commit of `f`, it has the nodes, wires and outputs of the
frontend, whatever else was in the queue and whatever the backend ran before. -/
theorem C11_graph {E : Env U α} (hS : E.S.Lawful) {n : NodeId} {f f' M back : Net U α} (hw : WF E.S n f) (hs : Sent E f f' M)
    (hb : MapOK back) {q : List (Msg U α)} (hq : LastNet q M) :
    SameGraph f (handle E.S back q) ∧ SameGraph f f' ∧ (handle E.S back q).sampleRate = f'.sampleRate ∧ SameNet M (handle E.S back q) := by
  obtain ⟨h1, h2, h3, h4, h5, _, _, h8, _, _, _⟩ := sent_struct hS hw hs
  obtain ⟨a, _, c, _⟩ := handle_spec (S := E.S) hb h2 h3 hq
  exact ⟨(h5.trans (h4.trans a.toSameWiring)).graph, h5.graph, c.trans h8, a⟩

/-- **C11** (nothing left to prepare): the net that the backend takes over already has its evaluation order, so the backend neither computes one in its
first tick or block nor pings any unit, which would restart units that depend on their hash. -/
theorem C11_ready {E : Env U α} (hS : E.S.Lawful) {n : NodeId} {f f' M back : Net U α} (hw : WF E.S n f) (hs : Sent E f f' M)
    (hb : MapOK back) {q : List (Msg U α)} (hq : LastNet q M) :
    (∃ order, (handle E.S back q).order = some order) ∧ ready E.S E.seed E.hash0 (handle E.S back q) = handle E.S back q := by
  obtain ⟨_, h2, h3, _, _, _, h7, _⟩ := sent_struct hS hw hs
  obtain ⟨_, b, _⟩ := handle_spec (S := E.S) hb h2 h3 hq
  have r : ∀ g : Net U α, (ready E.S E.seed E.hash0 g).order.isSome = true := by
    intro g; unfold ready
    split
    · assumption
    · rfl
  have ho : f'.order.isSome = true := by
    rcases hs with h | h
    · simp only [backend] at h
      split at h
      · cases h
      · simp only [Option.some.injEq, Prod.mk.injEq] at h
        rw [← h.1]; exact r _
    · simp only [commit] at h
      split at h
      · cases h
      split at h
      · cases h
      split at h
      · cases h
      simp only [Option.some.injEq, Prod.mk.injEq] at h
      rw [← h.1]; exact r _
  have hh : (handle E.S back q).order.isSome = true := by rw [b, h7]; exact ho
  refine ⟨Option.isSome_iff_exists.1 hh, ?_⟩
  unfold ready
  rw [if_pos hh]

/-- **C11** (running state is kept): a node that the backend has and that was not replaced, reset or given a new sample rate since the net of the
backend was sent keeps the state it has in the backend; the settings and crossfades in the queue reach it in the order they were made. -/
theorem C11_kept [DecidableEq α] {E : Env U α} (hS : E.S.Lawful) {n0 n : NodeId} {f0 base M0 back f f' M : Net U α} {T : NodeId → Prop}
    (hw : WF E.S n0 f0) (hst : Stamped f0) (hs0 : Sent E f0 base M0) (hb : SameNet M0 back) (hf : Since E n0 base n f T)
    (hc : commit E f = some (f', M)) {q : List (Msg U α)} (hq : LastNet q M) {id : NodeId} {e : Eng U α} (he : engOf back id = some e)
    (hid : contains f id = true) (hT : ¬ T id) :
    engOf (handle E.S back q) id = some { e.enqueueAll E.S (editsIn id q) with unit := settingsIn id q e.unit } := by
  obtain ⟨a1, a2, _, a4, _, _, _, _, a9, a10, _⟩ := sent_struct hS hw hs0
  have hi := since_inv hS a1 (stamped_sent hS hw hst hs0) hf
  obtain ⟨_, b2, b3, b4, b5, b6, _, _, _, _, b11⟩ := sent_struct hS hi.wf (Or.inr hc)
  have hbm : MapOK back := a2.same hb.toSameWiring
  obtain ⟨_, _, _, h⟩ := handle_spec (S := E.S) hbm b2 b3 hq
  obtain ⟨j, hj⟩ := Option.isSome_iff_exists.1 hid
  have hj' : M.nodeIndex.get id = some j := by rw [(b5.trans b4).index]; exact hj
  obtain ⟨v, hv, hvid⟩ := (b2.map id j).1 hj'
  rw [h id j v hj' hv]
  have hcb : contains base id = true := by
    obtain ⟨i, _, h1, _, _⟩ := engOf_some he
    rw [hb.index, a4.index] at h1
    simp only [contains, h1]; rfl
  have hlt : v.changed ≤ back.revision := by
    obtain ⟨w, hwm, hwid, hwc⟩ := b11 v (by rw [← b6]; exact List.mem_of_getElem? hv)
    have := (hi.stamp w hwm (by rw [hwid, hvid]; exact hcb)).2 (by rw [hwid, hvid]; exact hT)
    rw [hb.rev, a9, ← hwc]
    omega
  simp only [hlt, if_true, he]

/-- **C11** (running state is kept), without edits: if the queue has neither crossfades nor settings for the node, its state is untouched. -/
theorem C11_kept_exactly [DecidableEq α] {E : Env U α} (hS : E.S.Lawful) {n0 n : NodeId} {f0 base M0 back f f' M : Net U α} {T : NodeId → Prop}
    (hw : WF E.S n0 f0) (hst : Stamped f0) (hs0 : Sent E f0 base M0) (hb : SameNet M0 back) (hf : Since E n0 base n f T)
    (hc : commit E f = some (f', M)) {q : List (Msg U α)} (hq : LastNet q M) {id : NodeId} (hin : contains back id = true)
    (hid : contains f id = true) (hT : ¬ T id) (hed : editsIn id q = []) (hset : ∀ u, settingsIn id q u = u) :
    engOf (handle E.S back q) id = engOf back id := by
  obtain ⟨a1, a2, _⟩ := sent_struct hS hw hs0
  have hbm : MapOK back := a2.same hb.toSameWiring
  obtain ⟨i, hi⟩ := Option.isSome_iff_exists.1 hin
  obtain ⟨v, hv, _⟩ := (hbm.map id i).1 hi
  have he : engOf back id = some v.eng := by simp [engOf, hi, hv]
  rw [C11_kept hS hw hst hs0 hb hf hc hq he hid hT, he, hed, hset]
  rfl

/-- **C11** (changed and new nodes): a node that was replaced, reset or given a new sample rate since, or that the backend does not have, runs the
unit of the frontend. -/
theorem C11_new [DecidableEq α] {E : Env U α} (hS : E.S.Lawful) {n0 n : NodeId} {f0 base M0 back f f' M : Net U α} {T : NodeId → Prop}
    (hw : WF E.S n0 f0) (hst : Stamped f0) (hs0 : Sent E f0 base M0) (hb : SameNet M0 back) (hf : Since E n0 base n f T)
    (hc : commit E f = some (f', M)) {q : List (Msg U α)} (hq : LastNet q M) {id : NodeId}
    (hid : contains f id = true) (hT : T id ∨ contains back id = false) :
    (∃ e, engOf f' id = some e ∧ engOf (handle E.S back q) id = some (e.enqueueAll E.S (editsOf id M.editQueue))) ∧
    unitOf (handle E.S back q) id = unitOf f' id := by
  obtain ⟨a1, a2, _, a4, _, _, _, _, a9, a10, _⟩ := sent_struct hS hw hs0
  have hi := since_inv hS a1 (stamped_sent hS hw hst hs0) hf
  obtain ⟨b1, b2, b3, b4, b5, b6, _, _, _, _, b11⟩ := sent_struct hS hi.wf (Or.inr hc)
  have hbm : MapOK back := a2.same hb.toSameWiring
  obtain ⟨_, _, _, h⟩ := handle_spec (S := E.S) hbm b2 b3 hq
  obtain ⟨j, hj⟩ := Option.isSome_iff_exists.1 hid
  have hj' : M.nodeIndex.get id = some j := by rw [(b5.trans b4).index]; exact hj
  obtain ⟨v, hv, hvid⟩ := (b2.map id j).1 hj'
  have hfe : engOf f' id = some v.eng := by
    rw [b6] at hv
    simp [engOf, b5.index, hj, hv]
  have key : engOf (handle E.S back q) id = some (v.eng.enqueueAll E.S (editsOf id M.editQueue)) := by
    rw [h id j v hj' hv]
    by_cases hcb : contains back id = true
    · have hT := hT.resolve_right (by rw [hcb]; simp)
      have hcb' : contains base id = true := by
        rw [contains, ← a4.index, ← hb.index]; exact hcb
      have hlt : ¬ v.changed ≤ back.revision := by
        obtain ⟨w, hwm, hwid, hwc⟩ := b11 v (by rw [← b6]; exact List.mem_of_getElem? hv)
        have := (hi.stamp w hwm (by rw [hwid, hvid]; exact hcb')).1 (by rw [hwid, hvid]; exact hT)
        rw [hb.rev, a9, ← hwc]
        omega
      simp only [hlt, if_false]
    · have : engOf back id = none := by
        have : back.nodeIndex.get id = none := by simpa [contains] using hcb
        simp [engOf, this]
      simp only [this]
      split <;> rfl
  refine ⟨⟨v.eng, hfe, key⟩, ?_⟩
  rw [engOf_unit, engOf_unit, key, hfe]
  simp only [Option.map_some, enqueueAll_unit]

/-- **C11** (rounds): the net of the backend stems from the message that was handled last, and stays so while the backend runs: the hypotheses of
the theorems above hold again for the next round. -/
theorem C11_stays [DecidableEq α] {E : Env U α} (hS : E.S.Lawful) (P : Proc U α) {M0 back : Net U α} (h : SameNet M0 back) :
    (∀ x, SameNet M0 (tick E.S E.seed E.hash0 back x).1) ∧
    (∀ size x old tmp, SameNet M0 (process E.S P E.seed E.hash0 back size x old tmp).1) ∧
    SameNet M0 (reset E.S E.seed E.hash0 back) ∧ (∀ r, SameNet M0 (setSampleRate E.S E.seed E.hash0 back r)) ∧
    (∀ q : List (Msg U α), MapOK back → (∀ m ∈ q, ∃ id g, m = .setting id g) → SameNet M0 (handle E.S back q)) := by
  have hr : ∀ net : Net U α, SameNet net (ready E.S E.seed E.hash0 net) := fun net =>
    ⟨ready_sameWiring hS E.seed E.hash0 net, (rest_ready E.S E.seed E.hash0 net).rev⟩
  refine ⟨?_, ?_, ?_, ?_, ?_⟩
  · intro x
    refine (h.trans (hr back)).trans (c := (tick E.S E.seed E.hash0 back x).1) ?_
    obtain ⟨h1, h2⟩ := tickNodes_get (S := E.S) (ready E.S E.seed E.hash0 back).sampleRate x ((ready E.S E.seed E.hash0 back).order.getD []) (ready E.S E.seed E.hash0 back).vertex
    refine ⟨⟨rfl, rfl, rfl, rfl, h1, ?_⟩, rfl⟩
    intro i v w hv hw
    obtain ⟨w', hw', hk⟩ := h2 i v hv
    have : w' = w := Option.some.inj (hw'.symm.trans hw)
    rw [← this]; exact hk.1
  · intro size x old tmp
    refine (h.trans (hr back)).trans (c := (process E.S P E.seed E.hash0 back size x old tmp).1) ?_
    have key : ∀ (is : List Nat) (vs : List (Vertex U α)), (is.foldl (procNode E.S P (ready E.S E.seed E.hash0 back).sampleRate x size tmp) vs).length = vs.length ∧
        ∀ (j : Nat) (v w : Vertex U α), vs[j]? = some v → (is.foldl (procNode E.S P (ready E.S E.seed E.hash0 back).sampleRate x size tmp) vs)[j]? = some w →
          w.id = v.id ∧ w.ins = v.ins ∧ w.outs = v.outs ∧ w.source = v.source := by
      intro is
      induction is with
      | nil => intro vs; exact ⟨rfl, fun j v w hv hw => by rw [List.foldl_nil, hv] at hw; cases hw; exact ⟨rfl, rfl, rfl, rfl⟩⟩
      | cons i is ih =>
        intro vs
        obtain ⟨h1, h2⟩ := ih (procNode E.S P (ready E.S E.seed E.hash0 back).sampleRate x size tmp vs i)
        refine ⟨by rw [List.foldl_cons, h1]; simp [procNode], ?_⟩
        intro j v w hv hw
        rw [List.foldl_cons] at hw
        by_cases hij : i = j
        · have hg : ∃ u, (procNode E.S P (ready E.S E.seed E.hash0 back).sampleRate x size tmp vs i)[j]? = some u ∧
              u.id = v.id ∧ u.ins = v.ins ∧ u.outs = v.outs ∧ u.source = v.source := by
            rw [procNode, List.getElem?_modify, hv]
            simp only [hij, if_true, Option.map_eq_map, Option.map_some, Option.some.injEq, exists_eq_left']
            split <;> exact ⟨rfl, rfl, rfl, rfl⟩
          obtain ⟨u, hu, e1, e2, e3, e4⟩ := hg
          obtain ⟨g1, g2, g3, g4⟩ := h2 j u w hu hw
          exact ⟨g1.trans e1, g2.trans e2, g3.trans e3, g4.trans e4⟩
        · exact h2 j v w (by rw [procNode, List.getElem?_modify, hv]; simp [hij]) hw
    obtain ⟨h1, h2⟩ := key ((ready E.S E.seed E.hash0 back).order.getD []) (ready E.S E.seed E.hash0 back).vertex
    exact ⟨⟨rfl, rfl, rfl, rfl, h1, h2⟩, rfl⟩
  · refine (h.trans (b := back) (c := { back with vertex := back.vertex.map (fun v =>
      { v with eng := { v.eng with unit := E.S.reset v.eng.unit }, changed := back.revision }) }) ?_).trans (hr _)
    refine ⟨⟨rfl, rfl, rfl, rfl, List.length_map _, ?_⟩, rfl⟩
    intro i v w hv hw
    simp only [List.getElem?_map, hv, Option.map_some, Option.some.injEq] at hw
    subst hw; exact ⟨rfl, rfl, rfl, rfl⟩
  · intro r
    unfold setSampleRate
    split
    · exact h
    · refine (h.trans (b := back) (c := { back with sampleRate := r, vertex := back.vertex.map (fun v =>
        { v with eng := { v.eng with unit := E.S.setSR r v.eng.unit }, changed := back.revision }) }) ?_).trans (hr _)
      refine ⟨⟨rfl, rfl, rfl, rfl, List.length_map _, ?_⟩, rfl⟩
      intro i v w hv hw
      simp only [List.getElem?_map, hv, Option.map_some, Option.some.injEq] at hw
      subst hw; exact ⟨rfl, rfl, rfl, rfl⟩
  · intro q hm hq
    have hlast : ∀ (q : List (Msg U α)), (∀ m ∈ q, ∃ id g, m = .setting id g) → ∀ st : Net U α × Option (Net U α), (q.foldl (recv E.S) st).2 = st.2 := by
      intro q
      induction q with
      | nil => intro _ st; rfl
      | cons m q ih =>
        intro hb st
        obtain ⟨k, f, rfl⟩ := hb m (by simp)
        rw [List.foldl_cons, ih (fun m hm => hb m (by simp [hm]))]
        rfl
    have : handle E.S back q = (q.foldl (recv E.S) (back, none)).1 := by
      simp only [handle, hlast q hq]
    rw [this]
    exact h.trans (recv_spec E.S 0 q (back, none) hm).1

end Fundsp.Net
