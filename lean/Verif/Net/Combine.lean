import Verif.Net.BackendFade

/-!
# C121: combining nets when one of them has a backend

A net that has a backend can be an operand of `>>`, `|`, `^`, `&`, `+`, `-` and `*` (`/repo/src/net.rs:1427-1820`). The combination then is the
frontend of the same backend.
-/
namespace Fundsp.Net
variable {U α : Type}

/-! ## Model -/

/-- `Net::can_pipe`, `can_stack`, `can_branch`, `can_bus`, `can_binary` (`net.rs:1758-1760`, `1511-1513`, `1448-1450`, `1676-1678`, `1572-1574`; `can_sum` and
`can_product`, `1656-1658` and `1666-1668`, call `can_binary`). -/
def Op2.can (a b : Net U α) : Op2 → Bool
  | .pipe => a.outputs == b.inputs
  | .stack => true
  | .branch => a.inputs == b.inputs
  | .bus => a.inputs == b.inputs && a.outputs == b.outputs
  | .binary _ => a.outputs == b.outputs

/-! ## Specification -/

/-- Calls made on the frontend after `base`: edits that do not panic, commits, and combinations with other nets on either side, where the other net
brings no node of `base` that the frontend does not have (left) or none at all (right). `T` collects the nodes whose unit was changed. -/
inductive SinceJoin [DecidableEq α] (E : Env U α) (n0 : NodeId) (base : Net U α) : NodeId → Net U α → (NodeId → Prop) → Prop
  | start : SinceJoin E n0 base n0 base (fun _ => False)
  | later {n m f T} (h : SinceJoin E n0 base n f T) (hm : n ≤ m) : SinceJoin E n0 base m f T
  | edit {n m f f' T} (h : SinceJoin E n0 base n f T) (e : Edit U α) (hr : InRange f e) (he : e.apply E n f = some (f', m)) :
      SinceJoin E n0 base m f' (fun id => T id ∨ Touches f e id)
  | commit {n f f' M T} (h : SinceJoin E n0 base n f T) (hc : commit E f = some (f', M)) : SinceJoin E n0 base n f' T
  | left {n m f g c T} (h : SinceJoin E n0 base n f T) (hf : f.hasBackend = true) (hg : WF E.S n g) (o : Op2)
      (hd : ∀ id, contains base id = true → contains g id = true → contains f id = true) (ha : o.apply E f g n = some (c, m)) :
      SinceJoin E n0 base m c T
  | right {n m f g c T} (h : SinceJoin E n0 base n f T) (hf : f.hasBackend = true) (hg : WF E.S n g) (o : Op2)
      (hd : ∀ id, contains base id = true → contains g id = false) (ha : o.apply E g f n = some (c, m)) :
      SinceJoin E n0 base m c T

/-! ## Lemmas -/

theorem resolve_isSome (net other : Net U α) : (resolveFrontend net other).isSome = true ↔ ¬(net.hasBackend = true ∧ other.hasBackend = true) := by
  simp only [resolveFrontend]
  cases net.hasBackend <;> cases other.hasBackend <;> simp

theorem pushOps_front (S : Units U α) (op : Op) (off : Nat) : ∀ (k i : Nat) (net : Net U α) (n : NodeId),
    (pushOps S op off i k net n).1.hasBackend = net.hasBackend ∧ (pushOps S op off i k net n).1.editQueue = net.editQueue ∧
    (pushOps S op off i k net n).1.backendInputs = net.backendInputs ∧ (pushOps S op off i k net n).1.backendOutputs = net.backendOutputs ∧
    (pushOps S op off i k net n).1.revision = net.revision ∧
    ∀ w ∈ (pushOps S op off i k net n).1.vertex, w ∈ net.vertex ∨ n ≤ w.id := by
  intro k
  induction k with
  | zero => intro i net n; exact ⟨rfl, rfl, rfl, rfl, rfl, fun w hw => Or.inl hw⟩
  | succ k ih =>
    intro i net n
    obtain ⟨h1, h2, h3, h4, h5, h6⟩ := ih (i + 1) (setOutputEdge (push S net n (S.binop op)) i ⟨.loc (off + i) 0, .glob i⟩) (n + 1)
    refine ⟨h1, h2, h3, h4, h5, fun w hw => ?_⟩
    rcases h6 w hw with h | h
    · have h : w ∈ net.vertex ++ [Vertex.new S n net.vertex.length (S.setSR net.sampleRate (S.binop op))] := h
      rcases List.mem_append.1 h with h | h
      · exact Or.inl h
      · rw [List.mem_singleton.1 h]; exact Or.inr (Nat.le_refl _)
    · exact Or.inr (Nat.le_of_succ_le h)

theorem connectOps_front (off port : Nat) (g : Port → Port) : ∀ (es : List Edge) (i : Nat) (net : Net U α),
    (connectOps off port g i es net).hasBackend = net.hasBackend ∧ (connectOps off port g i es net).editQueue = net.editQueue ∧
    (connectOps off port g i es net).backendInputs = net.backendInputs ∧ (connectOps off port g i es net).backendOutputs = net.backendOutputs ∧
    (connectOps off port g i es net).revision = net.revision ∧ Keep net.vertex (connectOps off port g i es net).vertex := by
  intro es
  induction es with
  | nil => intro i net; exact ⟨rfl, rfl, rfl, rfl, rfl, Keep.refl _⟩
  | cons e es ih =>
    intro i net
    have key : ∀ p, Keep net.vertex (setVertexEdge net (off + i) port p).vertex := by
      intro p w hw
      obtain ⟨j, hj⟩ := List.getElem?_of_mem hw
      simp only [setVertexEdge, List.getElem?_modify] at hj
      cases hv : net.vertex[j]? with
      | none => rw [hv] at hj; simp at hj
      | some v =>
        rw [hv] at hj
        simp only [Option.map_eq_map, Option.map_some, Option.some.injEq] at hj
        refine ⟨v, List.mem_of_getElem? hv, ?_⟩
        rw [← hj]
        split <;> exact ⟨rfl, rfl⟩
    simp only [connectOps]
    split
    · exact ih (i + 1) net
    · obtain ⟨h1, h2, h3, h4, h5, h6⟩ := ih (i + 1) (setVertexEdge net (off + i) port ⟨g e.source, .loc (off + i) port⟩)
      exact ⟨h1, h2, h3, h4, h5, (key _).trans h6⟩

/-- Every operator is a common part followed by `resolve_frontend`. -/
theorem op2_form (E : Env U α) (a b : Net U α) (n : NodeId) (o : Op2) (h : o.can a b = true) : ∃ (net : Net U α) (m : NodeId),
    o.apply E a b n = (resolveFrontend net (disambiguate b a n).1).map (fun c => (c, m)) ∧
    net.hasBackend = a.hasBackend ∧ net.editQueue = a.editQueue ∧ net.backendInputs = a.backendInputs ∧
    net.backendOutputs = a.backendOutputs ∧ net.revision = a.revision ∧
    ∃ g, ∀ w ∈ net.vertex, (∃ v ∈ (appendVertices a (disambiguate b a n).1 g).vertex, v.id = w.id ∧ v.changed = w.changed) ∨ (disambiguate b a n).2 ≤ w.id := by
  have ops : ∀ (op : Op) (g : Nat → Port) (net0 : Net U α), net0.vertex = (appendVertices a (disambiguate b a n).1 g).vertex →
      ∀ w ∈ (connectOps net0.vertex.length 1 (shiftPort a.vertex.length g) 0 (disambiguate b a n).1.outputEdge
        (connectOps net0.vertex.length 0 id 0 a.outputEdge (pushOps E.S op net0.vertex.length 0 a.outputs net0 (disambiguate b a n).2).1)).vertex,
      (∃ v ∈ (appendVertices a (disambiguate b a n).1 g).vertex, v.id = w.id ∧ v.changed = w.changed) ∨ (disambiguate b a n).2 ≤ w.id := by
    intro op g net0 h0 w hw
    obtain ⟨v, hv, h1, h2⟩ := ((connectOps_front _ _ _ _ _ _).2.2.2.2.2.trans (connectOps_front _ _ _ _ _ _).2.2.2.2.2) w hw
    rcases (pushOps_front E.S op _ _ _ net0 _).2.2.2.2.2 v hv with h | h
    · exact Or.inl ⟨v, h0 ▸ h, h1, h2⟩
    · exact Or.inr (h1 ▸ h)
  cases o with
  | pipe =>
    have q : a.outputs = b.inputs := by simpa [Op2.can] using h
    simp only [Op2.apply, pipe, q, ne_eq, not_true_eq_false, if_false]
    exact ⟨_, _, rfl, rfl, rfl, rfl, rfl, rfl, _, fun w hw => Or.inl ⟨w, hw, rfl, rfl⟩⟩
  | stack =>
    exact ⟨_, _, rfl, rfl, rfl, rfl, rfl, rfl, _, fun w hw => Or.inl ⟨w, hw, rfl, rfl⟩⟩
  | branch =>
    have q : a.inputs = b.inputs := by simpa [Op2.can] using h
    simp only [Op2.apply, branch, q, ne_eq, not_true_eq_false, if_false]
    exact ⟨_, _, rfl, rfl, rfl, rfl, rfl, rfl, _, fun w hw => Or.inl ⟨w, hw, rfl, rfl⟩⟩
  | bus =>
    have q : a.inputs = b.inputs ∧ a.outputs = b.outputs := by simpa [Op2.can] using h
    have qi := q.1
    have qo := q.2
    simp only [Op2.apply, bus, ne_eq]
    rw [if_neg (not_not.2 qi), if_neg (not_not.2 qo)]
    refine ⟨_, _, rfl, ?_, ?_, ?_, ?_, ?_, _, ops .add .glob _ rfl⟩
    · rw [(connectOps_front _ _ _ _ _ _).1, (connectOps_front _ _ _ _ _ _).1, (pushOps_front _ _ _ _ _ _ _).1]; rfl
    · rw [(connectOps_front _ _ _ _ _ _).2.1, (connectOps_front _ _ _ _ _ _).2.1, (pushOps_front _ _ _ _ _ _ _).2.1]; rfl
    · rw [(connectOps_front _ _ _ _ _ _).2.2.1, (connectOps_front _ _ _ _ _ _).2.2.1, (pushOps_front _ _ _ _ _ _ _).2.2.1]; rfl
    · rw [(connectOps_front _ _ _ _ _ _).2.2.2.1, (connectOps_front _ _ _ _ _ _).2.2.2.1, (pushOps_front _ _ _ _ _ _ _).2.2.2.1]; rfl
    · rw [(connectOps_front _ _ _ _ _ _).2.2.2.2.1, (connectOps_front _ _ _ _ _ _).2.2.2.2.1, (pushOps_front _ _ _ _ _ _ _).2.2.2.2.1]; rfl
  | binary op =>
    have qo : a.outputs = b.outputs := by simpa [Op2.can] using h
    simp only [Op2.apply, binary, ne_eq]
    rw [if_neg (not_not.2 qo)]
    refine ⟨_, _, rfl, ?_, ?_, ?_, ?_, ?_, (fun p => .glob (p + a.inputs)), ops op (fun p => .glob (p + a.inputs))
      { appendVertices a (disambiguate b a n).1 (fun p => .glob (p + a.inputs)) with inputs := a.inputs + (disambiguate b a n).1.inputs } rfl⟩
    · rw [(connectOps_front _ _ _ _ _ _).1, (connectOps_front _ _ _ _ _ _).1, (pushOps_front _ _ _ _ _ _ _).1]; rfl
    · rw [(connectOps_front _ _ _ _ _ _).2.1, (connectOps_front _ _ _ _ _ _).2.1, (pushOps_front _ _ _ _ _ _ _).2.1]; rfl
    · rw [(connectOps_front _ _ _ _ _ _).2.2.1, (connectOps_front _ _ _ _ _ _).2.2.1, (pushOps_front _ _ _ _ _ _ _).2.2.1]; rfl
    · rw [(connectOps_front _ _ _ _ _ _).2.2.2.1, (connectOps_front _ _ _ _ _ _).2.2.2.1, (pushOps_front _ _ _ _ _ _ _).2.2.2.1]; rfl
    · rw [(connectOps_front _ _ _ _ _ _).2.2.2.2.1, (connectOps_front _ _ _ _ _ _).2.2.2.2.1, (pushOps_front _ _ _ _ _ _ _).2.2.2.2.1]; rfl

theorem op2_can (E : Env U α) {a b : Net U α} {n : NodeId} {o : Op2} (h : (o.apply E a b n).isSome = true) : o.can a b = true := by
  cases o with
  | stack => rfl
  | pipe =>
    by_contra hc
    have q : ¬ a.outputs = b.inputs := by simpa [Op2.can] using hc
    simp [Op2.apply, pipe, q] at h
  | branch =>
    by_contra hc
    have q : ¬ a.inputs = b.inputs := by simpa [Op2.can] using hc
    simp [Op2.apply, branch, q] at h
  | binary op =>
    by_contra hc
    have q : ¬ a.outputs = b.outputs := by simpa [Op2.can] using hc
    simp [Op2.apply, binary, q] at h
  | bus =>
    by_contra hc
    by_cases qi : a.inputs = b.inputs
    · have q : ¬ a.outputs = b.outputs := by simpa [Op2.can, qi] using hc
      simp [Op2.apply, bus, q] at h
    · simp [Op2.apply, bus, qi] at h

/-! ## C121 -/

/-- **C121** (accepted combinations): unless both operands have a backend, an operator is accepted exactly if the predicate of the API says so. With two
backends every operator panics. -/
theorem C121_can_partial (E : Env U α) (a b : Net U α) (n : NodeId) (o : Op2) :
    (o.apply E a b n).isSome = true ↔ o.can a b = true ∧ ¬(a.hasBackend = true ∧ b.hasBackend = true) := by
  constructor
  · intro h
    have hc := op2_can E h
    obtain ⟨net, m, h1, h2, _⟩ := op2_form E a b n o hc
    rw [h1, Option.isSome_map, resolve_isSome, h2] at h
    exact ⟨hc, h⟩
  · rintro ⟨hc, h⟩
    obtain ⟨net, m, h1, h2, _⟩ := op2_form E a b n o hc
    rw [h1, Option.isSome_map, resolve_isSome, h2]
    exact h

/-- **C121** (the backend is taken over): the combination has a backend exactly if an operand has; then it has the queued edits, the arity of the backend and
the revision of that operand. -/
theorem C121_takes {E : Env U α} {a b c : Net U α} {n m : NodeId} {o : Op2} (h : o.apply E a b n = some (c, m)) :
    c.hasBackend = (a.hasBackend || b.hasBackend) ∧
    (a.hasBackend = true → c.editQueue = a.editQueue ∧ c.backendInputs = a.backendInputs ∧ c.backendOutputs = a.backendOutputs ∧ c.revision = a.revision) ∧
    (b.hasBackend = true → c.editQueue = b.editQueue ∧ c.backendInputs = b.backendInputs ∧ c.backendOutputs = b.backendOutputs ∧ c.revision = b.revision) := by
  obtain ⟨net, m', h1, h2, h3, h4, h5, h6, _⟩ := op2_form E a b n o (op2_can E (by rw [h]; rfl))
  rw [h1, Option.map_eq_some_iff] at h
  obtain ⟨x, hx, he⟩ := h
  cases he
  have hb : (disambiguate b a n).1.hasBackend = b.hasBackend := rfl
  simp only [resolveFrontend, hb, h2] at hx
  cases ha : a.hasBackend <;> cases hb' : b.hasBackend <;> rw [ha, hb'] at hx <;> simp at hx <;> subst hx
  · exact ⟨h2.trans ha, fun c => (by cases c), fun c => (by cases c)⟩
  · exact ⟨rfl, fun c => (by cases c), fun _ => ⟨rfl, rfl, rfl, rfl⟩⟩
  · exact ⟨h2.trans ha, fun _ => ⟨h3, h4, h5, h6⟩, fun c => (by cases c)⟩

/-- **C121** (when the combination can be committed): exactly if it has the arity that the operand had when its backend was made. -/
theorem C121_commit {E : Env U α} {f g c : Net U α} {n m : NodeId} {o : Op2} (hf : f.hasBackend = true)
    (h : o.apply E f g n = some (c, m) ∨ o.apply E g f n = some (c, m)) :
    (commit E c).isSome = true ↔ c.inputs = f.backendInputs ∧ c.outputs = f.backendOutputs := by
  rw [C11_accepts]
  rcases h with h | h
  · obtain ⟨h1, h2, _⟩ := C121_takes h
    obtain ⟨_, h3, h4, _⟩ := h2 hf
    rw [h1, h3, h4, hf]; simp
  · obtain ⟨h1, _, h2⟩ := C121_takes h
    obtain ⟨_, h3, h4, _⟩ := h2 hf
    rw [h1, h3, h4, hf]; simp

/-- Where the nodes of a combination come from. -/
theorem op2_came {E : Env U α} {a b c : Net U α} {n m : NodeId} {o : Op2} (ha : WF E.S n a) (hb : WF E.S n b) (h : o.apply E a b n = some (c, m)) :
    ∀ w ∈ c.vertex, (∃ v ∈ a.vertex, v.id = w.id ∧ v.changed = w.changed) ∨
      (∃ v ∈ b.vertex, v.id = w.id ∧ v.changed = w.changed ∧ contains a v.id = false) ∨ n ≤ w.id := by
  obtain ⟨net, m', h1, _, _, _, _, _, g, h7⟩ := op2_form E a b n o (op2_can E (by rw [h]; rfl))
  rw [h1, Option.map_eq_some_iff] at h
  obtain ⟨x, hx, he⟩ := h
  cases he
  have hd := disamb hb ha
  intro w hw
  rw [(resolveFrontend_same hx).1] at hw
  rcases h7 w hw with ⟨v, hv, e1, e2⟩ | h
  · rw [← e1, ← e2]
    simp only [appendVertices, List.mem_append] at hv
    rcases hv with hv | hv
    · exact Or.inl ⟨v, hv, rfl, rfl⟩
    · obtain ⟨k, hk⟩ := List.getElem?_of_mem hv
      rw [List.getElem?_mapIdx] at hk
      have hkl : k < (disambiguate b a n).1.vertex.length := by
        by_contra hc
        rw [List.getElem?_eq_none (by omega)] at hk
        cases hk
      rw [hd.len] at hkl
      obtain ⟨id', g1, g2, g3⟩ := hd.node k _ (List.getElem?_eq_getElem hkl)
      rw [g1] at hk
      simp only [Option.map_some, Option.some.injEq] at hk
      rw [← hk]
      cases hc : a.nodeIndex.get b.vertex[k].id with
      | none => exact Or.inr (Or.inl ⟨_, List.getElem_mem hkl, (g2 hc).symm, rfl, by simp [contains, hc]⟩)
      | some j => exact Or.inr (Or.inr (g3 (by rw [hc]; rfl)))
  · exact Or.inr (Or.inr (Nat.le_trans hd.le h))

theorem contains_of_mem {S : Units U α} {n : NodeId} {net : Net U α} (hw : WF S n net) {v : Vertex U α} (hv : v ∈ net.vertex) : contains net v.id = true := by
  obtain ⟨i, hi⟩ := List.getElem?_of_mem hv
  have := (hw.valid.map v.id i).2 ⟨v, hi, rfl⟩
  simp only [contains, this]; rfl

theorem sinceJoin_inv [DecidableEq α] {E : Env U α} (hS : E.S.Lawful) {n0 : NodeId} {base : Net U α} (hw : WF E.S n0 base)
    (hb : ∀ v ∈ base.vertex, v.changed < base.revision) {n : NodeId} {f : Net U α} {T : NodeId → Prop} (h : SinceJoin E n0 base n f T) :
    SinceInv E base n f T := by
  induction h with
  | start => exact since_inv hS hw hb .start
  | later _ hm ih => exact ⟨ih.wf.mono hm, fun i v hv => Nat.lt_of_lt_of_le (ih.below i v hv) hm, ih.rev, ih.stamp⟩
  | @edit n m f f' T _ e hr he ih =>
    have hst := stamp_edit ih.wf.valid e he
    obtain ⟨hw', hnm⟩ := wf_edit hS ih.wf e hr he
    refine ⟨hw', fun i v hv => Nat.lt_of_lt_of_le (ih.below i v hv) hnm, by rw [hst.rev]; exact ih.rev, ?_⟩
    intro w hwm hc
    rcases hst.node w hwm with ⟨h1, h2, h3⟩ | ⟨v, hv, h1, h2⟩
    · exact absurd (contains_lt hw ih.below hc) (by rw [h1]; exact Nat.lt_irrefl _)
    · have ihv := ih.stamp v hv (by rw [h1]; exact hc)
      rw [h1] at ihv
      rcases h2 with ⟨ht, h2⟩ | ⟨ht, h2⟩
      · refine ⟨fun _ => by rw [h2]; exact ih.rev, fun c => absurd (Or.inr ht) c⟩
      · rw [h2]
        exact ⟨fun c => ihv.1 (c.resolve_right ht), fun c => ihv.2 (fun d => c (Or.inl d))⟩
  | @commit n f f' M T _ hc ih =>
    obtain ⟨h1, _, _, _, _, _, _, _, _, h9, h10⟩ := sent_struct hS ih.wf (Or.inr hc)
    refine ⟨h1, ih.below, by rw [h9]; exact Nat.le_succ_of_le ih.rev, ?_⟩
    intro w hwm hc
    obtain ⟨v, hv, hid, hch⟩ := h10 w hwm
    rw [← hid, ← hch]
    exact ih.stamp v hv (by rw [hid]; exact hc)
  | @left n m f g c T _ hf hg o hd ha ih =>
    obtain ⟨hw', hnm⟩ := wf_op2 hS ih.wf hg o ha
    refine ⟨hw', fun i v hv => Nat.lt_of_lt_of_le (ih.below i v hv) hnm, ?_, ?_⟩
    · rw [((C121_takes ha).2.1 hf).2.2.2]; exact ih.rev
    · intro w hwm hc
      rcases op2_came ih.wf hg ha w hwm with ⟨v, hv, h1, h2⟩ | ⟨v, hv, h1, h2, h3⟩ | h
      · rw [← h1, ← h2]; exact ih.stamp v hv (by rw [h1]; exact hc)
      · have := hd v.id (by rw [h1]; exact hc) (contains_of_mem hg hv)
        rw [this] at h3; cases h3
      · exact absurd (contains_lt hw ih.below hc) (by omega)
  | @right n m f g c T _ hf hg o hd ha ih =>
    obtain ⟨hw', hnm⟩ := wf_op2 hS hg ih.wf o ha
    refine ⟨hw', fun i v hv => Nat.lt_of_lt_of_le (ih.below i v hv) hnm, ?_, ?_⟩
    · rw [((C121_takes ha).2.2 hf).2.2.2]; exact ih.rev
    · intro w hwm hc
      rcases op2_came hg ih.wf ha w hwm with ⟨v, hv, h1, h2⟩ | ⟨v, hv, h1, h2, h3⟩ | h
      · have := hd v.id (by rw [h1]; exact hc)
        rw [contains_of_mem hg hv] at this; cases this
      · rw [← h1, ← h2]; exact ih.stamp v hv (by rw [h1]; exact hc)
      · exact absurd (contains_lt hw ih.below hc) (by omega)

/-- **C121** (units are carried over): the nodes of the left operand keep their ids and units, and so do the nodes of the right operand whose ids the left
operand does not use. -/
theorem C121_nodes {E : Env U α} (hS : E.S.Lawful) {a b c : Net U α} {n m : NodeId} {o : Op2} (ha : WF E.S n a) (hb : WF E.S n b)
    (h : o.apply E a b n = some (c, m)) :
    (∀ id, contains a id = true → engOf c id = engOf a id) ∧
    (∀ id, contains a id = false → contains b id = true → engOf c id = engOf b id) := by
  have hc := (wf_op2 hS ha hb o h).1
  have hj : ∃ g, Joined E.S a b c g := by
    cases o with
    | pipe => exact ⟨_, (pipe_struct ha hb h).2.1⟩
    | stack => exact ⟨_, (stack_struct ha hb h).1⟩
    | branch => exact ⟨_, (branch_struct ha hb h).2.1⟩
    | bus => exact ⟨_, (bus_struct hS ha hb h).2.2.1⟩
    | binary op => exact ⟨_, (binary_struct hS ha hb h).2.1⟩
  obtain ⟨g, hj⟩ := hj
  constructor
  · intro id hid
    obtain ⟨i, hi⟩ := Option.isSome_iff_exists.1 hid
    obtain ⟨v, hv, hvid⟩ := (ha.valid.map id i).1 hi
    have hv' := hj.left i v hv
    have hi' := (hc.valid.map id i).2 ⟨v, hv', hvid⟩
    simp [engOf, hi, hi', hv, hv']
  · intro id hn hid
    obtain ⟨i, hi⟩ := Option.isSome_iff_exists.1 hid
    obtain ⟨v, hv, hvid⟩ := (hb.valid.map id i).1 hi
    obtain ⟨id', hv', hid'⟩ := hj.right i v hv
    have hn' : a.nodeIndex.get id = none := by simpa [contains] using hn
    have : id' = id := by rw [hid' (by rw [hvid]; exact hn'), hvid]
    subst this
    have hi' := (hc.valid.map id' _).2 ⟨_, hv', rfl⟩
    simp [engOf, hi, hi', hv, hv', Vertex.shift]

/-- **C121** (running state is kept): whatever the frontend has been combined with since, a node that the backend has and that was not replaced, reset or
given a new sample rate keeps its state when the combination is committed; the settings and crossfades in the queue reach it in order.
Missing: other operands that bring nodes of the backend back (`C121_violation_clone`). -/
theorem C121_kept_partial [DecidableEq α] {E : Env U α} (hS : E.S.Lawful) {n0 n : NodeId} {f0 base M0 back f f' M : Net U α} {T : NodeId → Prop}
    (hw : WF E.S n0 f0) (hst : Stamped f0) (hs0 : Sent E f0 base M0) (hb : SameNet M0 back) (hf : SinceJoin E n0 base n f T)
    (hc : commit E f = some (f', M)) {q : List (Msg U α)} (hq : LastNet q M) {id : NodeId} {e : Eng U α} (he : engOf back id = some e)
    (hid : contains f id = true) (hT : ¬ T id) :
    engOf (handle E.S back q) id = some { e.enqueueAll E.S (editsIn id q) with unit := settingsIn id q e.unit } := by
  obtain ⟨a1, a2, _, a4, _, _, _, _, a9, a10, _⟩ := sent_struct hS hw hs0
  have hi := sinceJoin_inv hS a1 (stamped_sent hS hw hst hs0) hf
  obtain ⟨_, b2, b3, b4, b5, b6, _, _, _, _, b11⟩ := sent_struct hS hi.wf (Or.inr hc)
  have hbm : MapOK back := a2.same hb.toSameWiring
  obtain ⟨_, _, _, h⟩ := handle_spec (S := E.S) hbm b2 b3 hq
  obtain ⟨j, hj⟩ := Option.isSome_iff_exists.1 hid
  have hj' : M.nodeIndex.get id = some j := by rw [(b5.trans b4).index]; exact hj
  obtain ⟨v, hv, hvid⟩ := (b2.map id j).1 hj'
  rw [h id j v hj' hv]
  have hcb : contains base id = true := by
    obtain ⟨i, _, h1, _, _⟩ := engOf_some he
    rw [hb.index, a4.index] at h1
    simp only [contains, h1]; rfl
  have hlt : v.changed ≤ back.revision := by
    obtain ⟨w, hwm, hwid, hwc⟩ := b11 v (by rw [← b6]; exact List.mem_of_getElem? hv)
    have := (hi.stamp w hwm (by rw [hwid, hvid]; exact hcb)).2 (by rw [hwid, hvid]; exact hT)
    rw [hb.rev, a9, ← hwc]
    omega
  simp only [hlt, if_true, he]

/-- **C121** (changed nodes and nodes of the other operand): a node that was replaced, reset or given a new sample rate since, or that the backend does not
have, runs the unit of the combination (`C121_nodes`). Missing: other operands that bring nodes of the backend back (`C121_violation_clone`). -/
theorem C121_new_partial [DecidableEq α] {E : Env U α} (hS : E.S.Lawful) {n0 n : NodeId} {f0 base M0 back f f' M : Net U α} {T : NodeId → Prop}
    (hw : WF E.S n0 f0) (hst : Stamped f0) (hs0 : Sent E f0 base M0) (hb : SameNet M0 back) (hf : SinceJoin E n0 base n f T)
    (hc : commit E f = some (f', M)) {q : List (Msg U α)} (hq : LastNet q M) {id : NodeId}
    (hid : contains f id = true) (hT : T id ∨ contains back id = false) :
    (∃ e, engOf f' id = some e ∧ engOf (handle E.S back q) id = some (e.enqueueAll E.S (editsOf id M.editQueue))) ∧
    unitOf (handle E.S back q) id = unitOf f' id := by
  obtain ⟨a1, a2, _, a4, _, _, _, _, a9, a10, _⟩ := sent_struct hS hw hs0
  have hi := sinceJoin_inv hS a1 (stamped_sent hS hw hst hs0) hf
  obtain ⟨b1, b2, b3, b4, b5, b6, _, _, _, _, b11⟩ := sent_struct hS hi.wf (Or.inr hc)
  have hbm : MapOK back := a2.same hb.toSameWiring
  obtain ⟨_, _, _, h⟩ := handle_spec (S := E.S) hbm b2 b3 hq
  obtain ⟨j, hj⟩ := Option.isSome_iff_exists.1 hid
  have hj' : M.nodeIndex.get id = some j := by rw [(b5.trans b4).index]; exact hj
  obtain ⟨v, hv, hvid⟩ := (b2.map id j).1 hj'
  have hfe : engOf f' id = some v.eng := by
    rw [b6] at hv
    simp [engOf, b5.index, hj, hv]
  have key : engOf (handle E.S back q) id = some (v.eng.enqueueAll E.S (editsOf id M.editQueue)) := by
    rw [h id j v hj' hv]
    by_cases hcb : contains back id = true
    · have hT := hT.resolve_right (by rw [hcb]; simp)
      have hcb' : contains base id = true := by
        rw [contains, ← a4.index, ← hb.index]; exact hcb
      have hlt : ¬ v.changed ≤ back.revision := by
        obtain ⟨w, hwm, hwid, hwc⟩ := b11 v (by rw [← b6]; exact List.mem_of_getElem? hv)
        have := (hi.stamp w hwm (by rw [hwid, hvid]; exact hcb')).1 (by rw [hwid, hvid]; exact hT)
        rw [hb.rev, a9, ← hwc]
        omega
      simp only [hlt, if_false]
    · have : engOf back id = none := by
        have : back.nodeIndex.get id = none := by simpa [contains] using hcb
        simp [engOf, this]
      simp only [this]
      split <;> rfl
  refine ⟨⟨v.eng, hfe, key⟩, ?_⟩
  rw [engOf_unit, engOf_unit, key, hfe]
  simp only [Option.map_some, enqueueAll_unit]

/-! ## Violations -/

/-- A source of the constant `k`. -/
def constU (k : Int) : DU := ⟨0, 1, k, 0, none⟩

/-- A net with one output that plays the constant `k` from node `n`. -/
def constNet (n : NodeId) (k : Int) : Net DU Int := (wrap demo 1 n (constU k)).getD (new 1 0 1)

/-- **C121** is violated by the code: every predicate says that two nets with a backend can be combined, and every operator panics. -/
theorem C121_violation_two_frontends : ∃ (f g B C : Net DU Int), backend demoEnv (constNet 0 1) = some (f, B) ∧ backend demoEnv (constNet 1 2) = some (g, C) ∧
    ∀ o : Op2, (o = .pipe ∨ o.can f g = true) ∧ ∀ n, o.apply demoEnv f g n = none := by
  refine ⟨_, _, _, _, rfl, rfl, fun o => ⟨?_, fun n => ?_⟩⟩
  · cases o <;> simp [Op2.can] <;> decide
  · rw [← Option.not_isSome_iff_eq_none, C121_can_partial]
    exact fun h => h.2 ⟨rfl, rfl⟩

/-- **C121** is violated by the code: a frontend `f` is cloned, the clone `k` gets the constant 5 in place of 1, and `f` is committed once more. Then the
combination `k & f` is committed. Played by itself the combination gives `5 + 1`; but in the backend the node of the clone runs the old unit and the sum is 2:
the stamp of the clone is not later than the revision of the net in the backend, so the running unit is put in place of the new one. -/
theorem C121_violation_clone : ∃ (f0 f1 f2 k c c' B M1 M2 : Net DU Int) (m m' : NodeId),
    f0 = constNet 0 1 ∧ backend demoEnv f0 = some (f1, B) ∧ runEdits demoEnv 1 (clone f1) [.replace 0 (constU 5)] = some (k, m) ∧
    commit demoEnv f1 = some (f2, M1) ∧ Op2.bus.apply demoEnv k f2 m = some (c, m') ∧ commit demoEnv c = some (c', M2) ∧
    (tick demo demoEnv.seed demoEnv.hash0 c []).2 = [6] ∧
    (tick demo demoEnv.seed demoEnv.hash0 (handle demo (handle demo B [.net M1]) [.net M2]) []).2 = [2] ∧
    unitOf c' 0 = some (constU 5) ∧ unitOf (handle demo (handle demo B [.net M1]) [.net M2]) 0 = some (constU 1) :=
  ⟨_, _, _, _, _, _, _, _, _, _, _, rfl, rfl, rfl, rfl, rfl, rfl, rfl, rfl, rfl, rfl⟩

/-- **C121** is violated by the code: a crossfade that is waiting in the queue of the frontend is found by node id. If the frontend is the right operand and its
ids are in use on the left, its nodes get new ids, and the crossfade reaches the node of the other net instead of the node it was made for. -/
theorem C121_violation_crossfade : ∃ (f0 f1 f2 c c' B M : Net DU Int) (m m' : NodeId),
    f0 = constNet 0 1 ∧ backend demoEnv f0 = some (f1, B) ∧ runEdits demoEnv 1 f1 [.crossfade 0 .power 1 (constU 7)] = some (f2, m) ∧
    Op2.bus.apply demoEnv (clone f1) f2 m = some (c, m') ∧ commit demoEnv c = some (c', M) ∧ m = 1 ∧
    (engOf (handle demo B [.net M]) 0).map (fun e => (e.unit, e.next.unit)) = some (constU 1, some (constU 7)) ∧
    (engOf (handle demo B [.net M]) 1).map (fun e => (e.unit, e.next.unit)) = some (constU 1, none) :=
  ⟨_, _, _, _, _, _, _, _, _, rfl, rfl, rfl, rfl, rfl, rfl, rfl, rfl⟩

/-! ## Non-vacuity -/

/-- A generator that has been running in the backend for two samples keeps its count when a constant is added to the frontend with `&` and the sum is
committed; the constant comes from the other operand. -/
example : ∃ (f0 base f f' M0 M back : Net DU Int) (T : NodeId → Prop), WF demo 1 f0 ∧ Stamped f0 ∧ Sent demoEnv f0 base M0 ∧ SameNet M0 back ∧
    SinceJoin demoEnv 1 base 3 f T ∧ commit demoEnv f = some (f', M) ∧ LastNet [.net M] M ∧ ¬ T 0 ∧ contains f 0 = true ∧ contains back 1 = false ∧
    contains f 1 = true ∧ unitOf back 0 = some { gen1 with k := 3 } ∧ unitOf f 0 = some gen1 ∧
    unitOf (handle demo back [.net M]) 0 = some { gen1 with k := 3 } ∧ unitOf (handle demo back [.net M]) 1 = some (constU 5) := by
  have r0 : Reach demoEnv InRange 0 (new 1 0 1 : Net DU Int) := .new 0 _ 0 1
  have r1 := r0.edit (.push gen1) trivial rfl
  have r2 : Reach demoEnv InRange 1 exF := r1.edit (.pipeOutput 0) trivial rfl
  have s0 : Stamped (new 1 0 1 : Net DU Int) := by intro v hv; cases hv
  have s1 := stamped_edit (r0.wf demo_lawful) s0 (.push gen1) rfl
  have s2 : Stamped exF := stamped_edit (r1.wf demo_lawful) s1 (.pipeOutput 0) rfl
  have b1 := C11_stays (E := demoEnv) demo_lawful (fun u _ _ old => (u, old)) (SameNet.refl exM0)
  have b2 := C11_stays (E := demoEnv) demo_lawful (fun u _ _ old => (u, old)) (b1.1 [])
  have g0 : Reach demoEnv InRange 2 (constNet 1 5) := .wrap (n := 1) (sr := 1) (u := constU 5) rfl
  have h1 := (SinceJoin.start (E := demoEnv) (n0 := 1) (base := exBase)).later (m := 2) (by decide)
  have h2 := h1.left rfl (g0.wf demo_lawful) .bus (by
    intro id h1 h2
    exact h1) rfl
  exact ⟨exF, exBase, _, _, exM0, _, _, _, r2.wf demo_lawful, s2, Or.inl rfl, b2.1 [], h2, rfl, ⟨[], [], rfl, by simp⟩, fun h => h, rfl, rfl, rfl, rfl, rfl, rfl, rfl⟩

end Fundsp.Net
