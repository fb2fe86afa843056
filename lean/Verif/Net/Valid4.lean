import Verif.Net.Valid3

/-! # Well-formed nets, continued: every public operation preserves the invariant -/

namespace Fundsp.Net
variable {U α : Type}

theorem WF.mono {S : Units U α} {n m : NodeId} {net : Net U α} (h : WF S n net) (hm : n ≤ m) : WF S m net :=
  ⟨h.valid, h.noSelf, h.fades, h.below.mono hm⟩

theorem wf_new {S : Units U α} (n : NodeId) (sr : α) (i o : Nat) : WF S n (new sr i o) :=
  ⟨valid_new sr i o, noSelf_new sr i o, by intro i v hv; simp [new] at hv, below_new sr i o n⟩

theorem wf_push {S : Units U α} {n : NodeId} {net : Net U α} (h : WF S n net) (u : U) : WF S (n + 1) (push S net n u) :=
  ⟨valid_push h.valid (h.below.get_none h.valid (Nat.le_refl _)) u, noSelf_push h.noSelf n u, fades_push h.fades n u,
    below_push h.below u⟩

theorem wf_setSource {S : Units U α} {n : NodeId} {net net' : Net U α} (h : WF S n net) {a c s}
    (he : setSource net a c s = some net') : WF S n net' :=
  have hv := valid_setSource h.valid he
  ⟨hv.1, noSelf_setSource h.valid h.noSelf he, h.fades.of_origin (origin_setSource he), h.below.same hv.2⟩

theorem wf_setOutputSource {S : Units U α} {n : NodeId} {net net' : Net U α} (h : WF S n net) {c s}
    (he : setOutputSource net c s = some net') : WF S n net' :=
  have hv := valid_setOutputSource h.valid he
  ⟨hv.1, noSelf_setOutputSource h.noSelf he, h.fades.of_origin (origin_setOutputSource he), h.below.same hv.2⟩

theorem wf_connect {S : Units U α} {n : NodeId} {net net' : Net U α} (h : WF S n net) {s sp t tp}
    (hp : ∀ (i : Nat) (v : Vertex U α), net.nodeIndex.get s = some i → net.vertex[i]? = some v → sp < v.outs)
    (he : connect net s sp t tp = some net') : WF S n net' :=
  have hv := valid_connect h.valid he hp
  ⟨hv.1, noSelf_connect h.valid h.noSelf he, h.fades.of_origin (origin_connect he), h.below.same hv.2⟩

theorem wf_disconnect {S : Units U α} {n : NodeId} {net net' : Net U α} (h : WF S n net) {a p}
    (he : disconnect net a p = some net') : WF S n net' :=
  have hv := valid_disconnect h.valid he
  ⟨hv.1, noSelf_disconnect h.noSelf he, h.fades.of_origin (origin_disconnect he), h.below.same hv.2⟩

theorem wf_connectInput {S : Units U α} {n : NodeId} {net net' : Net U α} (h : WF S n net) {g t tp}
    (hg : g < net.inputs) (he : connectInput net g t tp = some net') : WF S n net' :=
  have hv := valid_connectInput h.valid he hg
  ⟨hv.1, noSelf_connectInput h.noSelf he, h.fades.of_origin (origin_connectInput he), h.below.same hv.2⟩

theorem wf_pipeInput {S : Units U α} {n : NodeId} {net net' : Net U α} (h : WF S n net) {t}
    (he : pipeInput net t = some net') : WF S n net' :=
  have hv := valid_pipeInput h.valid he
  ⟨hv.1, noSelf_pipeInput h.noSelf he, h.fades.of_origin (origin_pipeInput he), h.below.same hv.2⟩

theorem wf_connectOutput {S : Units U α} {n : NodeId} {net net' : Net U α} (h : WF S n net) {s sp g}
    (hp : ∀ (i : Nat) (v : Vertex U α), net.nodeIndex.get s = some i → net.vertex[i]? = some v → sp < v.outs)
    (he : connectOutput net s sp g = some net') : WF S n net' :=
  have hv := valid_connectOutput h.valid he hp
  ⟨hv.1, noSelf_connectOutput h.noSelf he, h.fades.of_origin (origin_connectOutput he), h.below.same hv.2⟩

theorem wf_disconnectOutput {S : Units U α} {n : NodeId} {net net' : Net U α} (h : WF S n net) {c}
    (he : disconnectOutput net c = some net') : WF S n net' :=
  have hv := valid_disconnectOutput h.valid he
  ⟨hv.1, noSelf_disconnectOutput h.noSelf he, h.fades.of_origin (origin_disconnectOutput he), h.below.same hv.2⟩

theorem wf_pipeOutput {S : Units U α} {n : NodeId} {net net' : Net U α} (h : WF S n net) {s}
    (he : pipeOutput net s = some net') : WF S n net' :=
  have hv := valid_pipeOutput h.valid he
  ⟨hv.1, noSelf_pipeOutput h.noSelf he, h.fades.of_origin (origin_pipeOutput he), h.below.same hv.2⟩

theorem wf_passThrough {S : Units U α} {n : NodeId} {net net' : Net U α} (h : WF S n net) {i c}
    (hi : i < net.inputs) (he : passThrough net i c = some net') : WF S n net' :=
  have hv := valid_passThrough h.valid he hi
  ⟨hv.1, noSelf_passThrough h.noSelf he, h.fades.of_origin (origin_passThrough he), h.below.same hv.2⟩

theorem wf_pipeAll {S : Units U α} {n : NodeId} {net net' : Net U α} (h : WF S n net) {s t}
    (he : pipeAll net s t = some net') : WF S n net' :=
  have hv := valid_pipeAll h.valid he
  ⟨hv.1, noSelf_pipeAll h.valid h.noSelf he, h.fades.of_origin (origin_pipeAll he), h.below.same hv.2⟩

theorem wf_replace {S : Units U α} (hS : S.Lawful) {n : NodeId} {net net' : Net U α} (h : WF S n net) {a u u'}
    (he : replace S net a u = some (net', u')) : WF S n net' :=
  have hv := valid_replace hS h.valid he
  ⟨hv.1, noSelf_replace h.noSelf he, fades_replace h.fades he, h.below.same hv.2⟩

theorem wf_crossfade {S : Units U α} (hS : S.Lawful) {n : NodeId} {net net' : Net U α} (h : WF S n net) {a f t u}
    (he : crossfade S net a f t u = some net') : WF S n net' :=
  have hv := valid_crossfade h.valid he
  ⟨hv.1, noSelf_crossfade h.noSelf he, fades_crossfade hS h.fades he, h.below.same hv.2⟩

theorem wf_fadeIn {S : Units U α} (hS : S.Lawful) {n : NodeId} {net net' : Net U α} (h : WF S n net) {f t u}
    (he : fadeIn S net n f t u = some net') : WF S (n + 1) net' :=
  wf_crossfade hS (wf_push h _) he

theorem wf_chain {S : Units U α} {n : NodeId} {net net' : Net U α} (h : WF S n net) {u}
    (he : chain S net n u = some net') : WF S (n + 1) net' :=
  have hv := valid_chain h.valid h.noSelf (h.below.get_none h.valid (Nat.le_refl _)) he
  ⟨hv.1, hv.2.1, fades_chain h.fades he, (below_push (S := S) h.below u).same hv.2.2⟩

theorem wf_remove {S : Units U α} {n : NodeId} {net net' : Net U α} (h : WF S n net) {a u}
    (he : remove2 net a false = some (net', u)) : WF S n net' := by
  obtain ⟨ni, v, r⟩ := removed_of_remove2 h.valid he
  exact ⟨valid_removed h.valid r (by intro h; cases h), noSelf_removed h.valid h.noSelf r (by intro h; cases h),
    fades_removed h.valid h.fades r, below_removed h.valid r h.below⟩

theorem wf_removeLink {S : Units U α} {n : NodeId} {net net' : Net U α} (h : WF S n net) {a u}
    (h2 : ∀ (i : Nat) (v : Vertex U α), net.nodeIndex.get a = some i → net.vertex[i]? = some v → NoTwoCycle net i v)
    (he : remove2 net a true = some (net', u)) : WF S n net' := by
  obtain ⟨ni, v, r⟩ := removed_of_remove2 h.valid he
  exact ⟨valid_removed h.valid r (fun _ c e q => h.noSelf ni v c e q r.vertex),
    noSelf_removed h.valid h.noSelf r (fun _ => h2 ni v r.index r.vertex),
    fades_removed h.valid h.fades r, below_removed h.valid r h.below⟩

/-- Only output edges and global channel counts change; global inputs may only be added. -/
theorem wf_outputs {S : Units U α} {n : NodeId} {a b : Net U α} (h : WF S n a) (hv : b.vertex = a.vertex)
    (hx : b.nodeIndex = a.nodeIndex) (hin : b.inputs = a.inputs) (hlen : b.outputEdge.length = b.outputs)
    (hoe : ∀ (c : Nat) (e : Edge), b.outputEdge[c]? = some e → e.target = .glob c ∧ PortOK b e.source) : WF S n b := by
  have hs : SameNodes S a b := ⟨hin, by rw [hv], fun i v w h1 h2 => by
    rw [hv, h1] at h2; cases h2; exact ⟨rfl, rfl, rfl, rfl, rfl, rfl⟩, hx⟩
  refine ⟨h.valid.rewire hs hlen ?_ ?_, ?_, ?_, ?_⟩
  · intro c e he; exact ⟨(hoe c e he).1, (hs.portOK _).1 (hoe c e he).2⟩
  · rw [hv]; exact h.valid.edge
  · unfold NoSelf; rw [hv]; exact h.noSelf
  · unfold Fades; rw [hv]; exact h.fades
  · unfold Below; rw [hv]; exact h.below

theorem wf_thru {S : Units U α} {n : NodeId} {net : Net U α} (h : WF S n net) : WF S n (thru net) := by
  refine wf_outputs (b := thru net) h rfl rfl rfl ?_ ?_
  · simp only [thru, List.length_append, List.length_take, List.length_map, List.length_range]; omega
  · intro c e he
    simp only [thru] at he
    rcases Nat.lt_or_ge c (net.outputEdge.take net.inputs).length with hc | hc
    · rw [List.getElem?_append_left hc] at he
      have := List.getElem?_take (l := net.outputEdge) (i := net.inputs) (j := c)
      rw [this] at he
      split at he
      · exact h.valid.oe c e he
      · cases he
    · rw [List.getElem?_append_right hc, List.getElem?_map, Option.map_eq_some_iff] at he
      obtain ⟨k, hk, rfl⟩ := he
      have hk' := (List.getElem?_eq_some_iff.1 hk).1
      rw [List.getElem?_range (by simpa using hk')] at hk
      cases hk
      simp only [List.length_take, List.length_range] at hk' hc ⊢
      have hm : min net.inputs net.outputEdge.length = net.outputEdge.length := by omega
      rw [hm] at hk' hc ⊢
      have hc2 : net.outputEdge.length + (c - net.outputEdge.length) = c := by omega
      rw [hc2]
      exact ⟨rfl, show c < net.inputs by omega⟩

theorem wf_resolveFrontend {S : Units U α} {n : NodeId} {net other net' : Net U α} (h : WF S n net)
    (he : resolveFrontend net other = some net') : WF S n net' := by
  simp only [resolveFrontend] at he
  split at he
  · cases he
  · split at he
    · cases he
      exact wf_outputs h rfl rfl rfl h.valid.oeLen (fun c e he => h.valid.oe c e he)
    · cases he; exact h

/-- Output edges of a joined net. -/
theorem join_oe {S : Units U α} {n1 n2 : NodeId} {net1 net2 : Net U α} (h1 : WF S n1 net1) (h2 : WF S n2 net2)
    {g : Nat → Port} {res : Net U α} {c : Nat} {e : Edge}
    (he : res.outputEdge[c]? = some e) (hvert : res.vertex = (appendVertices net1 net2 g).vertex)
    (hin : net1.inputs ≤ res.inputs) (hg : ∀ p, p < net2.inputs → PortOK res (g p))
    (hoe : res.outputEdge = net1.outputEdge ++ net2.outputEdge.mapIdx (fun i e =>
        ⟨shiftPort net1.vertex.length g e.source, .glob (net1.outputs + i)⟩)) : e.target = .glob c ∧ PortOK res e.source := by
  rw [hoe] at he
  rcases Nat.lt_or_ge c net1.outputEdge.length with hc | hc
  · rw [List.getElem?_append_left hc] at he
    exact ⟨(h1.valid.oe c e he).1, portOK_left hvert hin (h1.valid.oe c e he).2⟩
  · rw [List.getElem?_append_right hc, List.getElem?_mapIdx, Option.map_eq_some_iff] at he
    obtain ⟨e0, h0, rfl⟩ := he
    refine ⟨?_, portOK_right hvert hg (h2.valid.oe _ e0 h0).2⟩
    have := h1.valid.oeLen
    simp only; congr 1; omega

theorem wf_branch {S : Units U α} {n m : NodeId} {a b c : Net U α} (ha : WF S n a) (hb : WF S n b)
    (he : branch a b n = some (c, m)) : WF S m c ∧ n ≤ m := by
  simp only [branch] at he
  split at he
  · cases he
  · rename_i hin
    simp only [Option.map_eq_some_iff] at he
    obtain ⟨x, hx, he⟩ := he
    have d := disamb hb ha
    cases he
    refine ⟨wf_resolveFrontend ?_ hx, d.le⟩
    refine wf_join ha d.wf d.le (Nat.le_refl _) d.disjoint .glob _ rfl rfl (Nat.le_refl _)
      ?_ ?_ ?_ ?_
    · intro p hp
      show p < a.inputs
      rw [d.inputs] at hp; simp at hin; omega
    · intro p j q _ h; exact Port.noConfusion h
    · simp [ha.valid.oeLen, d.wf.valid.oeLen]
    · intro c e he
      refine join_oe ha d.wf (g := .glob) he rfl (Nat.le_refl _) ?_ rfl
      intro p hp
      show p < a.inputs
      rw [d.inputs] at hp; simp at hin; omega

theorem wf_stack {S : Units U α} {n m : NodeId} {a b c : Net U α} (ha : WF S n a) (hb : WF S n b)
    (he : stack a b n = some (c, m)) : WF S m c ∧ n ≤ m := by
  simp only [stack, Option.map_eq_some_iff] at he
  obtain ⟨x, hx, he⟩ := he
  have d := disamb hb ha
  cases he
  refine ⟨wf_resolveFrontend ?_ hx, d.le⟩
  refine wf_join ha d.wf d.le (Nat.le_refl _) d.disjoint (fun p => .glob (p + a.inputs)) _ rfl rfl
    (Nat.le_add_right _ _) ?_ ?_ ?_ ?_
  · intro p hp
    show p + a.inputs < a.inputs + _
    omega
  · intro p j q _ h; exact Port.noConfusion h
  · simp [ha.valid.oeLen, d.wf.valid.oeLen]
  · intro c e he
    refine join_oe ha d.wf (g := fun p => .glob (p + a.inputs)) he rfl (Nat.le_add_right _ _) ?_ rfl
    intro p hp
    show p + a.inputs < a.inputs + _
    omega

theorem wf_pipe {S : Units U α} {n m : NodeId} {a b c : Net U α} (ha : WF S n a) (hb : WF S n b)
    (he : pipe a b n = some (c, m)) : WF S m c ∧ n ≤ m := by
  simp only [pipe] at he
  split at he
  · cases he
  · rename_i hin
    simp only [Option.map_eq_some_iff] at he
    obtain ⟨x, hx, he⟩ := he
    have d := disamb hb ha
    cases he
    have hg : ∀ (res : Net U α) (p : Nat), res.vertex = (appendVertices a (disambiguate b a n).1
          (fun p => ((a.outputEdge[p]?).map Edge.source).getD .zero)).vertex → a.inputs ≤ res.inputs →
        PortOK res (((a.outputEdge[p]?).map Edge.source).getD .zero) := by
      intro res p hres hi
      cases ho : a.outputEdge[p]? with
      | none => trivial
      | some e => exact portOK_left hres hi (ha.valid.oe p e ho).2
    refine ⟨wf_resolveFrontend ?_ hx, d.le⟩
    refine wf_join ha d.wf d.le (Nat.le_refl _) d.disjoint
      (fun p => ((a.outputEdge[p]?).map Edge.source).getD .zero) _ rfl rfl (Nat.le_refl _)
      ?_ ?_ ?_ ?_
    · exact fun p _ => hg _ p rfl (Nat.le_refl _)
    · intro p j q hp h
      cases ho : a.outputEdge[p]? with
      | none => simp [ho] at h
      | some e =>
        simp [ho] at h
        have := (ha.valid.oe p e ho).2
        rw [h] at this
        obtain ⟨w, hw, _⟩ := this
        exact (List.getElem?_eq_some_iff.1 hw).1
    · simp [d.wf.valid.oeLen]
    · intro c e he
      simp only [List.getElem?_mapIdx, Option.map_eq_some_iff] at he
      obtain ⟨e0, h0, rfl⟩ := he
      have h1 := d.wf.valid.oe c e0 h0
      have h2 := fun (res : Net U α) (hv : res.vertex = _) (hi : a.inputs ≤ res.inputs) => portOK_right (net1 := a) (res := res) hv (fun p _ => hg res p hv hi) h1.2
      split
      · rename_i hz
        refine ⟨h1.1, ?_⟩
        rw [hz]; trivial
      · exact ⟨rfl, h2 _ rfl (Nat.le_refl _)⟩

theorem sameNodes_trans {S : Units U α} {a b c : Net U α} (h : SameNodes S a b) (h' : SameNodes S b c) :
    SameNodes S a c := by
  refine ⟨h'.inputs.trans h.inputs, h'.len.trans h.len, ?_, h'.index.trans h.index⟩
  intro i v w hv hw
  obtain ⟨x, hx⟩ := h'.find hw
  have a := h.node i v x hv hx
  have b := h'.node i x w hx hw
  exact ⟨b.1.trans a.1, b.2.1.trans a.2.1, b.2.2.1.trans a.2.2.1, b.2.2.2.1.trans a.2.2.2.1,
    b.2.2.2.2.1.trans a.2.2.2.2.1, b.2.2.2.2.2.trans a.2.2.2.2.2⟩

/-- `push` + `output_edge[i] = ...` repeated. -/
theorem wf_pushOps {S : Units U α} (hS : S.Lawful) {op : Op} {addOffset : Nat} (k : Nat) {i : Nat} {n : NodeId} {net : Net U α}
    (h : WF S n net) (hl : net.vertex.length = addOffset + i) (ho : i + k ≤ net.outputs) :
    WF S (pushOps S op addOffset i k net n).2 (pushOps S op addOffset i k net n).1 ∧
    (pushOps S op addOffset i k net n).2 = n + k ∧
    (pushOps S op addOffset i k net n).1.inputs = net.inputs ∧
    (pushOps S op addOffset i k net n).1.outputs = net.outputs ∧
    (pushOps S op addOffset i k net n).1.vertex.length = addOffset + i + k ∧
    (∀ (j : Nat) (v : Vertex U α), net.vertex[j]? = some v → (pushOps S op addOffset i k net n).1.vertex[j]? = some v) ∧
    (∀ j, j < k → ∃ v id, (pushOps S op addOffset i k net n).1.vertex[addOffset + i + j]? = some v ∧
      v = Vertex.new S id (addOffset + i + j) (S.setSR net.sampleRate (S.binop op)) ∧ id = n + j) ∧
    (pushOps S op addOffset i k net n).1.outputEdge = net.outputEdge.mapIdx (fun c e =>
      if i ≤ c ∧ c < i + k then ⟨.loc (addOffset + c) 0, .glob c⟩ else e) := by
  induction k generalizing i n net with
  | zero =>
    simp only [pushOps]
    refine ⟨h, by simp, trivial, trivial, hl, fun _ _ h => h, by omega, ?_⟩
    apply List.ext_getElem?
    intro c
    simp only [List.getElem?_mapIdx]
    cases net.outputEdge[c]? with
    | none => rfl
    | some e => rw [Option.map_some, if_neg (by omega)]
  | succ k ih =>
    have hp := wf_push h (S.binop op)
    have hnew : (push S net n (S.binop op)).vertex[addOffset + i]? =
        some (Vertex.new S n (addOffset + i) (S.setSR net.sampleRate (S.binop op))) := by
      simp [push, hl]
    have hnewOK : PortOK (push S net n (S.binop op)) (.loc (addOffset + i) 0) := by
      refine ⟨_, hnew, ?_⟩
      simp [Vertex.new, hS.outs_setSR, hS.outs_binop]
    have hset := valid_setOutputEdge hp.valid i (e := ⟨.loc (addOffset + i) 0, .glob i⟩) rfl hnewOK
    have h1 : WF S (n + 1) (setOutputEdge (push S net n (S.binop op)) i ⟨.loc (addOffset + i) 0, .glob i⟩) :=
      ⟨hset, hp.noSelf, hp.fades, hp.below⟩
    have hlen1 : (setOutputEdge (push S net n (S.binop op)) i ⟨.loc (addOffset + i) 0, .glob i⟩).vertex.length =
        addOffset + (i + 1) := by
      simp [setOutputEdge, push, hl]; omega
    have := ih (i := i + 1) h1 hlen1 (by show i + 1 + k ≤ net.outputs; omega)
    obtain ⟨r1, r2, r3, r4, r5, r6, r7, r8⟩ := this
    simp only [pushOps]
    refine ⟨r1, by rw [r2]; omega, by rw [r3]; rfl, by rw [r4]; rfl, by rw [r5]; omega, ?_, ?_, ?_⟩
    · intro j v hv
      exact r6 j v ((getElem?_append_singleton _ _ _ _).2 (Or.inl hv))
    · intro j hj
      cases j with
      | zero => exact ⟨_, n, r6 _ _ hnew, rfl, rfl⟩
      | succ j =>
        obtain ⟨v, id, hv, e1, e2⟩ := r7 j (by omega)
        refine ⟨v, id, ?_, ?_, by omega⟩
        · rw [← hv]; congr 1; omega
        · rw [e1]; show Vertex.new S id _ _ = _
          congr 1; omega
    · rw [r8]
      apply List.ext_getElem?
      intro c
      simp only [List.getElem?_mapIdx, setOutputEdge, push, List.getElem?_set]
      have hol := h.valid.oeLen
      by_cases hc : i = c
      · subst hc
        have : i < net.outputEdge.length := by omega
        simp [this]
      · simp only [if_neg hc]
        cases net.outputEdge[c]? with
        | none => rfl
        | some e =>
          simp only [Option.map_some]
          by_cases h5 : i + 1 ≤ c ∧ c < i + 1 + k
          · rw [if_pos h5, if_pos (by omega)]
          · rw [if_neg h5, if_neg (by omega)]

/-- Effect of `connectOps` on the sources of one vertex. -/
theorem wf_connectOps {S : Units U α} {addOffset port : Nat} {f : Port → Port} (es : List Edge) {i : Nat} {n : NodeId}
    {net : Net U α} (h : WF S n net)
    (hf : ∀ e ∈ es, e.source ≠ .zero → PortOK net (f e.source) ∧ ∀ j q, f e.source = .loc j q → j < addOffset) :
    WF S n (connectOps addOffset port f i es net) ∧ SameNodes S net (connectOps addOffset port f i es net) := by
  induction es generalizing i net with
  | nil => exact ⟨h, sameNodes_refl _⟩
  | cons e es ih =>
    simp only [connectOps]
    have key : ∀ net', (WF S n net' ∧ SameNodes S net net') →
        WF S n (connectOps addOffset port f (i + 1) es net') ∧
        SameNodes S net (connectOps addOffset port f (i + 1) es net') := by
      rintro net' ⟨hw, hs⟩
      have := ih (i := i + 1) hw (by
        intro e' he' hz
        have := hf e' (by simp [he']) hz
        exact ⟨(hs.portOK _).2 this.1, this.2⟩)
      exact ⟨this.1, sameNodes_trans hs this.2⟩
    apply key
    split
    · exact ⟨h, sameNodes_refl _⟩
    · rename_i p hp
      obtain ⟨h1, h2⟩ := hf e (by simp) hp
      have hv := valid_setVertexEdge h.valid (addOffset + i) port h1
      have ho : Origin net (setVertexEdge net (addOffset + i) port ⟨f e.source, .loc (addOffset + i) port⟩) :=
        origin_modify _ _ _ _ rfl (fun v => ⟨rfl, rfl, rfl, rfl⟩)
      have hs := sameNodes_setVertexEdge (S := S) net (addOffset + i) port ⟨f e.source, .loc (addOffset + i) port⟩
      refine ⟨⟨hv, noSelf_setVertexEdge h.noSelf _ _ ?_ _, h.fades.of_origin ho, h.below.same hs⟩, hs⟩
      intro q hq
      have := h2 _ _ hq
      omega

/-- Common part of `binary` and `bus`. -/
theorem wf_ops {S : Units U α} (hS : S.Lawful) {n : NodeId} {a b : Net U α} (ha : WF S n a) (hb : WF S n b)
    (_hout : a.outputs = b.outputs) (op : Op) (g : Nat → Port) (inputs : Nat)
    (hin : a.inputs ≤ inputs) (hg : ∀ p, p < b.inputs → ∃ q, g p = .glob q ∧ q < inputs) :
    let d := disambiguate b a n
    let net := { appendVertices a d.1 g with inputs := inputs }
    let p := pushOps S op net.vertex.length 0 a.outputs net d.2
    WF S p.2 (connectOps net.vertex.length 1 (shiftPort a.vertex.length g) 0 d.1.outputEdge
      (connectOps net.vertex.length 0 id 0 a.outputEdge p.1)) ∧ n ≤ p.2 := by
  intro d net p
  have hd := disamb hb ha
  have hgOK : ∀ p, p < d.1.inputs → PortOK net (g p) := by
    intro p hp
    obtain ⟨q, hq, hl⟩ := hg p (by rw [← hd.inputs]; exact hp)
    rw [hq]; exact hl
  have hwf : WF S d.2 net := by
    refine wf_join ha hd.wf hd.le (Nat.le_refl _) hd.disjoint g net rfl rfl hin hgOK ?_ ha.valid.oeLen ?_
    · intro p j q hp h
      obtain ⟨q', hq, _⟩ := hg p (by rw [← hd.inputs]; exact hp)
      rw [hq] at h; exact Port.noConfusion h
    · intro c e he
      exact ⟨(ha.valid.oe c e he).1, portOK_left (net1 := a) (net2 := d.1) (g := g) (res := net) rfl hin (ha.valid.oe c e he).2⟩
  have hp := wf_pushOps hS (op := op) (addOffset := net.vertex.length) a.outputs (i := 0) hwf rfl
    (by show 0 + a.outputs ≤ a.outputs; omega)
  obtain ⟨p1, p2, p3, p4, p5, p6, p7, p8⟩ := hp
  have mono : ∀ x, PortOK net x → PortOK p.1 x := by
    intro x hx
    cases x with
    | zero => trivial
    | glob q => show q < p.1.inputs; rw [p3]; exact hx
    | loc j q =>
      obtain ⟨v, hv, hq⟩ := hx
      exact ⟨v, p6 j v hv, hq⟩
  have lt : ∀ x j q, PortOK net x → x = .loc j q → j < net.vertex.length := by
    rintro x j q hx rfl
    obtain ⟨v, hv, _⟩ := hx
    exact (List.getElem?_eq_some_iff.1 hv).1
  have c1 := wf_connectOps (addOffset := net.vertex.length) (port := 0) (f := id) (i := 0) a.outputEdge p1 (by
    intro e he _
    obtain ⟨c, hc⟩ := List.getElem?_of_mem he
    have := portOK_left (net1 := a) (net2 := d.1) (g := g) (res := net) rfl hin (ha.valid.oe c e hc).2
    exact ⟨mono _ this, fun j q hq => lt _ j q this hq⟩)
  have c2 := wf_connectOps (addOffset := net.vertex.length) (port := 1) (f := shiftPort a.vertex.length g) (i := 0)
    d.1.outputEdge c1.1 (by
    intro e he _
    obtain ⟨c, hc⟩ := List.getElem?_of_mem he
    have := portOK_right (net1 := a) (net2 := d.1) (g := g) (res := net) rfl hgOK (hd.wf.valid.oe c e hc).2
    exact ⟨(c1.2.portOK _).2 (mono _ this), fun j q hq => lt _ j q this hq⟩)
  refine ⟨c2.1, ?_⟩
  have := hd.le
  show n ≤ p.2
  rw [p2]
  exact Nat.le_trans this (Nat.le_add_right _ _)

theorem wf_binary {S : Units U α} (hS : S.Lawful) {op : Op} {n m : NodeId} {a b c : Net U α} (ha : WF S n a)
    (hb : WF S n b) (he : binary S op a b n = some (c, m)) : WF S m c ∧ n ≤ m := by
  simp only [binary] at he
  split at he
  · cases he
  · rename_i hout
    simp only [Option.map_eq_some_iff] at he
    obtain ⟨x, hx, he⟩ := he
    have hd := disamb hb ha
    have := wf_ops hS ha hb (by simpa using hout) op (fun p => .glob (p + a.inputs))
      (a.inputs + (disambiguate b a n).1.inputs) (Nat.le_add_right _ _)
      (fun p hp => ⟨_, rfl, by rw [hd.inputs]; omega⟩)
    cases he
    exact ⟨wf_resolveFrontend this.1 hx, this.2⟩

theorem wf_bus {S : Units U α} (hS : S.Lawful) {n m : NodeId} {a b c : Net U α} (ha : WF S n a)
    (hb : WF S n b) (he : bus S a b n = some (c, m)) : WF S m c ∧ n ≤ m := by
  simp only [bus] at he
  split at he
  · cases he
  · rename_i hin
    split at he
    · cases he
    · rename_i hout
      simp only [Option.map_eq_some_iff] at he
      obtain ⟨x, hx, he⟩ := he
      have := wf_ops hS ha hb (by simpa using hout) .add .glob a.inputs (Nat.le_refl _)
        (fun p hp => ⟨_, rfl, by simp at hin; omega⟩)
      cases he
      exact ⟨wf_resolveFrontend this.1 hx, this.2⟩

theorem wf_wrap {S : Units U α} {n : NodeId} {sr : α} {u : U} {net : Net U α} (he : wrap S sr n u = some net) :
    WF S (n + 1) net := by
  simp only [wrap, Option.bind_eq_bind] at he
  have h0 := wf_push (wf_new (S := S) n sr (S.ins u) (S.outs u)) u
  have : ∀ x, WF S (n + 1) x → (if x.outputs > 0 then pipeOutput x n else some x) = some net → WF S (n + 1) net := by
    intro x hx h
    split at h
    · exact wf_pipeOutput hx h
    · cases h; exact hx
  split at he
  · rw [Option.bind_eq_some_iff] at he
    obtain ⟨x, h1, he⟩ := he
    exact this x (wf_pipeInput h0 h1) he
  · exact this _ h0 he

theorem wf_scalar {S : Units U α} (hS : S.Lawful) {n : NodeId} {sr : α} {k : Nat} {x : α} {net : Net U α}
    (he : scalar S sr n k x = some net) : WF S (n + 1) net := by
  have h0 := wf_push (wf_new (S := S) n sr 0 k) (S.const x)
  have key : ∀ (cs : List Nat) (a b : Net U α), WF S (n + 1) a →
      (∃ v, a.nodeIndex.get n = some 0 ∧ a.vertex[0]? = some v ∧ v.outs = 1) →
      cs.foldlM (fun net i => connectOutput net n 0 i) a = some b → WF S (n + 1) b := by
    intro cs
    induction cs with
    | nil => intro a b ha _ h; simp at h; exact h ▸ ha
    | cons c cs ih =>
      intro a b ha hv h
      simp only [List.foldlM_cons, Option.bind_eq_bind, Option.bind_eq_some_iff] at h
      obtain ⟨a', h1, h2⟩ := h
      obtain ⟨v, hv1, hv2, hv3⟩ := hv
      have h3 := wf_connectOutput ha (by
        intro i w hi hw
        rw [hv1] at hi; cases hi
        rw [hv2] at hw; cases hw
        omega) h1
      refine ih a' b h3 ?_ h2
      simp only [connectOutput, Option.bind_eq_bind, Option.bind_eq_some_iff] at h1
      obtain ⟨_, _, h1⟩ := h1
      obtain ⟨_, h1⟩ := ite_none_right h1
      cases h1
      exact ⟨v, hv1, hv2, hv3⟩
  refine key _ _ _ h0 ⟨Vertex.new S n 0 (S.setSR sr (S.const x)), by simp [push, new, IdMap.get_insert], ?_, ?_⟩ he
  · simp [push, new]
  · simp [Vertex.new, hS.outs_setSR, hS.outs_const]

theorem wf_neg {S : Units U α} (hS : S.Lawful) {n m : NodeId} {sr : α} {a c : Net U α} (ha : WF S n a)
    (he : neg S sr a n = some (c, m)) : WF S m c ∧ n ≤ m := by
  simp only [neg, Option.bind_eq_bind, Option.bind_eq_some_iff] at he
  obtain ⟨z, hz, he⟩ := he
  have := wf_binary hS (wf_scalar hS hz) (ha.mono (Nat.le_succ n)) he
  exact ⟨this.1, Nat.le_of_succ_le this.2⟩

end Fundsp.Net
