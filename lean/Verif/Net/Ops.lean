import Verif.Net.EditProps

/-! # Exact structure of nets built by the graph operators (helpers for C06, C09) -/

namespace Fundsp.Net
variable {U α : Type}

/-- The nodes of `c` start with the nodes of `a` and the nodes of `b` renumbered; global inputs of `b` become `g`. -/
structure Joined (S : Units U α) (a b c : Net U α) (g : Nat → Port) : Prop where
  left : ∀ (i : Nat) (v : Vertex U α), a.vertex[i]? = some v → c.vertex[i]? = some v
  right : ∀ (k : Nat) (v : Vertex U α), b.vertex[k]? = some v → ∃ id',
    c.vertex[a.vertex.length + k]? = some (Vertex.shift a.vertex.length g (a.vertex.length + k) { v with id := id' }) ∧
    (a.nodeIndex.get v.id = none → id' = v.id)
  sr : c.sampleRate = a.sampleRate
  order : c.order = none

theorem joined_append {S : Units U α} {n : NodeId} {a b : Net U α} (ha : WF S n a) (hb : WF S n b) (g : Nat → Port)
    {c : Net U α} (hc : ∀ (i : Nat) (v : Vertex U α), (appendVertices a (disambiguate b a n).1 g).vertex[i]? = some v → c.vertex[i]? = some v)
    (hsr : c.sampleRate = a.sampleRate) (ho : c.order = none) : Joined S a b c g := by
  have hd := disamb hb ha
  refine ⟨?_, ?_, hsr, ho⟩
  · intro i v hv
    exact hc i v ((join_getElem? _ _ _ _ _).2 (Or.inl hv))
  · intro k v hv
    obtain ⟨id', h1, h2, _⟩ := hd.node k v hv
    exact ⟨id', hc _ _ ((join_getElem? _ _ _ _ _).2 (Or.inr ⟨k, _, rfl, h1, rfl⟩)), h2⟩

theorem append_length {S : Units U α} {n : NodeId} {a b : Net U α} (ha : WF S n a) (hb : WF S n b) (g : Nat → Port) :
    (appendVertices a (disambiguate b a n).1 g).vertex.length = a.vertex.length + b.vertex.length := by
  simp [appendVertices, (disamb hb ha).len]

theorem resolveFrontend_same {net other x : Net U α} (h : resolveFrontend net other = some x) :
    x.vertex = net.vertex ∧ x.outputEdge = net.outputEdge ∧ x.inputs = net.inputs ∧ x.outputs = net.outputs ∧
    x.sampleRate = net.sampleRate ∧ x.order = net.order ∧ x.nodeIndex = net.nodeIndex := by
  simp only [resolveFrontend] at h
  split at h
  · cases h
  · split at h <;> cases h <;> exact ⟨rfl, rfl, rfl, rfl, rfl, rfl, rfl⟩

/-- Structure of `a ^ b`. -/
theorem branch_struct {S : Units U α} {n m : NodeId} {a b c : Net U α} (ha : WF S n a) (hb : WF S n b)
    (he : branch a b n = some (c, m)) :
    a.inputs = b.inputs ∧ Joined S a b c .glob ∧ c.vertex.length = a.vertex.length + b.vertex.length ∧
    c.inputs = a.inputs ∧ c.outputs = a.outputs + b.outputs ∧
    c.outputEdge = a.outputEdge ++ b.outputEdge.mapIdx (fun i e =>
      ⟨shiftPort a.vertex.length .glob e.source, .glob (a.outputs + i)⟩) := by
  simp only [branch] at he
  split at he
  · cases he
  · rename_i hin
    simp only [Option.map_eq_some_iff] at he
    obtain ⟨x, hx, he⟩ := he
    cases he
    obtain ⟨r1, r2, r3, r4, r5, r6, _⟩ := resolveFrontend_same hx
    have hd := disamb hb ha
    refine ⟨by simpa using hin, joined_append ha hb _ (fun i v h => by rw [r1]; exact h) r5 r6, ?_, r3, ?_, ?_⟩
    · rw [r1]; exact append_length ha hb _
    · rw [r4]; simp only [hd.outputs]
    · rw [r2]; simp only [hd.oe]

/-- Structure of `a | b`. -/
theorem stack_struct {S : Units U α} {n m : NodeId} {a b c : Net U α} (ha : WF S n a) (hb : WF S n b)
    (he : stack a b n = some (c, m)) :
    Joined S a b c (fun p => .glob (p + a.inputs)) ∧ c.vertex.length = a.vertex.length + b.vertex.length ∧
    c.inputs = a.inputs + b.inputs ∧ c.outputs = a.outputs + b.outputs ∧
    c.outputEdge = a.outputEdge ++ b.outputEdge.mapIdx (fun i e =>
      ⟨shiftPort a.vertex.length (fun p => .glob (p + a.inputs)) e.source, .glob (a.outputs + i)⟩) := by
  simp only [stack, Option.map_eq_some_iff] at he
  obtain ⟨x, hx, he⟩ := he
  cases he
  obtain ⟨r1, r2, r3, r4, r5, r6, _⟩ := resolveFrontend_same hx
  have hd := disamb hb ha
  refine ⟨joined_append ha hb _ (fun i v h => by rw [r1]; exact h) r5 r6, ?_, ?_, ?_, ?_⟩
  · rw [r1]; exact append_length ha hb _
  · rw [r3]; simp only [hd.inputs]
  · rw [r4]; simp only [hd.outputs]
  · rw [r2]; simp only [hd.oe]

/-- Structure of `a >> b`. -/
theorem pipe_struct {S : Units U α} {n m : NodeId} {a b c : Net U α} (ha : WF S n a) (hb : WF S n b)
    (he : pipe a b n = some (c, m)) :
    a.outputs = b.inputs ∧ Joined S a b c (fun p => ((a.outputEdge[p]?).map (·.source)).getD .zero) ∧
    c.vertex.length = a.vertex.length + b.vertex.length ∧
    c.inputs = a.inputs ∧ c.outputs = b.outputs ∧
    c.outputEdge.map Edge.source = b.outputEdge.map (fun e =>
      shiftPort a.vertex.length (fun p => ((a.outputEdge[p]?).map (·.source)).getD .zero) e.source) := by
  simp only [pipe] at he
  split at he
  · cases he
  · rename_i hin
    simp only [Option.map_eq_some_iff] at he
    obtain ⟨x, hx, he⟩ := he
    cases he
    obtain ⟨r1, r2, r3, r4, r5, r6, _⟩ := resolveFrontend_same hx
    have hd := disamb hb ha
    refine ⟨by simpa using hin, joined_append ha hb _ (fun i v h => by rw [r1]; exact h) r5 r6, ?_, r3, ?_, ?_⟩
    · rw [r1]; exact append_length ha hb _
    · rw [r4]; simp only [hd.outputs]
    · rw [r2]; simp only [hd.oe]
      apply List.ext_getElem?
      intro i
      simp only [List.getElem?_map, List.getElem?_mapIdx]
      cases b.outputEdge[i]? with
      | none => rfl
      | some e =>
        simp only [Option.map_some]
        split
        · rename_i hz; rw [hz]; rfl
        · rfl

theorem pushOps_fields (S : Units U α) (op : Op) (off : Nat) (k i : Nat) (net : Net U α) (n : NodeId) :
    (pushOps S op off i k net n).1.sampleRate = net.sampleRate ∧
    ((pushOps S op off i k net n).1.order = none ∨ (k = 0 ∧ (pushOps S op off i k net n).1 = net)) := by
  induction k generalizing i net n with
  | zero => exact ⟨rfl, Or.inr ⟨rfl, rfl⟩⟩
  | succ k ih =>
    simp only [pushOps]
    obtain ⟨h1, h2⟩ := ih (i + 1) (setOutputEdge (push S net n (S.binop op)) i ⟨.loc (off + i) 0, .glob i⟩) (n + 1)
    refine ⟨h1, Or.inl ?_⟩
    rcases h2 with h2 | ⟨_, h2⟩
    · exact h2
    · rw [h2]; rfl

theorem connectOps_fields (off port : Nat) (f : Port → Port) (es : List Edge) (i : Nat) (net : Net U α) :
    (connectOps off port f i es net).sampleRate = net.sampleRate ∧
    (net.order = none → (connectOps off port f i es net).order = none) ∧
    (connectOps off port f i es net).outputEdge = net.outputEdge ∧
    (connectOps off port f i es net).inputs = net.inputs ∧ (connectOps off port f i es net).outputs = net.outputs := by
  induction es generalizing i net with
  | nil => exact ⟨rfl, id, rfl, rfl, rfl⟩
  | cons e es ih =>
    simp only [connectOps]
    split
    · exact ih _ _
    · obtain ⟨h1, h2, h3, h4, h5⟩ := ih (i + 1) (setVertexEdge net (off + i) port ⟨f e.source, .loc (off + i) port⟩)
      exact ⟨h1, fun _ => h2 rfl, h3, h4, h5⟩

theorem connectOps_get (off port : Nat) (f : Port → Port) (hf : f .zero = .zero) (es : List Edge) (i : Nat) (net : Net U α) (j : Nat) :
    (j < off + i → (connectOps off port f i es net).vertex[j]? = net.vertex[j]?) ∧
    (∀ (k : Nat) (v : Vertex U α), j = off + i + k → net.vertex[j]? = some v →
      (k < es.length → (v.source[port]?).map Edge.source = some .zero) →
      ∃ w, (connectOps off port f i es net).vertex[j]? = some w ∧ w = { v with source := w.source } ∧
        w.source.length = v.source.length ∧
        (∀ q, q ≠ port → w.source[q]? = v.source[q]?) ∧
        (w.source[port]?).map Edge.source = ((es[k]?).map (fun e => f e.source)).or ((v.source[port]?).map Edge.source)) := by
  induction es generalizing i net with
  | nil =>
    refine ⟨fun _ => rfl, ?_⟩
    intro k v _ hv _
    exact ⟨v, hv, rfl, rfl, fun _ _ => rfl, by simp⟩
  | cons e es ih =>
    simp only [connectOps]
    constructor
    · intro hj
      rw [(ih (i + 1) _).1 (by omega)]
      split
      · rfl
      · simp only [setVertexEdge, List.getElem?_modify]
        simp [show off + i ≠ j by omega]
    · intro k v hjk hv hz
      cases k with
      | zero =>
        have hz := hz (by simp)
        rw [(ih (i + 1) _).1 (by omega)]
        split
        · rename_i hs
          refine ⟨v, hv, rfl, rfl, fun _ _ => rfl, ?_⟩
          rw [hz]; simp [hs, hf]
        · refine ⟨_, by
            simp only [setVertexEdge, List.getElem?_modify]
            rw [hv]; simp only [show off + i = j by omega, if_true]; rfl, rfl, by simp, ?_, ?_⟩
          · intro q hq; simp [Ne.symm hq]
          · simp only [List.getElem?_set]
            have : port < v.source.length := by
              cases hp : v.source[port]? with
              | none => rw [hp] at hz; cases hz
              | some x => exact (List.getElem?_eq_some_iff.1 hp).1
            simp [this]
      | succ k =>
        have hne : off + i ≠ j := by omega
        have key := fun net' h => (ih (i + 1) net').2 k v (by omega) h (fun h => hz (by simp; omega))
        simp only [List.getElem?_cons_succ]
        apply key
        split
        · exact hv
        · simp only [setVertexEdge, List.getElem?_modify]
          rw [hv]; simp [hne]

/-- Common structure of `binary` and `bus`. -/
theorem ops_struct {S : Units U α} (hS : S.Lawful) {n : NodeId} {a b : Net U α} (ha : WF S n a) (hb : WF S n b)
    (hout : a.outputs = b.outputs) (op : Op) (g : Nat → Port) (inputs : Nat)
    (hin : a.inputs ≤ inputs) (hg : ∀ p, p < b.inputs → ∃ q, g p = .glob q ∧ q < inputs) {c : Net U α}
    (hc : c = (connectOps (appendVertices a (disambiguate b a n).1 g).vertex.length 1 (shiftPort a.vertex.length g) 0 (disambiguate b a n).1.outputEdge
      (connectOps (appendVertices a (disambiguate b a n).1 g).vertex.length 0 id 0 a.outputEdge
        (pushOps S op (appendVertices a (disambiguate b a n).1 g).vertex.length 0 a.outputs
          { appendVertices a (disambiguate b a n).1 g with inputs := inputs } (disambiguate b a n).2).1))) :
    Joined S a b c g ∧ c.inputs = inputs ∧ c.outputs = a.outputs ∧
    c.vertex.length = a.vertex.length + b.vertex.length + a.outputs ∧
    (∀ i, i < a.outputs → ∃ v, c.vertex[a.vertex.length + b.vertex.length + i]? = some v ∧ v.ins = 2 ∧ v.outs = 1 ∧
      v.eng = (Vertex.new S 0 0 (S.setSR a.sampleRate (S.binop op))).eng ∧
      v.source.map Edge.source = [((a.outputEdge[i]?).map Edge.source).getD .zero,
        ((b.outputEdge[i]?).map (fun e => shiftPort a.vertex.length g e.source)).getD .zero]) ∧
    (∀ i, i < a.outputs → (c.outputEdge[i]?).map Edge.source = some (.loc (a.vertex.length + b.vertex.length + i) 0)) := by
  have hd := disamb hb ha
  have hlen := append_length ha hb g
  rw [hlen] at hc
  have hgOK : ∀ p, p < (disambiguate b a n).1.inputs → PortOK { appendVertices a (disambiguate b a n).1 g with inputs := inputs } (g p) := by
    intro p hp
    obtain ⟨q, hq, hl⟩ := hg p (by rw [← hd.inputs]; exact hp)
    rw [hq]; exact hl
  have hwf : WF S (disambiguate b a n).2 { appendVertices a (disambiguate b a n).1 g with inputs := inputs } := by
    refine wf_join ha hd.wf hd.le (Nat.le_refl _) hd.disjoint g _ rfl rfl hin hgOK ?_ ha.valid.oeLen ?_
    · intro p j q hp h
      obtain ⟨q', hq, _⟩ := hg p (by rw [← hd.inputs]; exact hp)
      rw [hq] at h; exact Port.noConfusion h
    · intro c e he
      exact ⟨(ha.valid.oe c e he).1, portOK_left (net1 := a) (net2 := (disambiguate b a n).1) (g := g)
        (res := { appendVertices a (disambiguate b a n).1 g with inputs := inputs }) rfl hin (ha.valid.oe c e he).2⟩
  obtain ⟨p1, p2, p3, p4, p5, p6, p7, p8⟩ := wf_pushOps hS (op := op) (addOffset := a.vertex.length + b.vertex.length) a.outputs (i := 0) hwf
    (by simpa using hlen) (by show 0 + a.outputs ≤ a.outputs; omega)
  obtain ⟨q1, q2⟩ := pushOps_fields S op (a.vertex.length + b.vertex.length) a.outputs 0
    { appendVertices a (disambiguate b a n).1 g with inputs := inputs } (disambiguate b a n).2
  have q2' : (pushOps S op (a.vertex.length + b.vertex.length) 0 a.outputs
    { appendVertices a (disambiguate b a n).1 g with inputs := inputs } (disambiguate b a n).2).1.order = none := by
    rcases q2 with q2 | ⟨_, q2⟩
    · exact q2
    · rw [q2]; rfl
  generalize (pushOps S op (a.vertex.length + b.vertex.length) 0 a.outputs
    { appendVertices a (disambiguate b a n).1 g with inputs := inputs } (disambiguate b a n).2).1 = P at *
  have hsz : shiftPort a.vertex.length g .zero = .zero := rfl
  have c1 := connectOps_fields (a.vertex.length + b.vertex.length) 0 id a.outputEdge 0 P
  have c2 := connectOps_fields (a.vertex.length + b.vertex.length) 1 (shiftPort a.vertex.length g) (disambiguate b a n).1.outputEdge 0
    (connectOps (a.vertex.length + b.vertex.length) 0 id 0 a.outputEdge P)
  rw [← hc] at c2
  have low : ∀ j, j < a.vertex.length + b.vertex.length → c.vertex[j]? = P.vertex[j]? := by
    intro j hj
    rw [hc, (connectOps_get _ _ _ hsz _ _ _ _).1 (by omega), (connectOps_get _ _ _ rfl _ _ _ _).1 (by omega)]
  have high : ∀ i, i < a.outputs → ∃ v, c.vertex[a.vertex.length + b.vertex.length + i]? = some v ∧ v.ins = 2 ∧ v.outs = 1 ∧
      v.eng = (Vertex.new S 0 0 (S.setSR a.sampleRate (S.binop op))).eng ∧
      v.source.map Edge.source = [((a.outputEdge[i]?).map Edge.source).getD .zero,
        ((b.outputEdge[i]?).map (fun e => shiftPort a.vertex.length g e.source)).getD .zero] := by
    intro i hi
    obtain ⟨v, id', hv, hve, _⟩ := p7 i hi
    simp only [Nat.add_zero] at hv hve
    have hsrc : v.source.map Edge.source = [.zero, .zero] := by
      rw [hve]; simp [Vertex.new, hS.ins_setSR, hS.ins_binop, List.range_succ]
    have hsrcget : ∀ q, q < 2 → (v.source[q]?).map Edge.source = some .zero := by
      intro q hq
      rw [← List.getElem?_map, hsrc]
      match q, hq with
      | 0, _ => rfl
      | 1, _ => rfl
    have hl2 : v.source.length = 2 := by rw [← List.length_map (f := Edge.source), hsrc]; rfl
    obtain ⟨w, w1, w2, w3, w4, w5⟩ := (connectOps_get (a.vertex.length + b.vertex.length) 0 id rfl a.outputEdge 0 P
      (a.vertex.length + b.vertex.length + i)).2 i v (by omega) hv (fun _ => hsrcget 0 (by omega))
    obtain ⟨x, x1, x2, x3, x4, x5⟩ := (connectOps_get (a.vertex.length + b.vertex.length) 1 (shiftPort a.vertex.length g) hsz
      (disambiguate b a n).1.outputEdge 0 _ (a.vertex.length + b.vertex.length + i)).2 i w (by omega) w1
      (fun _ => by rw [w4 1 (by omega)]; exact hsrcget 1 (by omega))
    rw [← hc] at x1
    refine ⟨x, x1, ?_, ?_, ?_, ?_⟩
    · rw [x2, w2, hve]; simp [Vertex.new, hS.ins_setSR, hS.ins_binop]
    · rw [x2, w2, hve]; simp [Vertex.new, hS.outs_setSR, hS.outs_binop]
    · rw [x2, w2, hve]; rfl
    · have hx0 : (x.source[0]?).map Edge.source = some (((a.outputEdge[i]?).map Edge.source).getD .zero) := by
        rw [x4 0 (by omega), w5]
        have : i < a.outputEdge.length := by rw [ha.valid.oeLen]; exact hi
        rw [List.getElem?_eq_getElem this]; rfl
      have hx1 : (x.source[1]?).map Edge.source = some (((b.outputEdge[i]?).map (fun e => shiftPort a.vertex.length g e.source)).getD .zero) := by
        rw [x5, hd.oe]
        have : i < b.outputEdge.length := by rw [hb.valid.oeLen, ← hout]; exact hi
        rw [List.getElem?_eq_getElem this]; rfl
      have hxl : x.source.length = 2 := by rw [x3, w3, hl2]
      match hxs : x.source, hxl with
      | [e0, e1], _ =>
        rw [hxs] at hx0 hx1
        simp only [List.getElem?_cons_zero, List.getElem?_cons_succ, Option.map_some, Option.some.injEq] at hx0 hx1
        simp [hx0, hx1]
  refine ⟨joined_append ha hb g ?_ (c2.1.trans (c1.1.trans q1)) (c2.2.1 (c1.2.1 q2')), ?_, ?_, ?_, high, ?_⟩
  · intro i v hv
    rw [low i (by rw [← hlen]; exact (List.getElem?_eq_some_iff.1 hv).1)]
    exact p6 i v hv
  · rw [c2.2.2.2.1, c1.2.2.2.1, p3]
  · rw [c2.2.2.2.2, c1.2.2.2.2, p4]; rfl
  · have clen : ∀ (off port : Nat) (f : Port → Port) (es : List Edge) (i : Nat) (net : Net U α),
          (connectOps off port f i es net).vertex.length = net.vertex.length := by
        intro off port f es
        induction es with
        | nil => intro i net; rfl
        | cons e es ih =>
          intro i net
          simp only [connectOps]
          rw [ih]
          split
          · rfl
          · simp [setVertexEdge]
    rw [hc, clen, clen, p5, Nat.add_zero]
  · intro i hi
    rw [c2.2.2.1, c1.2.2.1, p8, List.getElem?_mapIdx]
    have : i < a.outputEdge.length := by rw [ha.valid.oeLen]; exact hi
    simp only [appendVertices, List.getElem?_eq_getElem this, Option.map_some]
    rw [if_pos (by omega)]

/-- Structure of `a + b`, `a - b`, `a * b`. -/
theorem binary_struct {S : Units U α} (hS : S.Lawful) {op : Op} {n m : NodeId} {a b c : Net U α} (ha : WF S n a)
    (hb : WF S n b) (he : binary S op a b n = some (c, m)) :
    a.outputs = b.outputs ∧ Joined S a b c (fun p => .glob (p + a.inputs)) ∧ c.inputs = a.inputs + b.inputs ∧ c.outputs = a.outputs ∧
    c.vertex.length = a.vertex.length + b.vertex.length + a.outputs ∧
    (∀ i, i < a.outputs → ∃ v, c.vertex[a.vertex.length + b.vertex.length + i]? = some v ∧ v.ins = 2 ∧ v.outs = 1 ∧
      v.eng = (Vertex.new S 0 0 (S.setSR a.sampleRate (S.binop op))).eng ∧
      v.source.map Edge.source = [((a.outputEdge[i]?).map Edge.source).getD .zero,
        ((b.outputEdge[i]?).map (fun e => shiftPort a.vertex.length (fun p => .glob (p + a.inputs)) e.source)).getD .zero]) ∧
    (∀ i, i < a.outputs → (c.outputEdge[i]?).map Edge.source = some (.loc (a.vertex.length + b.vertex.length + i) 0)) := by
  simp only [binary] at he
  split at he
  · cases he
  · rename_i hout
    simp only [Option.map_eq_some_iff] at he
    obtain ⟨x, hx, he⟩ := he
    cases he
    have hd := disamb hb ha
    have hout' : a.outputs = b.outputs := by simpa using hout
    obtain ⟨r1, r2, r3, r4, r5, r6, _⟩ := resolveFrontend_same hx
    obtain ⟨o1, o2, o3, o4, o5, o6⟩ := ops_struct hS ha hb hout' op (fun p => .glob (p + a.inputs))
      (a.inputs + (disambiguate b a n).1.inputs) (Nat.le_add_right _ _)
      (fun p hp => ⟨_, rfl, by rw [hd.inputs]; omega⟩) rfl
    refine ⟨hout', ⟨?_, ?_, r5.trans o1.sr, r6.trans o1.order⟩, ?_, r4.trans o3, ?_, ?_, ?_⟩
    · intro i v hv; rw [r1]; exact o1.left i v hv
    · intro i v hv; rw [r1]; exact o1.right i v hv
    · rw [r3]; exact o2.trans (by rw [hd.inputs])
    · rw [r1]; exact o4
    · rw [r1]; exact o5
    · rw [r2]; exact o6

/-- Structure of `a & b`. -/
theorem bus_struct {S : Units U α} (hS : S.Lawful) {n m : NodeId} {a b c : Net U α} (ha : WF S n a)
    (hb : WF S n b) (he : bus S a b n = some (c, m)) :
    a.inputs = b.inputs ∧ a.outputs = b.outputs ∧ Joined S a b c .glob ∧ c.inputs = a.inputs ∧ c.outputs = a.outputs ∧
    c.vertex.length = a.vertex.length + b.vertex.length + a.outputs ∧
    (∀ i, i < a.outputs → ∃ v, c.vertex[a.vertex.length + b.vertex.length + i]? = some v ∧ v.ins = 2 ∧ v.outs = 1 ∧
      v.eng = (Vertex.new S 0 0 (S.setSR a.sampleRate (S.binop .add))).eng ∧
      v.source.map Edge.source = [((a.outputEdge[i]?).map Edge.source).getD .zero,
        ((b.outputEdge[i]?).map (fun e => shiftPort a.vertex.length .glob e.source)).getD .zero]) ∧
    (∀ i, i < a.outputs → (c.outputEdge[i]?).map Edge.source = some (.loc (a.vertex.length + b.vertex.length + i) 0)) := by
  simp only [bus] at he
  split at he
  · cases he
  · rename_i hin
    split at he
    · cases he
    · rename_i hout
      simp only [Option.map_eq_some_iff] at he
      obtain ⟨x, hx, he⟩ := he
      cases he
      have hout' : a.outputs = b.outputs := by simpa using hout
      have hin' : a.inputs = b.inputs := by simpa using hin
      obtain ⟨r1, r2, r3, r4, r5, r6, _⟩ := resolveFrontend_same hx
      obtain ⟨o1, o2, o3, o4, o5, o6⟩ := ops_struct hS ha hb hout' .add .glob a.inputs (Nat.le_refl _)
        (fun p hp => ⟨_, rfl, by omega⟩) rfl
      refine ⟨hin', hout', ⟨?_, ?_, r5.trans o1.sr, r6.trans o1.order⟩, r3.trans o2, r4.trans o3, ?_, ?_, ?_⟩
      · intro i v hv; rw [r1]; exact o1.left i v hv
      · intro i v hv; rw [r1]; exact o1.right i v hv
      · rw [r1]; exact o4
      · rw [r1]; exact o5
      · rw [r2]; exact o6

end Fundsp.Net
