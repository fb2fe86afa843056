import Verif.Net.Order
import Verif.Net.Handles

/-! # Ticking a net (C07)

The order and the direct source vertices kept in a net are always up to date (`Reach.ordered`). -/

namespace Fundsp.Net
variable {U α : Type}

/-- `if !is_ordered() { determine_order() }`, `net.rs:1189-1191`. -/
def ready (S : Units U α) (seed : Nat → Nat) (hash0 : Nat) (net : Net U α) : Net U α :=
  if net.order.isSome then net else determineOrder S seed hash0 net

/-- If there is a cached evaluation order, then it fits the present wiring. -/
structure OrderFits (net : Net U α) (order : List Nat) : Prop where
  perm : order.Perm (List.range net.vertex.length)
  topo : ¬ Cyclic net → ∀ a i b, order = a ++ i :: b → ∀ j, Wire net i j → j ∈ a
  err : net.cycleError = true ↔ Cyclic net
  src : ∀ (i : Nat) (v : Vertex U α), net.vertex[i]? = some v → v.srcVertex = v.updateSourceVertex.srcVertex

def Ordered (net : Net U α) : Prop := ∀ order, net.order = some order → OrderFits net order

theorem ordered_none {net : Net U α} (h : net.order = none) : Ordered net := by
  intro o ho; rw [h] at ho; cases ho

theorem cyclic_sameWiring {a b : Net U α} (h : SameWiring a b) : Cyclic b ↔ Cyclic a := by
  have : Wire b = Wire a := by funext i j; exact propext (wire_sameWiring h i j)
  simp only [Cyclic, this]

theorem updateSourceVertex_congr {v w : Vertex U α} (h1 : w.ins = v.ins) (h2 : w.source = v.source) :
    w.updateSourceVertex.srcVertex = v.updateSourceVertex.srcVertex := by
  simp only [Vertex.updateSourceVertex, h1, h2]

theorem Ordered.kept {a b : Net U α} (h : Ordered a) (hw : SameWiring a b) (ho : b.order = a.order)
    (he : b.cycleError = a.cycleError)
    (hs : ∀ (i : Nat) (v w : Vertex U α), a.vertex[i]? = some v → b.vertex[i]? = some w → w.srcVertex = v.srcVertex) : Ordered b := by
  intro o hbo
  have hf := h o (ho ▸ hbo)
  refine ⟨by rw [hw.len]; exact hf.perm, ?_, ?_, ?_⟩
  · intro hc x i y hxy j hj
    exact hf.topo (fun c => hc ((cyclic_sameWiring hw).2 c)) x i y hxy j ((wire_sameWiring hw i j).1 hj)
  · rw [he, cyclic_sameWiring hw]; exact hf.err
  · intro i w hwv
    obtain ⟨v, hv⟩ := hw.find hwv
    rw [hs i v w hv hwv, hf.src i v hv]
    have := hw.node i v w hv hwv
    exact (updateSourceVertex_congr this.2.1 this.2.2.2).symm

theorem ordered_determineOrder {S : Units U α} (hS : S.Lawful) (seed : Nat → Nat) (h0 : Nat) {n : NodeId} {net : Net U α}
    (h : WF S n net) : Ordered (determineOrder S seed h0 net) := by
  obtain ⟨o, h1, h2, h3, h4⟩ := C02_net_order hS seed h0 h
  obtain ⟨hs, hk⟩ := determineOrder_spec hS seed h0 net
  intro o' ho'
  rw [h1] at ho'; cases ho'
  refine ⟨by rw [hs.len]; exact h2, ?_, ?_, ?_⟩
  · intro hc x i y hxy j hj
    exact h4 (fun c => hc ((cyclic_sameWiring hs).2 c)) x i y hxy j ((wire_sameWiring hs i j).1 hj)
  · rw [h3, cyclic_sameWiring hs]
  · intro i w hw
    obtain ⟨v, hv⟩ := hs.find hw
    rw [(hk i v w hv hw).2.2.2.2.2.2]
    have := hs.node i v w hv hw
    exact (updateSourceVertex_congr this.2.1 this.2.2.2).symm

theorem ordered_ready {S : Units U α} (hS : S.Lawful) (seed : Nat → Nat) (h0 : Nat) {n : NodeId} {net : Net U α}
    (h : WF S n net) (ho : Ordered net) : Ordered (ready S seed h0 net) ∧ (ready S seed h0 net).order.isSome := by
  unfold ready
  split
  · exact ⟨ho, by assumption⟩
  · exact ⟨ordered_determineOrder hS seed h0 h, rfl⟩

/-- Changing vertices in ways that keep their wiring. -/
theorem sameWiring_vertex {a b : Net U α} (hi : b.inputs = a.inputs) (ho : b.outputs = a.outputs)
    (he : b.outputEdge = a.outputEdge) (hn : b.nodeIndex = a.nodeIndex) (hl : b.vertex.length = a.vertex.length)
    (hv : ∀ (i : Nat) (v w : Vertex U α), a.vertex[i]? = some v → b.vertex[i]? = some w →
      (w.id = v.id ∧ w.ins = v.ins ∧ w.outs = v.outs ∧ w.source = v.source) ∧ w.srcVertex = v.srcVertex) :
    SameWiring a b ∧ ∀ (i : Nat) (v w : Vertex U α), a.vertex[i]? = some v → b.vertex[i]? = some w → w.srcVertex = v.srcVertex :=
  ⟨⟨hi, ho, he, hn, hl, fun i v w h1 h2 => (hv i v w h1 h2).1⟩, fun i v w h1 h2 => (hv i v w h1 h2).2⟩

theorem Ordered.of_vertex {a b : Net U α} (h : Ordered a) (hi : b.inputs = a.inputs) (ho : b.outputs = a.outputs)
    (he : b.outputEdge = a.outputEdge) (hn : b.nodeIndex = a.nodeIndex) (hor : b.order = a.order)
    (her : b.cycleError = a.cycleError) (hl : b.vertex.length = a.vertex.length)
    (hv : ∀ (i : Nat) (v w : Vertex U α), a.vertex[i]? = some v → b.vertex[i]? = some w →
      (w.id = v.id ∧ w.ins = v.ins ∧ w.outs = v.outs ∧ w.source = v.source) ∧ w.srcVertex = v.srcVertex) : Ordered b :=
  h.kept (sameWiring_vertex hi ho he hn hl hv).1 hor her (sameWiring_vertex hi ho he hn hl hv).2

theorem sameWiring_set {net : Net U α} {i : Nat} {v v' : Vertex U α} (hv : net.vertex[i]? = some v)
    (h : (v'.id = v.id ∧ v'.ins = v.ins ∧ v'.outs = v.outs ∧ v'.source = v.source) ∧ v'.srcVertex = v.srcVertex) :
    ∀ (j : Nat) (x w : Vertex U α), net.vertex[j]? = some x → (net.vertex.set i v')[j]? = some w →
      (w.id = x.id ∧ w.ins = x.ins ∧ w.outs = x.outs ∧ w.source = x.source) ∧ w.srcVertex = x.srcVertex := by
  intro j x w hx hw
  rw [List.getElem?_set] at hw
  split at hw
  · rename_i hij; subst hij
    split at hw
    · cases hw; rw [hv] at hx; cases hx; exact h
    · cases hw
  · rw [hx] at hw; cases hw; exact ⟨⟨rfl, rfl, rfl, rfl⟩, rfl⟩

theorem sameWiring_map {net : Net U α} {f : Vertex U α → Vertex U α}
    (h : ∀ v, ((f v).id = v.id ∧ (f v).ins = v.ins ∧ (f v).outs = v.outs ∧ (f v).source = v.source) ∧ (f v).srcVertex = v.srcVertex) :
    ∀ (j : Nat) (x w : Vertex U α), net.vertex[j]? = some x → (net.vertex.map f)[j]? = some w →
      (w.id = x.id ∧ w.ins = x.ins ∧ w.outs = x.outs ∧ w.source = x.source) ∧ w.srcVertex = x.srcVertex := by
  intro j x w hx hw
  rw [List.getElem?_map, hx] at hw
  cases hw; exact h x

/-- The running of nodes does not change the wiring. -/
theorem tickNodes_get {S : Units U α} (sr : α) (x : List α) (is : List Nat) (vs : List (Vertex U α)) :
    (is.foldl (tickNode S sr x) vs).length = vs.length ∧
    ∀ (j : Nat) (v : Vertex U α), vs[j]? = some v → ∃ w, (is.foldl (tickNode S sr x) vs)[j]? = some w ∧
      ((w.id = v.id ∧ w.ins = v.ins ∧ w.outs = v.outs ∧ w.source = v.source) ∧ w.srcVertex = v.srcVertex) := by
  induction is generalizing vs with
  | nil => exact ⟨rfl, fun j v hv => ⟨v, hv, ⟨rfl, rfl, rfl, rfl⟩, rfl⟩⟩
  | cons i is ih =>
    obtain ⟨h1, h2⟩ := ih (tickNode S sr x vs i)
    refine ⟨by rw [List.foldl_cons, h1]; simp [tickNode], ?_⟩
    intro j v hv
    by_cases hij : i = j
    · obtain ⟨w, hw, hk⟩ := h2 j _ (by rw [tickNode, List.getElem?_modify, hv]; simp only [hij, if_true]; rfl)
      exact ⟨w, hw, hk⟩
    · obtain ⟨w, hw, hk⟩ := h2 j v (by rw [tickNode, List.getElem?_modify, hv]; simp [hij])
      exact ⟨w, hw, hk⟩

theorem ordered_tickOrdered {S : Units U α} {net : Net U α} (h : Ordered net) (x : List α) :
    Ordered (tickOrdered S net x).1 := by
  obtain ⟨h1, h2⟩ := tickNodes_get (S := S) net.sampleRate x (net.order.getD []) net.vertex
  obtain ⟨a, b⟩ := sameWiring_vertex (a := net) (b := (tickOrdered S net x).1) rfl rfl rfl rfl h1 (by
    intro i v w hv hw
    obtain ⟨w', hw', hk⟩ := h2 i v hv
    cases hw'.symm.trans hw; exact hk)
  exact h.kept a rfl rfl b

theorem ordered_edit [DecidableEq α] {E : Env U α} (hS : E.S.Lawful) {n m : NodeId} {net net' : Net U α}
    (h : WF E.S n net) (ho : Ordered net) (e : Edit U α) (hir : InRange net e)
    (he : e.apply E n net = some (net', m)) : Ordered net' := by
  have po : ∀ (x y : Net U α) a, pipeOutput x a = some y → y.order = none := by
    intro x y a hx
    simp only [pipeOutput, Option.bind_eq_bind, Option.bind_eq_some_iff] at hx
    obtain ⟨_, _, _, _, hx⟩ := hx
    cases hx; rfl
  have rm : ∀ a b x u, remove2 net a b = some (x, u) → Ordered x := by
    intro a b x u hx
    simp only [remove2, Option.bind_eq_bind, Option.bind_eq_some_iff] at hx
    obtain ⟨_, _, _, _, hx⟩ := hx
    obtain ⟨_, hx⟩ := ite_none_right hx
    split at hx
    · cases hx; exact ordered_none rfl
    · obtain ⟨_, _, hx⟩ := Option.bind_eq_some_iff.1 hx
      cases hx; exact ordered_none rfl
  have cf : ∀ (net1 y : Net U α) (x : NodeId) f t u, crossfade E.S net1 x f t u = some y → Ordered net1 → Ordered y := by
    intro net1 y x f t u hc ho
    simp only [crossfade, Option.bind_eq_bind, Option.bind_eq_some_iff] at hc
    obtain ⟨i, hi, v, hv, hc⟩ := hc
    obtain ⟨_, hc⟩ := ite_none_right hc
    split at hc
    · cases hc
      exact ho.kept ⟨rfl, rfl, rfl, rfl, rfl, (SameWiring.refl net1).node⟩ rfl rfl
        (fun i v w hv hw => by rw [show _ = net1.vertex from rfl, hv] at hw; cases hw; rfl)
    · cases hc
      exact ho.of_vertex rfl rfl rfl rfl rfl rfl (by exact List.length_set) (by exact sameWiring_set hv ⟨⟨rfl, rfl, rfl, rfl⟩, rfl⟩)
  have hrd := fun (x : Net U α) (hx : WF E.S n x) (hox : Ordered x) => (ordered_ready hS E.seed E.hash0 hx hox).1
  cases e <;> simp only [Edit.apply, Option.map_eq_some_iff, Prod.mk.injEq, Option.some.injEq] at he
  case push u => obtain ⟨rfl, rfl⟩ := he; exact ordered_none rfl
  case fadeIn f t u =>
    obtain ⟨x, hx, rfl, rfl⟩ := he
    exact cf _ _ _ _ _ _ hx (ordered_none rfl)
  case chain u =>
    obtain ⟨x, hx, rfl, rfl⟩ := he
    simp only [Net.chain, Option.bind_eq_bind, Option.bind_eq_some_iff] at hx
    obtain ⟨i, hi, hx⟩ := hx
    split at hx
    · split at hx
      · obtain ⟨y, hy, hx⟩ := Option.bind_eq_some_iff.1 hx
        exact ordered_none (po _ _ _ hx)
      · exact ordered_none (po _ _ _ hx)
    · exact ordered_none (po _ _ _ hx)
  case setSource =>
    obtain ⟨x, hx, rfl, rfl⟩ := he
    simp only [Net.setSource, Option.bind_eq_bind, Option.bind_eq_some_iff] at hx
    obtain ⟨i, hi, v, _, hx⟩ := hx
    split at hx
    · obtain ⟨hne, hx⟩ := ite_none_right hx
      rw [Option.bind_eq_some_iff] at hx
      obtain ⟨p, hp, hx⟩ := hx
      obtain ⟨_, hx⟩ := ite_none_right hx
      cases hx
      exact ordered_none rfl
    · cases hx
  case setOutputSource =>
    obtain ⟨x, hx, rfl, rfl⟩ := he
    simp only [Net.setOutputSource, Option.bind_eq_bind] at hx
    split at hx
    · simp only [Option.bind_eq_some_iff] at hx
      obtain ⟨p, hp, e, hoe, hx⟩ := hx
      cases hx; exact ordered_none rfl
    · cases hx
  case remove a =>
    obtain ⟨⟨x, u⟩, hx, rfl, rfl⟩ := he
    exact rm _ _ _ _ hx
  case removeLink a =>
    obtain ⟨⟨x, u⟩, hx, rfl, rfl⟩ := he
    exact rm _ _ _ _ hx
  case replace a u =>
    obtain ⟨⟨x, old⟩, hx, rfl, rfl⟩ := he
    simp only [Net.replace, Option.bind_eq_bind, Option.bind_eq_some_iff] at hx
    obtain ⟨i, hi, v, hv, hx⟩ := hx
    obtain ⟨_, hx⟩ := ite_none_right hx
    cases hx
    exact ho.of_vertex rfl rfl rfl rfl rfl rfl (by exact List.length_set) (by exact sameWiring_set hv ⟨⟨rfl, rfl, rfl, rfl⟩, rfl⟩)
  case crossfade a f t u =>
    obtain ⟨x, hx, rfl, rfl⟩ := he
    exact cf _ _ _ _ _ _ hx ho
  case connect =>
    obtain ⟨x, hx, rfl, rfl⟩ := he
    simp only [Net.connect, Option.bind_eq_bind] at hx
    split at hx
    · cases hx
    · simp only [Option.bind_eq_some_iff] at hx
      obtain ⟨si, hsi, ti, hti, v, _, hx⟩ := hx
      obtain ⟨_, hx⟩ := ite_none_right hx
      cases hx
      exact ordered_none rfl
  case disconnect =>
    obtain ⟨x, hx, rfl, rfl⟩ := he
    simp only [Net.disconnect, Option.bind_eq_bind, Option.bind_eq_some_iff] at hx
    obtain ⟨i, _, v, _, hx⟩ := hx
    obtain ⟨_, hx⟩ := ite_none_right hx
    cases hx
    exact ordered_none rfl
  case connectInput =>
    obtain ⟨x, hx, rfl, rfl⟩ := he
    simp only [Net.connectInput, Option.bind_eq_bind, Option.bind_eq_some_iff] at hx
    obtain ⟨i, _, v, _, hx⟩ := hx
    obtain ⟨_, hx⟩ := ite_none_right hx
    cases hx
    exact ordered_none rfl
  case pipeInput =>
    obtain ⟨x, hx, rfl, rfl⟩ := he
    simp only [Net.pipeInput, Option.bind_eq_bind, Option.bind_eq_some_iff] at hx
    obtain ⟨i, _, v, _, hx⟩ := hx
    cases hx
    exact ordered_none rfl
  case connectOutput =>
    obtain ⟨x, hx, rfl, rfl⟩ := he
    simp only [Net.connectOutput, Option.bind_eq_bind, Option.bind_eq_some_iff] at hx
    obtain ⟨i, _, hx⟩ := hx
    obtain ⟨_, hx⟩ := ite_none_right hx
    cases hx; exact ordered_none rfl
  case disconnectOutput =>
    obtain ⟨x, hx, rfl, rfl⟩ := he
    simp only [Net.disconnectOutput] at hx
    obtain ⟨_, hx⟩ := ite_none_right hx
    cases hx; exact ordered_none rfl
  case pipeOutput =>
    obtain ⟨x, hx, rfl, rfl⟩ := he
    exact ordered_none (po _ _ _ hx)
  case passThrough =>
    obtain ⟨x, hx, rfl, rfl⟩ := he
    simp only [Net.passThrough] at hx
    obtain ⟨_, hx⟩ := ite_none_right hx
    cases hx; exact ordered_none rfl
  case pipeAll =>
    obtain ⟨x, hx, rfl, rfl⟩ := he
    simp only [Net.pipeAll, Option.bind_eq_bind] at hx
    split at hx
    · cases hx; exact ho
    · simp only [Option.bind_eq_some_iff] at hx
      obtain ⟨si, hsi, ti, hti, sv, hsv, v, _, hx⟩ := hx
      cases hx
      exact ordered_none rfl
  case thru => obtain ⟨rfl, rfl⟩ := he; exact ordered_none rfl
  case error => obtain ⟨rfl, rfl⟩ := he; exact hrd net h ho
  case tick x =>
    obtain ⟨rfl, rfl⟩ := he
    exact ordered_tickOrdered (hrd net h ho) x
  case reset =>
    obtain ⟨rfl, rfl⟩ := he
    have hw := (wf_edit hS h .reset hir rfl).1
    simp only [Net.reset] at hw ⊢
    split
    · exact ho.of_vertex rfl rfl rfl rfl rfl rfl (by exact List.length_map _) (by exact sameWiring_map (fun v => ⟨⟨rfl, rfl, rfl, rfl⟩, rfl⟩))
    · exact ordered_determineOrder hS _ _ (wf_mapUnits h E.S.reset (fun u => ⟨hS.ins_reset u, hS.outs_reset u⟩) net.sampleRate net.revision)
  case setSampleRate r =>
    obtain ⟨rfl, rfl⟩ := he
    simp only [Net.setSampleRate]
    split
    · exact ho
    · split
      · exact ho.of_vertex rfl rfl rfl rfl rfl rfl (by exact List.length_map _) (by exact sameWiring_map (fun v => ⟨⟨rfl, rfl, rfl, rfl⟩, rfl⟩))
      · exact ordered_determineOrder hS _ _ (wf_mapUnits h (E.S.setSR r) (fun u => ⟨hS.ins_setSR r u, hS.outs_setSR r u⟩) r net.revision)

theorem Reach.ordered [DecidableEq α] {E : Env U α} (hS : E.S.Lawful) {n : NodeId} {net : Net U α}
    (h : Reach E InRange n net) : Ordered net := by
  have pout : ∀ (x y : Net U α) a, pipeOutput x a = some y → y.order = none := by
    intro x y a hx
    simp only [pipeOutput, Option.bind_eq_bind, Option.bind_eq_some_iff] at hx
    obtain ⟨_, _, _, _, hx⟩ := hx
    cases hx; rfl
  have pin : ∀ (x y : Net U α) a, pipeInput x a = some y → y.order = none := by
    intro x y a hx
    simp only [pipeInput, Option.bind_eq_bind, Option.bind_eq_some_iff] at hx
    obtain ⟨_, _, _, _, hx⟩ := hx
    cases hx; rfl
  induction h with
  | new n sr i o => exact ordered_none rfl
  | wrap h =>
    simp only [Net.wrap, Option.bind_eq_bind] at h
    split at h
    · rw [Option.bind_eq_some_iff] at h
      obtain ⟨x, h1, h⟩ := h
      split at h
      · exact ordered_none (pout _ _ _ h)
      · cases h; exact ordered_none (pin _ _ _ h1)
    · simp only [Option.bind_some] at h
      split at h
      · exact ordered_none (pout _ _ _ h)
      · cases h; exact ordered_none rfl
  | @scalar n sr k x net h =>
    have key : ∀ (cs : List Nat) (a b : Net U α), a.order = none →
        cs.foldlM (fun net i => connectOutput net n 0 i) a = some b → b.order = none := by
      intro cs
      induction cs with
      | nil => intro a b ha h; simp at h; exact h ▸ ha
      | cons c cs ih =>
        intro a b ha h
        simp only [List.foldlM_cons, Option.bind_eq_bind, Option.bind_eq_some_iff] at h
        obtain ⟨a', h1, h2⟩ := h
        refine ih a' b ?_ h2
        simp only [connectOutput, Option.bind_eq_bind, Option.bind_eq_some_iff] at h1
        obtain ⟨_, _, h1⟩ := h1
        obtain ⟨_, h1⟩ := ite_none_right h1
        cases h1; rfl
    exact ordered_none (key _ _ _ rfl h)
  | later _ hm ih => exact ih
  | edit hr e he ha ih => exact ordered_edit hS (hr.wf hS) ih e he ha
  | op ha hb o h iha ihb =>
    obtain ⟨g, hj⟩ := joined_of_op2 hS (ha.wf hS) (hb.wf hS) o h
    exact ordered_none hj.order
  | neg ha h ih =>
    simp only [Net.neg, Option.bind_eq_bind, Option.bind_eq_some_iff] at h
    obtain ⟨z, hz, h⟩ := h
    exact ordered_none (binary_struct hS (wf_scalar hS hz) ((ha.wf hS).mono (Nat.le_succ _)) h).2.1.order

/-- **C02** for any history: `error()` reports a cycle exactly when the present wiring has one. -/
theorem C02_error [DecidableEq α] (E : Env U α) (hS : E.S.Lawful) {n : NodeId} {net : Net U α}
    (h : Reach E InRange n net) : (ready E.S E.seed E.hash0 net).cycleError = true ↔ Cyclic net := by
  have hw := h.wf hS
  have ho := h.ordered hS
  unfold ready
  split
  · rename_i hs
    obtain ⟨o, h1⟩ := Option.isSome_iff_exists.1 hs
    exact (ho o h1).err
  · obtain ⟨o, _, _, h3, _⟩ := C02_net_order hS E.seed E.hash0 hw
    exact h3

/-! ## Specification: the dataflow equations of one sample -/

/-- Current value on a port, given the current outputs of all nodes. -/
def portVal (S : Units U α) (input : List α) (out : Nat → List α) : Port → α
  | .zero => S.zero
  | .glob p => input.getD p S.zero
  | .loc i p => (out i).getD p S.zero

/-- The dataflow equations: every node makes one step, reading the current outputs of its sources. -/
def Solves (S : Units U α) (net : Net U α) (input : List α) (eng' : Nat → Eng U α) (out : Nat → List α) : Prop :=
  ∀ (i : Nat) (v : Vertex U α), net.vertex[i]? = some v →
    v.eng.tick S net.sampleRate ((v.source.take v.ins).map (fun e => portVal S input out e.source)) = (eng' i, out i)

/-- The step of a node that is not being crossfaded is one tick of its unit. -/
theorem Eng.tick_plain (S : Units U α) (sr : α) (e : Eng U α) (h : e.next.unit = none) (x : List α) :
    e.tick S sr x = ({ e with unit := (S.utick e.unit x).1 }, (S.utick e.unit x).2) := by
  simp [Eng.tick, h]

/-- An order in which every node comes after the nodes it reads. -/
structure EvalOrder (net : Net U α) (order : List Nat) : Prop where
  perm : order.Perm (List.range net.vertex.length)
  topo : ∀ a i b, order = a ++ i :: b → ∀ j, Wire net i j → j ∈ a

theorem OrderFits.eval {net : Net U α} {order : List Nat} (h : OrderFits net order) (hc : ¬ Cyclic net) : EvalOrder net order :=
  ⟨h.perm, h.topo hc⟩

/-- Outputs of the nodes as stored. -/
def outsOf (vs : List (Vertex U α)) (i : Nat) : List α := ((vs[i]?).map Vertex.tickOut).getD []

theorem readPort_outsOf (S : Units U α) (vs : List (Vertex U α)) (input : List α) (p : Port) :
    readPort S vs input p = portVal S input (outsOf vs) p := by
  cases p with
  | zero => rfl
  | glob g => rfl
  | loc i p =>
    simp only [readPort, portVal, outsOf]
    cases vs[i]? <;> simp

theorem portVal_congr (S : Units U α) (input : List α) {out out' : Nat → List α} (p : Port)
    (h : ∀ j q, p = .loc j q → out j = out' j) : portVal S input out p = portVal S input out' p := by
  cases p with
  | zero => rfl
  | glob g => rfl
  | loc i p => simp only [portVal, h i p rfl]

/-- What a prefix of an evaluation order has computed. -/
theorem ticks_prefix {S : Units U α} (net : Net U α) (input : List α) (order : List Nat) (hn : order.Nodup)
    (ht : ∀ a i b, order = a ++ i :: b → ∀ j, Wire net i j → j ∈ a) (a b : List Nat) (hab : order = a ++ b) :
    ∀ (i : Nat) (v : Vertex U α), net.vertex[i]? = some v →
      (i ∈ a → (a.foldl (tickNode S net.sampleRate input) net.vertex)[i]? = some
        (let r := v.eng.tick S net.sampleRate ((v.source.take v.ins).map (fun e =>
          portVal S input (outsOf (a.foldl (tickNode S net.sampleRate input) net.vertex)) e.source))
         { v with eng := r.1, tickOut := r.2 })) ∧
      (i ∉ a → (a.foldl (tickNode S net.sampleRate input) net.vertex)[i]? = some v) := by
  induction a using List.reverseRecOn generalizing b with
  | nil => intro i v hv; exact ⟨fun h => (List.not_mem_nil h).elim, fun _ => hv⟩
  | append_singleton a k ih =>
    have ih' := ih (k :: b) (by rw [hab]; simp)
    have hka : k ∉ a := by
      rw [hab, List.append_assoc] at hn
      intro hk
      exact (List.nodup_append.1 hn).2.2 k hk k (by simp) rfl
    have hsrc : ∀ i, i ∈ a ∨ i = k → ∀ j, Wire net i j → j ∈ a := by
      intro i hi j hj
      rcases hi with hi | rfl
      · obtain ⟨x, y, hxy⟩ := List.append_of_mem hi
        have := ht x i (y ++ (k :: b)) (by rw [hab, hxy]; simp) j hj
        rw [hxy]; simp [this]
      · exact ht a i b (by rw [hab]; simp) j hj
    rw [List.foldl_append]
    simp only [List.foldl_cons, List.foldl_nil]
    generalize hF : a.foldl (tickNode S net.sampleRate input) net.vertex = F at ih' ⊢
    -- outputs of nodes of `a` are not touched by the last step
    have hout : ∀ j, j ∈ a → outsOf (tickNode S net.sampleRate input F k) j = outsOf F j := by
      intro j hj
      have : k ≠ j := by rintro rfl; exact hka hj
      simp [outsOf, tickNode, List.getElem?_modify, this]
    have hread : ∀ (i : Nat) (v : Vertex U α), net.vertex[i]? = some v → (i ∈ a ∨ i = k) →
        (v.source.take v.ins).map (fun e => portVal S input (outsOf (tickNode S net.sampleRate input F k)) e.source) =
        (v.source.take v.ins).map (fun e => portVal S input (outsOf F) e.source) := by
      intro i v hv hi
      apply List.map_congr_left
      intro e he
      apply portVal_congr
      intro j q hp
      obtain ⟨c, hc⟩ := List.getElem?_of_mem (List.mem_of_mem_take he)
      exact hout j (hsrc i hi j ⟨v, c, e, q, hv, hc, hp⟩)
    intro i v hv
    constructor
    · intro hi
      rw [List.mem_append, List.mem_singleton] at hi
      rw [hread i v hv hi]
      rcases hi with hi | rfl
      · have : k ≠ i := by rintro rfl; exact hka hi
        rw [tickNode, List.getElem?_modify, (ih' i v hv).1 hi]
        simp [this]
      · rw [tickNode, List.getElem?_modify, (ih' i v hv).2 hka]
        simp only [if_true, Option.map_eq_map, Option.map_some, readPort_outsOf]
    · intro hi
      have h1 : i ∉ a := fun h => hi (by simp [h])
      have h2 : k ≠ i := by rintro rfl; exact hi (by simp)
      rw [tickNode, List.getElem?_modify, (ih' i v hv).2 h1]
      simp [h2]

/-- Ticking in any evaluation order solves the dataflow equations. -/
theorem tickOrdered_solves {S : Units U α} (net : Net U α) (input : List α) {order : List Nat} (ho : net.order = some order)
    (h : EvalOrder net order) : ∃ eng' out, Solves S net input eng' out ∧
      (tickOrdered S net input).1 = { net with vertex := (tickOrdered S net input).1.vertex } ∧
      (tickOrdered S net input).1.vertex.length = net.vertex.length ∧
      (∀ (i : Nat) (v : Vertex U α), net.vertex[i]? = some v →
        (tickOrdered S net input).1.vertex[i]? = some { v with eng := eng' i, tickOut := out i }) ∧
      (tickOrdered S net input).2 = (net.outputEdge.take net.outputs).map (fun e => portVal S input out e.source) := by
  have hn : order.Nodup := h.perm.nodup_iff.2 List.nodup_range
  have hp := ticks_prefix (S := S) net input order hn h.topo order [] (by simp)
  have hF : (tickOrdered S net input).1.vertex = order.foldl (tickNode S net.sampleRate input) net.vertex := by
    simp [tickOrdered, ho]
  have hO : (tickOrdered S net input).2 = (net.outputEdge.take net.outputs).map (fun e =>
      readPort S (order.foldl (tickNode S net.sampleRate input) net.vertex) input e.source) := by
    simp [tickOrdered, ho]
  have hl := (tickNodes_get (S := S) net.sampleRate input order net.vertex).1
  rw [hF]
  generalize order.foldl (tickNode S net.sampleRate input) net.vertex = F at hp hF hO hl
  have hget : ∀ (i : Nat) (v : Vertex U α), net.vertex[i]? = some v → F[i]? = some
        (let r := v.eng.tick S net.sampleRate ((v.source.take v.ins).map (fun e => portVal S input (outsOf F) e.source))
         { v with eng := r.1, tickOut := r.2 }) := by
    intro i v hv
    refine (hp i v hv).1 (h.perm.mem_iff.2 (List.mem_range.2 (List.getElem?_eq_some_iff.1 hv).1))
  refine ⟨fun i => match F[i]? with | some w => w.eng | none => ⟨(S.const S.zero), S.zero, NodeEdit.empty S, NodeEdit.empty S⟩,
    outsOf F, ?_, ?_, hl, ?_, ?_⟩
  · intro i v hv
    have := hget i v hv
    simp only [this, outsOf, Option.map_some, Option.getD_some, Prod.mk.eta]
  · rw [← hF]; rfl
  · intro i v hv
    have := hget i v hv
    rw [this]
    simp only [outsOf, this, Option.map_some, Option.getD_some]
  · rw [hO]
    simp only [readPort_outsOf]

/-- The dataflow equations of an acyclic net have only one solution. -/
theorem solves_unique {S : Units U α} {net : Net U α} (hv : Valid S net) {order : List Nat} (h : EvalOrder net order)
    {input : List α} {e1 e2 : Nat → Eng U α} {o1 o2 : Nat → List α} (h1 : Solves S net input e1 o1)
    (h2 : Solves S net input e2 o2) : ∀ i, i < net.vertex.length → e1 i = e2 i ∧ o1 i = o2 i := by
  have key : ∀ (b a : List Nat), order = a ++ b → ∀ i ∈ a, i < net.vertex.length → e1 i = e2 i ∧ o1 i = o2 i := by
    intro b a
    induction a using List.reverseRecOn generalizing b with
    | nil => intro _ i hi; cases hi
    | append_singleton a k ih =>
      intro hab i hi hlt
      have hab' : order = a ++ k :: b := by rw [hab]; simp
      rw [List.mem_append, List.mem_singleton] at hi
      rcases hi with hi | rfl
      · exact ih (k :: b) hab' i hi hlt
      · have hg : net.vertex[i]? = some net.vertex[i] := List.getElem?_eq_getElem hlt
        have q1 := h1 i _ hg
        have q2 := h2 i _ hg
        have : (net.vertex[i].source.take net.vertex[i].ins).map (fun e => portVal S input o1 e.source) =
            (net.vertex[i].source.take net.vertex[i].ins).map (fun e => portVal S input o2 e.source) := by
          apply List.map_congr_left
          intro e he
          apply portVal_congr
          intro j q hp
          obtain ⟨c, hc⟩ := List.getElem?_of_mem (List.mem_of_mem_take he)
          have hj := h.topo a i b hab' j ⟨_, c, e, q, hg, hc, hp⟩
          have hpo := (hv.edge i _ c e hg hc).2
          rw [hp] at hpo
          obtain ⟨w, hw, _⟩ := hpo
          exact (ih (i :: b) hab' j hj (List.getElem?_eq_some_iff.1 hw).1).2
        rw [this, q2] at q1
        exact ⟨(congrArg Prod.fst q1).symm, (congrArg Prod.snd q1).symm⟩
  intro i hi
  exact key [] order (by simp) i (h.perm.mem_iff.2 (List.mem_range.2 hi)) hi

/-! ## C07 in terms of node ids -/

/-- Current value of a source, given the current outputs of the nodes. -/
def srcVal (S : Units U α) (input : List α) (val : NodeId → List α) : Source → α
  | .zero => S.zero
  | .glob p => input.getD p S.zero
  | .loc id p => (val id).getD p S.zero

/-- A crossfade is in progress in the node. -/
def fading (net : Net U α) (id : NodeId) : Bool :=
  ((net.nodeIndex.get id).bind (fun i => (net.vertex[i]?).map (fun v => v.eng.next.unit.isSome))).getD false

theorem ready_sameWiring {S : Units U α} (hS : S.Lawful) (seed : Nat → Nat) (h0 : Nat) (net : Net U α) :
    SameWiring net (ready S seed h0 net) := by
  unfold ready
  split
  · exact SameWiring.refl net
  · exact (determineOrder_spec hS seed h0 net).1

theorem wf_ready {S : Units U α} (hS : S.Lawful) (seed : Nat → Nat) (h0 : Nat) {n : NodeId} {net : Net U α} (h : WF S n net) :
    WF S n (ready S seed h0 net) := by
  unfold ready
  split
  · exact h
  · exact wf_determineOrder hS seed h0 h

/-- A reachable acyclic net is evaluated in a proper order. -/
theorem Reach.eval [DecidableEq α] {E : Env U α} (hS : E.S.Lawful) {n : NodeId} {net : Net U α}
    (h : Reach E InRange n net) (hc : ¬ Cyclic net) :
    ∃ order, (ready E.S E.seed E.hash0 net).order = some order ∧ EvalOrder (ready E.S E.seed E.hash0 net) order := by
  obtain ⟨h1, h2⟩ := ordered_ready hS E.seed E.hash0 (h.wf hS) (h.ordered hS)
  obtain ⟨o, ho⟩ := Option.isSome_iff_exists.1 h2
  exact ⟨o, ho, (h1 o ho).eval (fun c => hc ((cyclic_sameWiring (ready_sameWiring hS _ _ net)).1 c))⟩

/-- **C07**: one tick of an acyclic net runs the unit of every node that is not being crossfaded exactly once, on the
current values of its sources; the outputs of the net are the current values of the output sources. -/
theorem C07_tick [DecidableEq α] (E : Env U α) (hS : E.S.Lawful) {n : NodeId} {net : Net U α} (h : Reach E InRange n net)
    (hc : ¬ Cyclic net) (input : List α) (net' : Net U α) (y : List α)
    (ht : tick E.S E.seed E.hash0 net input = (net', y)) : ∃ val : NodeId → List α,
      (∀ id u, unitOf (ready E.S E.seed E.hash0 net) id = some u → fading net id = false →
        ∃ xs : List α, xs.length = E.S.ins u ∧
          (∀ c, c < E.S.ins u → ∃ s, source net id c = some s ∧ xs[c]? = some (srcVal E.S input val s)) ∧
          unitOf net' id = some (E.S.utick u xs).1 ∧ val id = (E.S.utick u xs).2) ∧
      y.length = net.outputs ∧
      (∀ c, c < net.outputs → ∃ s, outputSource net c = some s ∧ y[c]? = some (srcVal E.S input val s)) := by
  obtain ⟨o, ho, hev⟩ := h.eval hS hc
  have hw := wf_ready hS E.seed E.hash0 (h.wf hS)
  have hsw := ready_sameWiring hS E.seed E.hash0 net
  have hnext : ∀ (i : Nat) (v w : Vertex U α), net.vertex[i]? = some v →
      (ready E.S E.seed E.hash0 net).vertex[i]? = some w → w.eng.next = v.eng.next := by
    intro i v w hv hw
    unfold ready at hw
    split at hw
    · rw [hv] at hw; cases hw; rfl
    · exact ((determineOrder_spec hS E.seed E.hash0 net).2 i v w hv hw).2.1
  obtain ⟨eng', out, h1, h2, h3, h4, h5⟩ := tickOrdered_solves (S := E.S) (ready E.S E.seed E.hash0 net) input ho hev
  have htick : tickOrdered E.S (ready E.S E.seed E.hash0 net) input = (net', y) := ht
  generalize ready E.S E.seed E.hash0 net = r at *
  have e1 : (tickOrdered E.S r input).1 = net' := congrArg Prod.fst htick
  have e2 : (tickOrdered E.S r input).2 = y := congrArg Prod.snd htick
  rw [e1] at h2 h3 h4; rw [e2] at h5
  let val : NodeId → List α := fun id => ((r.nodeIndex.get id).map out).getD []
  have hval : ∀ (i : Nat) (v : Vertex U α), r.vertex[i]? = some v → val v.id = out i := by
    intro i v hv
    simp only [val, hw.valid.get_of hv, Option.map_some, Option.getD_some]
  -- reported sources have the value on the port
  have hport : ∀ p, PortOK r p → ∃ s, reportSource net p = some s ∧ srcVal E.S input val s = portVal E.S input out p := by
    intro p hp
    cases p with
    | zero => exact ⟨_, rfl, rfl⟩
    | glob g => exact ⟨_, rfl, rfl⟩
    | loc j q =>
      obtain ⟨w, hwj, _⟩ := hp
      obtain ⟨v, hv⟩ := hsw.find hwj
      refine ⟨.loc v.id q, by simp [reportSource, hv], ?_⟩
      simp only [srcVal, portVal]
      rw [← (hsw.node j v w hv hwj).1, hval j w hwj]
  have hnv := h.wf hS |>.valid
  refine ⟨val, ?_, ?_, ?_⟩
  · intro id u hu hf
    simp only [unitOf, Option.bind_eq_some_iff, Option.map_eq_some_iff] at hu
    obtain ⟨i, hi, v, hv, rfl⟩ := hu
    obtain ⟨v0, hv0⟩ := hsw.find hv
    obtain ⟨k1, k2, k3, k4⟩ := hsw.node i v0 v hv0 hv
    have hid : v.id = id := by
      obtain ⟨w, hw1, hw2⟩ := (hw.valid.map id i).1 hi
      rw [hv] at hw1; cases hw1; exact hw2
    have hidn : net.nodeIndex.get id = some i := by rw [← hsw.index]; exact hi
    have hnf : v.eng.next.unit = none := by
      rw [hnext i v0 v hv0 hv]
      simpa [fading, hidn, hv0] using hf
    obtain ⟨a1, a2, a3⟩ := hw.valid.arity i v hv
    have hs := h1 i v hv
    rw [Eng.tick_plain _ _ _ hnf] at hs
    refine ⟨(v.source.take v.ins).map (fun e => portVal E.S input out e.source), ?_, ?_, ?_, ?_⟩
    · simp only [List.length_map, List.length_take, a1]; omega
    · intro c hcl
      have hcs : c < v.source.length := by omega
      obtain ⟨s, hs1, hs2⟩ := hport _ (hw.valid.edge i v c _ hv (List.getElem?_eq_getElem hcs)).2
      refine ⟨s, ?_, ?_⟩
      · simp only [source, hidn, Option.bind_eq_bind, Option.bind_some, hv0]
        rw [if_pos (by omega), ← k4, List.getElem?_eq_getElem hcs]
        exact hs1
      · rw [List.getElem?_map, List.getElem?_take, if_pos (by omega), List.getElem?_eq_getElem hcs, hs2]
        rfl
    · have hi' : net'.nodeIndex.get id = some i := by rw [h2]; exact hi
      simp only [unitOf, hi', Option.bind_some, h4 i v hv, Option.map_some]
      have hs1 : eng' i = _ := (congrArg Prod.fst hs).symm
      rw [hs1]
    · rw [← hid, hval i v hv]
      exact (congrArg Prod.snd hs).symm
  · rw [h5, List.length_map, List.length_take, hw.valid.oeLen, hsw.outputs]; omega
  · intro c hcl
    have hco : c < r.outputEdge.length := by rw [hw.valid.oeLen, hsw.outputs]; exact hcl
    obtain ⟨s, hs1, hs2⟩ := hport _ (hw.valid.oe c _ (List.getElem?_eq_getElem hco)).2
    refine ⟨s, ?_, ?_⟩
    · simp only [outputSource, hcl, if_true]
      rw [← hsw.oe, List.getElem?_eq_getElem hco]
      exact hs1
    · rw [h5, List.getElem?_map, List.getElem?_take, if_pos (by rw [hsw.outputs]; exact hcl), List.getElem?_eq_getElem hco, hs2]
      rfl

/-- **C07** (order independence): any two orders in which nodes come after what they read give the same outputs and
the same state of every node. -/
theorem C07_order_independent {S : Units U α} {n : NodeId} {net : Net U α} (h : WF S n net) {o1 o2 : List Nat}
    (h1 : EvalOrder net o1) (h2 : EvalOrder net o2) (input : List α) :
    (tickOrdered S { net with order := some o1 } input).2 = (tickOrdered S { net with order := some o2 } input).2 ∧
    (tickOrdered S { net with order := some o1 } input).1.vertex = (tickOrdered S { net with order := some o2 } input).1.vertex := by
  obtain ⟨e1, t1, a1, _, b1, c1, d1⟩ := tickOrdered_solves (S := S) { net with order := some o1 } input rfl ⟨h1.perm, h1.topo⟩
  obtain ⟨e2, t2, a2, _, b2, c2, d2⟩ := tickOrdered_solves (S := S) { net with order := some o2 } input rfl ⟨h2.perm, h2.topo⟩
  have hu := solves_unique (S := S) (net := net) h.valid h1 (input := input) a1 a2
  refine ⟨?_, ?_⟩
  · rw [d1, d2]
    apply List.map_congr_left
    intro e he
    apply portVal_congr
    intro j q hp
    obtain ⟨c, hc⟩ := List.getElem?_of_mem (List.mem_of_mem_take he)
    have := (h.valid.oe c e hc).2
    rw [hp] at this
    obtain ⟨w, hw, _⟩ := this
    exact (hu j (List.getElem?_eq_some_iff.1 hw).1).2
  · apply List.ext_getElem?
    intro i
    cases hv : net.vertex[i]? with
    | none =>
      have hi := List.getElem?_eq_none_iff.1 hv
      rw [List.getElem?_eq_none (by rw [b1]; exact hi), List.getElem?_eq_none (by rw [b2]; exact hi)]
    | some v =>
      obtain ⟨x1, x2⟩ := hu i (List.getElem?_eq_some_iff.1 hv).1
      rw [c1 i v hv, c2 i v hv, x1, x2]

/-- **C07** (unique solution): the outcome of a tick is the only solution of the dataflow equations; this covers nodes
that are being crossfaded. -/
theorem C07_unique [DecidableEq α] (E : Env U α) (hS : E.S.Lawful) {n : NodeId} {net : Net U α} (h : Reach E InRange n net)
    (hc : ¬ Cyclic net) (input : List α) {eng' : Nat → Eng U α} {out : Nat → List α}
    (hs : Solves E.S (ready E.S E.seed E.hash0 net) input eng' out) :
    (tick E.S E.seed E.hash0 net input).2 =
      ((ready E.S E.seed E.hash0 net).outputEdge.take net.outputs).map (fun e => portVal E.S input out e.source) ∧
    ∀ (i : Nat) (v : Vertex U α), (ready E.S E.seed E.hash0 net).vertex[i]? = some v →
      (tick E.S E.seed E.hash0 net input).1.vertex[i]? = some { v with eng := eng' i, tickOut := out i } := by
  obtain ⟨o, ho, hev⟩ := h.eval hS hc
  have hw := wf_ready hS E.seed E.hash0 (h.wf hS)
  have hsw := ready_sameWiring hS E.seed E.hash0 net
  obtain ⟨e1, t1, a1, _, b1, c1, d1⟩ := tickOrdered_solves (S := E.S) _ input ho hev
  have hu := solves_unique hw.valid hev hs a1
  constructor
  · show (tickOrdered E.S (ready E.S E.seed E.hash0 net) input).2 = _
    rw [d1, hsw.outputs]
    apply List.map_congr_left
    intro e he
    apply portVal_congr
    intro j q hp
    obtain ⟨c, hc⟩ := List.getElem?_of_mem (List.mem_of_mem_take he)
    have := (hw.valid.oe c e hc).2
    rw [hp] at this
    obtain ⟨w, hw, _⟩ := this
    exact (hu j (List.getElem?_eq_some_iff.1 hw).1).2.symm
  · intro i v hv
    obtain ⟨x1, x2⟩ := hu i (List.getElem?_eq_some_iff.1 hv).1
    show (tickOrdered E.S (ready E.S E.seed E.hash0 net) input).1.vertex[i]? = _
    rw [c1 i v hv, x1, x2]

/-- A generator pushed after the filter it feeds; the filter also reads the net input through another filter. -/
example : ∃ net m, Reach demoEnv InRange m net ∧ ¬ Cyclic net ∧ size net = 3 ∧ net.order = none ∧
    (tick demo id 0 net [10]).2 = [11, 10] := by
  have h0 : Reach demoEnv InRange 0 (new 44100 1 2 : Net DU Int) := .new 0 _ 1 2
  have h1 := h0.edit (.push ⟨2, 1, 0, 0, none⟩) trivial rfl
  have h2 := h1.edit (.push fil1) trivial rfl
  have h3 := h2.edit (.push gen1) trivial rfl
  have h4 := h3.edit (.connectInput 0 1 0) (by show 0 < 1; decide) rfl
  have h5 := h4.edit (.connect 1 0 0 0) (by intro o ho; cases ho; decide) rfl
  have h6 := h5.edit (.connect 2 0 0 1) (by intro o ho; cases ho; decide) rfl
  have h7 := h6.edit (.connectOutput 0 0 0) (by intro o ho; cases ho; decide) rfl
  have h8 := h7.edit (.connectOutput 1 0 1) (by intro o ho; cases ho; decide) rfl
  refine ⟨_, _, h8, ?_, rfl, rfl, rfl⟩
  rw [← C02_error demoEnv demo_lawful h8]
  decide

end Fundsp.Net
