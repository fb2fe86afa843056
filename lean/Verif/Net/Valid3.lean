import Verif.Net.Valid2

/-! # Well-formed nets, continued: fades, running, graph operators -/

namespace Fundsp.Net
variable {U α : Type}

/-- Units being faded in have the arity of their node. -/
def Fades (S : Units U α) (net : Net U α) : Prop :=
  ∀ (i : Nat) (v : Vertex U α), net.vertex[i]? = some v → ∀ u,
    (v.eng.next.unit = some u ∨ v.eng.latest.unit = some u) → S.ins u = v.ins ∧ S.outs u = v.outs

/-- The invariant of nets built with the public API. -/
structure WF (S : Units U α) (next : NodeId) (net : Net U α) : Prop where
  valid : Valid S net
  noSelf : NoSelf net
  fades : Fades S net
  below : Below next net

/-- Every vertex of `b` is a vertex of `a` with the same fades and arity. -/
def Origin (a b : Net U α) : Prop :=
  ∀ (i : Nat) (w : Vertex U α), b.vertex[i]? = some w → ∃ (j : Nat) (v : Vertex U α), a.vertex[j]? = some v ∧
    w.eng.next.unit = v.eng.next.unit ∧ w.eng.latest.unit = v.eng.latest.unit ∧ w.ins = v.ins ∧ w.outs = v.outs

theorem Fades.of_origin {S : Units U α} {a b : Net U α} (h : Fades S a) (ho : Origin a b) : Fades S b := by
  intro i w hw u hu
  obtain ⟨j, v, hv, h1, h2, h3, h4⟩ := ho i w hw
  rw [h3, h4]
  exact h j v hv u (by rw [← h1, ← h2]; exact hu)

theorem origin_modify (a b : Net U α) (i : Nat) (f : Vertex U α → Vertex U α)
    (hb : b.vertex = a.vertex.modify i f)
    (hf : ∀ v, (f v).eng.next.unit = v.eng.next.unit ∧ (f v).eng.latest.unit = v.eng.latest.unit ∧
      (f v).ins = v.ins ∧ (f v).outs = v.outs) : Origin a b := by
  intro j w hw
  rw [hb, List.getElem?_modify] at hw
  cases hv : a.vertex[j]? with
  | none => simp [hv] at hw
  | some v =>
    by_cases hij : i = j
    · subst hij; simp [hv] at hw; subst hw; exact ⟨i, v, hv, hf v⟩
    · simp [hv, hij] at hw; subst hw; exact ⟨j, v, hv, rfl, rfl, rfl, rfl⟩

theorem origin_refl (a b : Net U α) (h : b.vertex = a.vertex) : Origin a b := by
  intro i w hw; rw [h] at hw; exact ⟨i, w, hw, rfl, rfl, rfl, rfl⟩

theorem origin_trans {a b c : Net U α} (h1 : Origin a b) (h2 : Origin b c) : Origin a c := by
  intro i w hw
  obtain ⟨j, v, hv, a1, a2, a3, a4⟩ := h2 i w hw
  obtain ⟨k, x, hx, b1, b2, b3, b4⟩ := h1 j v hv
  exact ⟨k, x, hx, a1.trans b1, a2.trans b2, a3.trans b3, a4.trans b4⟩

theorem origin_setSource {net net' : Net U α} {n c s} (he : setSource net n c s = some net') : Origin net net' := by
  simp only [setSource, Option.bind_eq_bind, Option.bind_eq_some_iff] at he
  obtain ⟨i, hi, v, _, he⟩ := he
  split at he
  · obtain ⟨hne, he⟩ := ite_none_right he
    rw [Option.bind_eq_some_iff] at he
    obtain ⟨p, hp, he⟩ := he
    obtain ⟨_, he⟩ := ite_none_right he
    cases he
    exact origin_modify _ _ _ _ rfl (fun v => ⟨rfl, rfl, rfl, rfl⟩)
  · cases he

theorem origin_setOutputSource {net net' : Net U α} {c s} (he : setOutputSource net c s = some net') :
    Origin net net' := by
  simp only [setOutputSource, Option.bind_eq_bind] at he
  split at he
  · simp only [Option.bind_eq_some_iff] at he
    obtain ⟨p, hp, e, hoe, he⟩ := he
    cases he
    exact origin_refl _ _ rfl
  · cases he

theorem origin_connect {net net' : Net U α} {s sp t tp} (he : connect net s sp t tp = some net') : Origin net net' := by
  simp only [connect, Option.bind_eq_bind] at he
  split at he
  · cases he
  · simp only [Option.bind_eq_some_iff] at he
    obtain ⟨si, hsi, ti, hti, v, _, he⟩ := he
    obtain ⟨_, he⟩ := ite_none_right he
    cases he
    exact origin_modify _ _ _ _ rfl (fun v => ⟨rfl, rfl, rfl, rfl⟩)

theorem origin_disconnect {net net' : Net U α} {n p} (he : disconnect net n p = some net') : Origin net net' := by
  simp only [disconnect, Option.bind_eq_bind, Option.bind_eq_some_iff] at he
  obtain ⟨i, _, v, _, he⟩ := he
  obtain ⟨_, he⟩ := ite_none_right he
  cases he
  exact origin_modify _ _ _ _ rfl (fun v => ⟨rfl, rfl, rfl, rfl⟩)

theorem origin_connectInput {net net' : Net U α} {g t tp} (he : connectInput net g t tp = some net') :
    Origin net net' := by
  simp only [connectInput, Option.bind_eq_bind, Option.bind_eq_some_iff] at he
  obtain ⟨i, _, v, _, he⟩ := he
  obtain ⟨_, he⟩ := ite_none_right he
  cases he
  exact origin_modify _ _ _ _ rfl (fun v => ⟨rfl, rfl, rfl, rfl⟩)

theorem origin_pipeInput {net net' : Net U α} {t} (he : pipeInput net t = some net') : Origin net net' := by
  simp only [pipeInput, Option.bind_eq_bind, Option.bind_eq_some_iff] at he
  obtain ⟨i, _, v, _, he⟩ := he
  cases he
  exact origin_modify _ _ _ _ rfl (fun v => ⟨rfl, rfl, rfl, rfl⟩)

theorem origin_connectOutput {net net' : Net U α} {s sp g} (he : connectOutput net s sp g = some net') :
    Origin net net' := by
  simp only [connectOutput, Option.bind_eq_bind, Option.bind_eq_some_iff] at he
  obtain ⟨i, _, he⟩ := he
  obtain ⟨_, he⟩ := ite_none_right he
  cases he; exact origin_refl _ _ rfl

theorem origin_disconnectOutput {net net' : Net U α} {c} (he : disconnectOutput net c = some net') :
    Origin net net' := by
  simp only [disconnectOutput] at he
  obtain ⟨_, he⟩ := ite_none_right he
  cases he; exact origin_refl _ _ rfl

theorem origin_passThrough {net net' : Net U α} {i c} (he : passThrough net i c = some net') : Origin net net' := by
  simp only [passThrough] at he
  obtain ⟨_, he⟩ := ite_none_right he
  cases he; exact origin_refl _ _ rfl

theorem origin_pipeOutput {net net' : Net U α} {s} (he : pipeOutput net s = some net') : Origin net net' := by
  simp only [pipeOutput, Option.bind_eq_bind, Option.bind_eq_some_iff] at he
  obtain ⟨si, hsi, sv, hsv, he⟩ := he
  cases he; exact origin_refl _ _ rfl

theorem origin_pipeAll {net net' : Net U α} {s t} (he : pipeAll net s t = some net') : Origin net net' := by
  simp only [pipeAll, Option.bind_eq_bind] at he
  split at he
  · cases he; exact origin_refl _ _ rfl
  · simp only [Option.bind_eq_some_iff] at he
    obtain ⟨si, hsi, ti, hti, sv, hsv, v, _, he⟩ := he
    cases he
    exact origin_modify _ _ _ _ rfl (fun v => ⟨rfl, rfl, rfl, rfl⟩)

theorem fades_push {S : Units U α} {net : Net U α} (h : Fades S net) (id : NodeId) (u : U) : Fades S (push S net id u) := by
  intro i v hv x hx
  rcases (getElem?_append_singleton _ _ _ _).1 hv with hv | ⟨rfl, rfl⟩
  · exact h i v hv x hx
  · simp [Vertex.new, NodeEdit.empty] at hx

theorem fades_setVertex {S : Units U α} {net : Net U α} (h : Fades S net) {i : Nat} {v' : Vertex U α}
    (hn : ∀ u, (v'.eng.next.unit = some u ∨ v'.eng.latest.unit = some u) → S.ins u = v'.ins ∧ S.outs u = v'.outs) :
    Fades S { net with vertex := net.vertex.set i v' } := by
  intro j w hw u hu
  simp only [List.getElem?_set] at hw
  by_cases hij : i = j
  · subst hij
    simp only [if_true] at hw
    split at hw
    · cases hw; exact hn u hu
    · cases hw
  · simp only [if_neg hij] at hw; exact h j w hw u hu

theorem fades_replace {S : Units U α} {net net' : Net U α} (h : Fades S net) {n u u'}
    (he : replace S net n u = some (net', u')) : Fades S net' := by
  simp only [replace, Option.bind_eq_bind, Option.bind_eq_some_iff] at he
  obtain ⟨i, hi, v, hv, he⟩ := he
  obtain ⟨_, he⟩ := ite_none_right he
  cases he
  exact fades_setVertex h (h i v hv)

theorem fades_crossfade {S : Units U α} (hS : S.Lawful) {net net' : Net U α} (h : Fades S net) {n f t u}
    (he : crossfade S net n f t u = some net') : Fades S net' := by
  simp only [crossfade, Option.bind_eq_bind, Option.bind_eq_some_iff] at he
  obtain ⟨i, hi, v, hv, he⟩ := he
  obtain ⟨har, he⟩ := ite_none_right he
  split at he
  · cases he; exact h
  · cases he
    apply fades_setVertex h
    intro x hx
    have h1 := h i v hv
    simp only [Eng.enqueue] at hx
    split at hx
    · rcases hx with hx | hx
      · exact h1 x (Or.inl hx)
      · cases hx; rw [hS.ins_setSR, hS.outs_setSR]; exact har
    · rcases hx with hx | hx
      · cases hx; rw [hS.ins_setSR, hS.outs_setSR]; exact har
      · exact h1 x (Or.inr hx)

theorem fades_removed {S : Units U α} {net net' : Net U α} (hv : Valid S net) (h : Fades S net) {node : NodeId}
    {link : Bool} {u : U} {ni : Nat} {v : Vertex U α} (r : Removed net net' node link u ni v) : Fades S net' := by
  apply h.of_origin
  intro i w' hw
  obtain ⟨j, w, hw1, _, _, rfl⟩ := r.origin hv hw
  exact ⟨j, w, hw1, rfl, rfl, rfl, rfl⟩

theorem fades_chain {S : Units U α} {net net' : Net U α} (h : Fades S net) {id : NodeId} {u : U}
    (he : chain S net id u = some net') : Fades S net' := by
  have hp := fades_push h id u
  simp only [chain, Option.bind_eq_bind, push_get, Option.bind_some] at he
  split at he
  · rw [Option.bind_eq_some_iff] at he
    obtain ⟨net2, h2, he⟩ := he
    refine Fades.of_origin ?_ (origin_pipeOutput he)
    split at h2
    · exact hp.of_origin (origin_pipeInput h2)
    · cases h2; exact hp
  · refine Fades.of_origin ?_ (origin_pipeOutput he)
    exact hp.of_origin (origin_modify _ _ _ _ rfl (fun v => ⟨rfl, rfl, rfl, rfl⟩))

/-! ## Running a net changes neither wiring nor arities -/

/-- Same nodes and same wiring: only the units (and scratch data) may differ. -/
structure SameWiring (a b : Net U α) : Prop where
  inputs : b.inputs = a.inputs
  outputs : b.outputs = a.outputs
  oe : b.outputEdge = a.outputEdge
  index : b.nodeIndex = a.nodeIndex
  len : b.vertex.length = a.vertex.length
  node : ∀ (i : Nat) (v w : Vertex U α), a.vertex[i]? = some v → b.vertex[i]? = some w →
    w.id = v.id ∧ w.ins = v.ins ∧ w.outs = v.outs ∧ w.source = v.source

theorem SameWiring.refl (a : Net U α) : SameWiring a a :=
  ⟨rfl, rfl, rfl, rfl, rfl, fun i v w hv hw => by rw [hv] at hw; cases hw; exact ⟨rfl, rfl, rfl, rfl⟩⟩

theorem SameWiring.find {a b : Net U α} (h : SameWiring a b) {i : Nat} {w : Vertex U α} (hw : b.vertex[i]? = some w) :
    ∃ v, a.vertex[i]? = some v := by
  have hi := (List.getElem?_eq_some_iff.1 hw).1
  rw [h.len] at hi
  exact ⟨_, List.getElem?_eq_getElem hi⟩

theorem SameWiring.trans {a b c : Net U α} (h : SameWiring a b) (h' : SameWiring b c) : SameWiring a c :=
  ⟨h'.inputs.trans h.inputs, h'.outputs.trans h.outputs, h'.oe.trans h.oe, h'.index.trans h.index,
    h'.len.trans h.len, fun i v w hv hw => by
      obtain ⟨x, hx⟩ := h'.find hw
      have a := h.node i v x hv hx
      have b := h'.node i x w hx hw
      exact ⟨b.1.trans a.1, b.2.1.trans a.2.1, b.2.2.1.trans a.2.2.1, b.2.2.2.trans a.2.2.2⟩⟩

/-- Arity of everything in an engine. -/
def EngFits (S : Units U α) (i o : Nat) (e : Eng U α) : Prop :=
  (i = S.ins e.unit ∧ o = S.outs e.unit) ∧
  ∀ u, (e.next.unit = some u ∨ e.latest.unit = some u) → S.ins u = i ∧ S.outs u = o

theorem WF.engFits {S : Units U α} {next : NodeId} {net : Net U α} (h : WF S next net) {i : Nat} {v : Vertex U α}
    (hv : net.vertex[i]? = some v) : EngFits S v.ins v.outs v.eng :=
  ⟨(h.valid.arity i v hv).2, h.fades i v hv⟩

theorem WF.of_sameWiring {S : Units U α} {next : NodeId} {a b : Net U α} (h : WF S next a) (hs : SameWiring a b)
    (he : ∀ (i : Nat) (w : Vertex U α), b.vertex[i]? = some w → EngFits S w.ins w.outs w.eng) : WF S next b := by
  have hn : SameNodes S a b := by
    refine ⟨hs.inputs, hs.len, ?_, hs.index⟩
    intro i v w hv hw
    obtain ⟨h1, h2, h3, h4⟩ := hs.node i v w hv hw
    have ea := (h.valid.arity i v hv).2
    have eb := (he i w hw).1
    exact ⟨h1, h2, h3, by rw [h4], by omega, by omega⟩
  refine ⟨h.valid.rewire hn ?_ ?_ ?_, ?_, ?_, h.below.same hn⟩
  · rw [hs.oe, hs.outputs]; exact h.valid.oeLen
  · rw [hs.oe]; exact h.valid.oe
  · intro i w c e hw hc
    obtain ⟨v, hv⟩ := hs.find hw
    rw [(hs.node i v w hv hw).2.2.2] at hc
    exact h.valid.edge i v c e hv hc
  · intro i w c e p hw hc
    obtain ⟨v, hv⟩ := hs.find hw
    rw [(hs.node i v w hv hw).2.2.2] at hc
    exact h.noSelf i v c e p hv hc
  · intro i w hw u hu
    exact (he i w hw).2 u hu

theorem pingAll_spec {S : Units U α} (hS : S.Lawful) (probe : Bool) (h : Nat) (vs : List (Vertex U α)) :
    (pingAll S probe h vs).1.length = vs.length ∧
    ∀ (i : Nat) (v w : Vertex U α), vs[i]? = some v → (pingAll S probe h vs).1[i]? = some w →
      ∃ u, w = { v with eng := { v.eng with unit := u } } ∧ S.ins u = S.ins v.eng.unit ∧ S.outs u = S.outs v.eng.unit := by
  induction vs generalizing h with
  | nil => simp [pingAll]
  | cons v vs ih =>
    simp only [pingAll]
    refine ⟨by simp [(ih _).1], ?_⟩
    intro i x w hx hw
    cases i with
    | zero =>
      simp at hx hw; subst hx; subst hw
      exact ⟨_, rfl, hS.ins_ping _ _ _, hS.outs_ping _ _ _⟩
    | succ i => exact (ih _).2 i x w (by simpa using hx) (by simpa using hw)

/-- `determine_order` keeps the nodes and wiring, and gives each node a unit obtained by pings. -/
theorem determineOrder_spec {S : Units U α} (hS : S.Lawful) (seed : Nat → Nat) (h0 : Nat) (net : Net U α) :
    SameWiring net (determineOrder S seed h0 net) ∧
    ∀ (i : Nat) (v w : Vertex U α), net.vertex[i]? = some v → (determineOrder S seed h0 net).vertex[i]? = some w →
      (S.ins w.eng.unit = S.ins v.eng.unit ∧ S.outs w.eng.unit = S.outs v.eng.unit) ∧ w.eng.next = v.eng.next ∧
      w.eng.latest = v.eng.latest ∧ w.eng.phase = v.eng.phase ∧ w.tickOut = v.tickOut ∧ w.changed = v.changed ∧
      w.srcVertex = v.updateSourceVertex.srcVertex := by
  have h1 := pingAll_spec hS true (seed h0) (net.vertex.map Vertex.updateSourceVertex)
  have h2 := pingAll_spec hS false (seed (pingAll S true (seed h0) (net.vertex.map Vertex.updateSourceVertex)).2)
    (pingAll S true (seed h0) (net.vertex.map Vertex.updateSourceVertex)).1
  have hlen : (determineOrder S seed h0 net).vertex.length = net.vertex.length := by
    simp [determineOrder, h2.1, h1.1]
  have key : ∀ (i : Nat) (v w : Vertex U α), net.vertex[i]? = some v →
      (determineOrder S seed h0 net).vertex[i]? = some w →
      ∃ u, w = { v.updateSourceVertex with eng := { v.eng with unit := u } } ∧ S.ins u = S.ins v.eng.unit ∧
        S.outs u = S.outs v.eng.unit := by
    intro i v w hv hw
    simp only [determineOrder] at hw
    have hi := (List.getElem?_eq_some_iff.1 hw).1
    rw [h2.1] at hi
    obtain ⟨u2, e2, a2, b2⟩ := h2.2 i _ w (List.getElem?_eq_getElem hi) hw
    obtain ⟨u1, e1, a1, b1⟩ := h1.2 i v.updateSourceVertex _ (by rw [List.getElem?_map, hv]; rfl) (List.getElem?_eq_getElem hi)
    rw [e1] at e2 a2 b2
    exact ⟨u2, e2, a2.trans a1, b2.trans b1⟩
  refine ⟨⟨rfl, rfl, rfl, rfl, hlen, ?_⟩, ?_⟩
  · intro i v w hv hw
    obtain ⟨u, rfl, _⟩ := key i v w hv hw
    exact ⟨rfl, rfl, rfl, rfl⟩
  · intro i v w hv hw
    obtain ⟨u, rfl, h⟩ := key i v w hv hw
    exact ⟨h, rfl, rfl, rfl, rfl, rfl, rfl⟩

theorem wf_determineOrder {S : Units U α} (hS : S.Lawful) (seed : Nat → Nat) (h0 : Nat) {next : NodeId} {net : Net U α}
    (h : WF S next net) : WF S next (determineOrder S seed h0 net) := by
  obtain ⟨hs, hk⟩ := determineOrder_spec hS seed h0 net
  apply h.of_sameWiring hs
  intro i w hw
  obtain ⟨v, hv⟩ := hs.find hw
  obtain ⟨h1, h2, h3, _⟩ := hs.node i v w hv hw
  obtain ⟨k1, k2, k3, _⟩ := hk i v w hv hw
  have := h.engFits hv
  rw [EngFits, h2, h3, k1.1, k1.2, k2, k3]
  exact this

theorem Eng.tick_fits {S : Units U α} (hS : S.Lawful) (sr : α) {i o : Nat} {e : Eng U α} (h : EngFits S i o e)
    (x : List α) : EngFits S i o (e.tick S sr x).1 ∧ (e.tick S sr x).2.length = o := by
  obtain ⟨⟨h1, h2⟩, h3⟩ := h
  unfold Eng.tick
  cases hn : e.next.unit with
  | none =>
    refine ⟨⟨⟨by rw [hS.ins_tick]; exact h1, by rw [hS.outs_tick]; exact h2⟩, ?_⟩, by simp [hS.tick_length, h2]⟩
    intro u hu
    exact h3 u hu
  | some n =>
    have hn' := h3 n (Or.inl hn)
    simp only
    refine ⟨?_, by simp [hS.tick_length, h2, hn'.2]⟩
    split
    · simp only [Eng.nextPhase]
      refine ⟨⟨by rw [hS.ins_tick]; exact hn'.1.symm, by rw [hS.outs_tick]; exact hn'.2.symm⟩, ?_⟩
      intro u hu
      simp only [reduceCtorEq, or_false] at hu
      exact h3 u (Or.inr hu)
    · refine ⟨⟨by rw [hS.ins_tick]; exact h1, by rw [hS.outs_tick]; exact h2⟩, ?_⟩
      intro u hu
      simp only [Option.some.injEq] at hu
      rcases hu with hu | hu
      · subst hu; rw [hS.ins_tick, hS.outs_tick]; exact hn'
      · exact h3 u (Or.inr hu)

theorem wf_tickNode {S : Units U α} (hS : S.Lawful) {next : NodeId} {net : Net U α} (h : WF S next net) (sr : α)
    (input : List α) (ni : Nat) : WF S next { net with vertex := tickNode S sr input net.vertex ni } ∧
    SameWiring net { net with vertex := tickNode S sr input net.vertex ni } := by
  have hs : SameWiring net { net with vertex := tickNode S sr input net.vertex ni } := by
    refine ⟨rfl, rfl, rfl, rfl, by simp [tickNode], ?_⟩
    intro i v w hv hw
    simp only [tickNode, List.getElem?_modify, hv] at hw
    by_cases hij : ni = i
    · simp [hij] at hw; subst hw; exact ⟨rfl, rfl, rfl, rfl⟩
    · simp [hij] at hw; subst hw; exact ⟨rfl, rfl, rfl, rfl⟩
  refine ⟨h.of_sameWiring hs ?_, hs⟩
  intro i w hw
  obtain ⟨v, hv⟩ := hs.find hw
  simp only [tickNode, List.getElem?_modify, hv] at hw
  by_cases hij : ni = i
  · simp [hij] at hw; subst hw; exact (Eng.tick_fits hS sr (h.engFits hv) _).1
  · simp [hij] at hw; subst hw; exact h.engFits hv

theorem wf_ticks {S : Units U α} (hS : S.Lawful) {next : NodeId} {net : Net U α} (h : WF S next net) (sr : α)
    (input : List α) (order : List Nat) :
    WF S next { net with vertex := order.foldl (tickNode S sr input) net.vertex } ∧
    SameWiring net { net with vertex := order.foldl (tickNode S sr input) net.vertex } := by
  induction order generalizing net with
  | nil => exact ⟨h, SameWiring.refl _⟩
  | cons a as ih =>
    have h1 := wf_tickNode hS h sr input a
    have h2 := ih h1.1
    exact ⟨h2.1, h1.2.trans h2.2⟩

theorem wf_order {S : Units U α} {next : NodeId} {net : Net U α} (h : WF S next net) (o) :
    WF S next { net with order := o } :=
  h.of_sameWiring ⟨rfl, rfl, rfl, rfl, rfl, fun i v w hv hw => by
    have hw' : net.vertex[i]? = some w := hw
    rw [hv] at hw'; cases hw'; exact ⟨rfl, rfl, rfl, rfl⟩⟩ (fun i w hw => h.engFits (i := i) hw)

theorem wf_tick {S : Units U α} (hS : S.Lawful) (seed : Nat → Nat) (h0 : Nat) {next : NodeId} {net : Net U α}
    (h : WF S next net) (input : List α) : WF S next (tick S seed h0 net input).1 := by
  simp only [tick, tickOrdered]
  split
  · exact (wf_ticks hS h _ _ _).1
  · exact (wf_ticks hS (wf_determineOrder hS seed h0 h) _ _ _).1

/-- Mapping a unit transformer that keeps arities over all vertices. -/
theorem wf_mapUnits {S : Units U α} {next : NodeId} {net : Net U α} (h : WF S next net) (f : U → U)
    (hf : ∀ u, S.ins (f u) = S.ins u ∧ S.outs (f u) = S.outs u) (sr : α) (rev : Nat) :
    WF S next { net with sampleRate := sr, vertex := net.vertex.map (fun v =>
      { v with eng := { v.eng with unit := f v.eng.unit }, changed := rev }) } := by
  apply h.of_sameWiring
  · refine ⟨rfl, rfl, rfl, rfl, by simp, ?_⟩
    intro i v w hv hw
    simp only [List.getElem?_map, hv, Option.map_some, Option.some.injEq] at hw
    subst hw; exact ⟨rfl, rfl, rfl, rfl⟩
  · intro i w hw
    simp only [List.getElem?_map, Option.map_eq_some_iff] at hw
    obtain ⟨v, hv, rfl⟩ := hw
    have := h.engFits hv
    simp only [EngFits, (hf _).1, (hf _).2]
    exact this

theorem wf_reset {S : Units U α} (hS : S.Lawful) (seed : Nat → Nat) (h0 : Nat) {next : NodeId} {net : Net U α}
    (h : WF S next net) : WF S next (reset S seed h0 net) := by
  have := wf_mapUnits h S.reset (fun u => ⟨hS.ins_reset u, hS.outs_reset u⟩) net.sampleRate net.revision
  simp only [reset]
  split
  · exact this
  · exact wf_determineOrder hS seed h0 this

theorem wf_setSampleRate [DecidableEq α] {S : Units U α} (hS : S.Lawful) (seed : Nat → Nat) (h0 : Nat) {next : NodeId}
    {net : Net U α} (h : WF S next net) (sr : α) : WF S next (setSampleRate S seed h0 net sr) := by
  have := wf_mapUnits h (S.setSR sr) (fun u => ⟨hS.ins_setSR sr u, hS.outs_setSR sr u⟩) sr net.revision
  simp only [setSampleRate]
  split
  · exact h
  · split
    · exact this
    · exact wf_determineOrder hS seed h0 this

/-! ## `disambiguate_ids` -/

theorem disambiguateFrom_spec (other : IdMap) (ps vs : List (Vertex U α)) (m : IdMap) (next : NodeId)
    (hm : ∀ id i, m.get id = some i ↔ ∃ v, (ps ++ vs)[i]? = some v ∧ v.id = id)
    (hk : (List.map Prod.fst m).Nodup) (hlen : m.length = (ps ++ vs).length)
    (hb : ∀ v ∈ ps ++ vs, v.id < next) (hob : ∀ id, (other.get id).isSome → id < next) :
    let r := disambiguateFrom other ps.length vs m next
    (∀ id i, r.2.1.get id = some i ↔ ∃ v, (ps ++ r.1)[i]? = some v ∧ v.id = id) ∧
    (List.map Prod.fst r.2.1).Nodup ∧ r.2.1.length = (ps ++ r.1).length ∧
    (∀ v ∈ ps ++ r.1, v.id < r.2.2) ∧ next ≤ r.2.2 ∧ (∀ v ∈ r.1, other.get v.id = none) ∧
    r.1.length = vs.length ∧
    (∀ (i : Nat) (v : Vertex U α), vs[i]? = some v → ∃ id', r.1[i]? = some { v with id := id' } ∧
      (other.get v.id = none → id' = v.id) ∧ ((other.get v.id).isSome → next ≤ id')) := by
  induction vs generalizing ps m next with
  | nil =>
    simp only [disambiguateFrom]
    exact ⟨hm, hk, hlen, hb, Nat.le_refl _, by simp, trivial, by simp⟩
  | cons v vs ih =>
    simp only [disambiguateFrom]
    have hmv : m.get v.id = some ps.length := (hm _ _).2 ⟨v, by simp, rfl⟩
    by_cases ho : (other.get v.id).isSome
    · simp only [ho, if_true]
      have hnext : m.get next = none := by
        cases hg : m.get next with
        | none => rfl
        | some i =>
          obtain ⟨w, hw, hid⟩ := (hm _ _).1 hg
          have := hb w (List.mem_of_getElem? hw)
          omega
      have hvn : v.id < next := hb v (by simp)
      have hen : (m.erase v.id).get next = none := by
        rw [IdMap.get_erase]; split <;> simp [hnext]
      have hke := (IdMap.keys_erase m v.id hk).1
      have hnew : ∀ id i, ((m.erase v.id).insert next ps.length).get id = some i ↔
          ∃ w, ((ps ++ [{ v with id := next }]) ++ vs)[i]? = some w ∧ w.id = id := by
        intro id i
        rw [IdMap.get_insert, IdMap.get_erase]
        have hsplit : ∀ w, ((ps ++ [{ v with id := next }]) ++ vs)[i]? = some w ↔
            (i = ps.length ∧ w = { v with id := next }) ∨ (i ≠ ps.length ∧ (ps ++ v :: vs)[i]? = some w) := by
          intro w
          by_cases hi : i = ps.length
          · subst hi; simp [eq_comm]
          · have : ((ps ++ [{ v with id := next }]) ++ vs)[i]? = (ps ++ v :: vs)[i]? := by
              rcases Nat.lt_or_gt_of_ne hi with h | h
              · simp [List.getElem?_append_left h]
              · obtain ⟨k, rfl⟩ : ∃ k, i = ps.length + (k + 1) := ⟨i - ps.length - 1, by omega⟩
                rw [List.append_assoc, List.getElem?_append_right (Nat.le_add_right _ _),
                  List.getElem?_append_right (Nat.le_add_right _ _), Nat.add_sub_cancel_left]
                simp
            rw [this]; simp [hi]
        by_cases h1 : id = next
        · subst h1
          simp only [if_true, Option.some.injEq]
          constructor
          · rintro rfl; exact ⟨_, (hsplit _).2 (Or.inl ⟨rfl, rfl⟩), rfl⟩
          · rintro ⟨w, hw, hid⟩
            rcases (hsplit w).1 hw with ⟨h, _⟩ | ⟨_, hw⟩
            · exact h.symm
            · have := hb w (List.mem_of_getElem? hw); omega
        · simp only [if_neg h1]
          by_cases h2 : id = v.id
          · subst h2
            simp only [if_true, reduceCtorEq, false_iff]
            rintro ⟨w, hw, hid⟩
            rcases (hsplit w).1 hw with ⟨_, rfl⟩ | ⟨hi, hw⟩
            · exact h1 hid.symm
            · have := (hm _ _).2 ⟨w, hw, hid⟩
              rw [hmv] at this; exact hi (Option.some.inj this).symm
          · simp only [if_neg h2]
            rw [hm]
            constructor
            · rintro ⟨w, hw, hid⟩
              refine ⟨w, (hsplit w).2 (Or.inr ⟨?_, hw⟩), hid⟩
              rintro rfl
              simp at hw; subst hw; exact h2 hid.symm
            · rintro ⟨w, hw, hid⟩
              rcases (hsplit w).1 hw with ⟨_, rfl⟩ | ⟨hi, hw⟩
              · exact absurd hid.symm h1
              · exact ⟨w, hw, hid⟩
      have hl2 : ((m.erase v.id).insert next ps.length).length = (ps ++ [{ v with id := next }] ++ vs).length := by
        rw [IdMap.length_insert_none _ _ _ hen]
        have := IdMap.length_erase m v.id hk (by rw [hmv]; rfl)
        simp at hlen ⊢; omega
      have hb2 : ∀ w ∈ ps ++ [{ v with id := next }] ++ vs, w.id < next + 1 := by
        intro w hw
        simp only [List.append_assoc, List.mem_append, List.singleton_append, List.mem_cons] at hw
        rcases hw with hw | rfl | hw
        · have := hb w (by simp [hw]); omega
        · simp
        · have := hb w (by simp [hw]); omega
      have := ih (ps ++ [{ v with id := next }]) ((m.erase v.id).insert next ps.length) (next + 1) hnew
        (IdMap.keys_insert _ _ _ hke) hl2 hb2 (fun id h => by have := hob id h; omega)
      simp only [List.length_append, List.length_singleton] at this
      obtain ⟨r1, r2, r3, r4, r5, r6, r7, r8⟩ := this
      refine ⟨by simpa [List.append_assoc] using r1, r2, by rw [r3]; simp; omega,
        by simpa [List.append_assoc] using r4, by omega, ?_, by simp [r7], ?_⟩
      · intro w hw
        rcases List.mem_cons.1 hw with rfl | hw
        · cases hg : other.get next with
          | none => rfl
          | some x => have := hob next (by rw [hg]; rfl); omega
        · exact r6 w hw
      · intro i w hw
        cases i with
        | zero =>
          simp at hw; subst hw
          refine ⟨next, by simp, ?_, ?_⟩
          · intro h; rw [h] at ho; cases ho
          · intro _; exact Nat.le_refl _
        | succ i =>
          obtain ⟨id', a, b, c⟩ := r8 i w (by simpa using hw)
          exact ⟨id', by simpa using a, b, fun h => by have := c h; omega⟩
    · have ho' : other.get v.id = none := by simpa using ho
      simp only [ho, Bool.false_eq_true, if_false]
      have := ih (ps ++ [v]) m next (by simpa [List.append_assoc] using hm) hk
        (by simpa [List.append_assoc] using hlen) (by simpa [List.append_assoc] using hb) hob
      simp only [List.length_append, List.length_singleton] at this
      obtain ⟨r1, r2, r3, r4, r5, r6, r7, r8⟩ := this
      refine ⟨by simpa [List.append_assoc] using r1, r2, by rw [r3]; simp; omega,
        by simpa [List.append_assoc] using r4, r5, ?_, by simp [r7], ?_⟩
      · intro w hw
        rcases List.mem_cons.1 hw with rfl | hw
        · exact ho'
        · exact r6 w hw
      · intro i w hw
        cases i with
        | zero =>
          simp at hw; subst hw
          exact ⟨v.id, by simp, fun _ => rfl, fun h => absurd h ho⟩
        | succ i =>
          obtain ⟨id', a, b, c⟩ := r8 i w (by simpa using hw)
          exact ⟨id', by simpa using a, b, c⟩

/-- What `disambiguate_ids` guarantees. -/
structure Disamb (S : Units U α) (next : NodeId) (net other : Net U α) (d : Net U α × NodeId) : Prop where
  wf : WF S d.2 d.1
  le : next ≤ d.2
  disjoint : ∀ (i : Nat) (v : Vertex U α), d.1.vertex[i]? = some v → other.nodeIndex.get v.id = none
  inputs : d.1.inputs = net.inputs
  outputs : d.1.outputs = net.outputs
  oe : d.1.outputEdge = net.outputEdge
  len : d.1.vertex.length = net.vertex.length
  node : ∀ (i : Nat) (v : Vertex U α), net.vertex[i]? = some v → ∃ id', d.1.vertex[i]? = some { v with id := id' } ∧
    (other.nodeIndex.get v.id = none → id' = v.id) ∧ ((other.nodeIndex.get v.id).isSome → next ≤ id')

theorem disamb {S : Units U α} {next : NodeId} {net other : Net U α} (h : WF S next net) (ho : WF S next other) :
    Disamb S next net other (disambiguate net other next) := by
  have key := disambiguateFrom_spec other.nodeIndex [] net.vertex net.nodeIndex next
    (by simpa using h.valid.map) h.valid.keys (by simpa using h.valid.mapLen)
    (by
      intro v hv
      obtain ⟨i, hi⟩ := List.getElem?_of_mem hv
      exact h.below i v (by simpa using hi))
    (by
      intro id hid
      obtain ⟨i, hi⟩ := Option.isSome_iff_exists.1 hid
      obtain ⟨v, hv, rfl⟩ := (ho.valid.map _ _).1 hi
      exact ho.below i v hv)
  simp only [List.length_nil, List.nil_append] at key
  obtain ⟨r1, r2, r3, r4, r5, r6, r7, r8⟩ := key
  have find : ∀ (i : Nat) (w : Vertex U α), (disambiguate net other next).1.vertex[i]? = some w →
      ∃ v id', net.vertex[i]? = some v ∧ w = { v with id := id' } := by
    intro i w hw
    have hi := (List.getElem?_eq_some_iff.1 hw).1
    have hi' : i < net.vertex.length := by
      have : (disambiguate net other next).1.vertex.length = net.vertex.length := r7
      omega
    obtain ⟨id', a, _⟩ := r8 i _ (List.getElem?_eq_getElem hi')
    have : (disambiguate net other next).1.vertex[i]? = _ := a
    rw [hw] at this
    exact ⟨_, id', List.getElem?_eq_getElem hi', Option.some.inj this⟩
  have port : ∀ p, PortOK net p → PortOK (disambiguate net other next).1 p := by
    intro p hp
    cases p with
    | zero => trivial
    | glob p => exact hp
    | loc j p =>
      obtain ⟨v, hv, hp⟩ := hp
      obtain ⟨id', a, _⟩ := r8 j v hv
      exact ⟨_, a, hp⟩
  refine ⟨⟨⟨h.valid.oeLen, ?_, ?_, ?_, r1, r2, r3⟩, ?_, ?_, ?_⟩, r5, ?_, rfl, rfl, rfl, r7, r8⟩
  · intro c e he
    exact ⟨(h.valid.oe c e he).1, port _ (h.valid.oe c e he).2⟩
  · intro i w hw
    obtain ⟨v, id', hv, rfl⟩ := find i w hw
    exact h.valid.arity i v hv
  · intro i w c e hw he
    obtain ⟨v, id', hv, rfl⟩ := find i w hw
    exact ⟨(h.valid.edge i v c e hv he).1, port _ (h.valid.edge i v c e hv he).2⟩
  · intro i w c e p hw he
    obtain ⟨v, id', hv, rfl⟩ := find i w hw
    exact h.noSelf i v c e p hv he
  · intro i w hw
    obtain ⟨v, id', hv, rfl⟩ := find i w hw
    exact h.fades i v hv
  · intro i w hw
    exact r4 w (List.mem_of_getElem? hw)
  · intro i w hw
    exact r6 w (List.mem_of_getElem? hw)

/-! ## Joining two nets -/

theorem insertIds_spec (m : IdMap) (i : Nat) (vs : List (Vertex U α))
    (hd : ∀ (a b : Nat) (v w : Vertex U α), vs[a]? = some v → vs[b]? = some w → v.id = w.id → a = b) :
    (∀ (j : Nat) (v : Vertex U α), vs[j]? = some v → (insertIds m i vs).get v.id = some (i + j)) ∧
    (∀ id, (∀ v ∈ vs, v.id ≠ id) → (insertIds m i vs).get id = m.get id) ∧
    ((List.map Prod.fst m).Nodup → (List.map Prod.fst (insertIds m i vs)).Nodup) ∧
    ((∀ v ∈ vs, m.get v.id = none) → (insertIds m i vs).length = m.length + vs.length) := by
  induction vs generalizing m i with
  | nil => simp [insertIds]
  | cons v vs ih =>
    have hd' : ∀ (a b : Nat) (x y : Vertex U α), vs[a]? = some x → vs[b]? = some y → x.id = y.id → a = b := by
      intro a b x y ha hb he
      have := hd (a + 1) (b + 1) x y (by simpa using ha) (by simpa using hb) he
      omega
    have hne : ∀ w ∈ vs, w.id ≠ v.id := by
      intro w hw he
      obtain ⟨k, hk⟩ := List.getElem?_of_mem hw
      have := hd (k + 1) 0 w v (by simpa using hk) (by simp) he
      omega
    obtain ⟨i1, i2, i3, i4⟩ := ih (m.insert v.id i) (i + 1) hd'
    simp only [insertIds]
    refine ⟨?_, ?_, ?_, ?_⟩
    · intro j w hw
      cases j with
      | zero =>
        simp at hw; subst hw
        rw [i2 v.id hne, IdMap.get_insert]; simp
      | succ j =>
        rw [i1 j w (by simpa using hw)]; congr 1; omega
    · intro id hid
      rw [i2 id (fun w hw => hid w (by simp [hw])), IdMap.get_insert, if_neg]
      intro h; exact hid v (by simp) h.symm
    · intro h; exact i3 (IdMap.keys_insert _ _ _ h)
    · intro h
      rw [i4, IdMap.length_insert_none _ _ _ (h v (by simp))]
      · simp; omega
      · intro w hw
        rw [IdMap.get_insert, if_neg (hne w hw)]
        exact h w (by simp [hw])

/-- Index of a joined net: old nodes first, then the nodes of the second net. -/
theorem join_getElem? (net1 net2 : Net U α) (g : Nat → Port) (i : Nat) (w : Vertex U α) :
    (appendVertices net1 net2 g).vertex[i]? = some w ↔
      (net1.vertex[i]? = some w) ∨
      ∃ k v, i = net1.vertex.length + k ∧ net2.vertex[k]? = some v ∧ w = v.shift net1.vertex.length g i := by
  simp only [appendVertices]
  rcases Nat.lt_or_ge i net1.vertex.length with h | h
  · rw [List.getElem?_append_left h]
    constructor
    · exact Or.inl
    · rintro (h1 | ⟨k, v, h1, _⟩)
      · exact h1
      · omega
  · rw [List.getElem?_append_right h, List.getElem?_mapIdx]
    constructor
    · intro h1
      obtain ⟨v, hv, rfl⟩ := Option.map_eq_some_iff.1 h1
      refine Or.inr ⟨_, v, by omega, hv, ?_⟩
      congr 1; omega
    · rintro (h1 | ⟨k, v, rfl, hv, rfl⟩)
      · rw [List.getElem?_eq_none h] at h1; cases h1
      · simp [hv]

theorem shift_source {offset node : Nat} {g : Nat → Port} {v : Vertex U α} (hl : v.source.length = v.ins) :
    (v.shift offset g node).source = v.source.mapIdx (fun c e => ⟨shiftPort offset g e.source, .loc node c⟩) := by
  apply List.ext_getElem?
  intro c
  simp only [Vertex.shift, List.getElem?_mapIdx]
  cases hc : v.source[c]? with
  | none => rfl
  | some e =>
    have := (List.getElem?_eq_some_iff.1 hc).1
    simp [show c < v.ins by omega]

theorem portOK_left {net1 net2 : Net U α} {g : Nat → Port} {res : Net U α}
    (hv : res.vertex = (appendVertices net1 net2 g).vertex) (hin : net1.inputs ≤ res.inputs) {p : Port}
    (hp : PortOK net1 p) : PortOK res p := by
  cases p with
  | zero => trivial
  | glob p => exact Nat.lt_of_lt_of_le hp hin
  | loc j p =>
    obtain ⟨w, hw, hp⟩ := hp
    exact ⟨w, by rw [hv]; exact (join_getElem? _ _ _ _ _).2 (Or.inl hw), hp⟩

theorem portOK_right {net1 net2 : Net U α} {g : Nat → Port} {res : Net U α}
    (hv : res.vertex = (appendVertices net1 net2 g).vertex) (hg : ∀ p, p < net2.inputs → PortOK res (g p)) {p : Port}
    (hp : PortOK net2 p) : PortOK res (shiftPort net1.vertex.length g p) := by
  cases p with
  | zero => trivial
  | glob p => exact hg p hp
  | loc j p =>
    obtain ⟨w, hw, hp⟩ := hp
    refine ⟨w.shift net1.vertex.length g (net1.vertex.length + j), ?_, hp⟩
    rw [hv, Nat.add_comm]
    exact (join_getElem? _ _ _ _ _).2 (Or.inr ⟨j, w, rfl, hw, rfl⟩)

/-- The joined net is well-formed if its output edges are and the second net's inputs are replaced by valid ports
that do not belong to the second net. -/
theorem wf_join {S : Units U α} {n1 n2 next : NodeId} {net1 net2 : Net U α} (h1 : WF S n1 net1) (h2 : WF S n2 net2)
    (hn1 : n1 ≤ next) (hn2 : n2 ≤ next)
    (hdis : ∀ (i : Nat) (v : Vertex U α), net2.vertex[i]? = some v → net1.nodeIndex.get v.id = none)
    (g : Nat → Port) (res : Net U α)
    (hvert : res.vertex = (appendVertices net1 net2 g).vertex)
    (hidx : res.nodeIndex = (appendVertices net1 net2 g).nodeIndex)
    (hin : net1.inputs ≤ res.inputs)
    (hg : ∀ p, p < net2.inputs → PortOK res (g p))
    (hg' : ∀ p j q, p < net2.inputs → g p = .loc j q → j < net1.vertex.length)
    (hlen : res.outputEdge.length = res.outputs)
    (hoe : ∀ (c : Nat) (e : Edge), res.outputEdge[c]? = some e → e.target = .glob c ∧ PortOK res e.source) :
    WF S next res := by
  have getv : ∀ (i : Nat) (w : Vertex U α), res.vertex[i]? = some w → (net1.vertex[i]? = some w) ∨
      ∃ k v, i = net1.vertex.length + k ∧ net2.vertex[k]? = some v ∧ w = v.shift net1.vertex.length g i := by
    intro i w hw; rw [hvert] at hw; exact (join_getElem? _ _ _ _ _).1 hw
  have hinj : ∀ (a b : Nat) (v w : Vertex U α), net2.vertex[a]? = some v → net2.vertex[b]? = some w → v.id = w.id → a = b :=
    fun a b v w ha hb he => h2.valid.id_inj ha hb he
  obtain ⟨s1, s2, s3, s4⟩ := insertIds_spec net1.nodeIndex net1.vertex.length net2.vertex hinj
  have hdis' : ∀ v ∈ net2.vertex, net1.nodeIndex.get v.id = none := by
    intro v hv
    obtain ⟨i, hi⟩ := List.getElem?_of_mem hv
    exact hdis i v hi
  refine ⟨⟨hlen, hoe, ?_, ?_, ?_, ?_, ?_⟩, ?_, ?_, ?_⟩
  · intro i w hw
    rcases getv i w hw with hw | ⟨k, v, rfl, hv, rfl⟩
    · exact h1.valid.arity i w hw
    · have := h2.valid.arity k v hv
      rw [shift_source this.1]
      simpa [Vertex.shift] using this
  · intro i w c e hw he
    rcases getv i w hw with hw | ⟨k, v, rfl, hv, rfl⟩
    · exact ⟨(h1.valid.edge i w c e hw he).1, portOK_left hvert hin (h1.valid.edge i w c e hw he).2⟩
    · rw [shift_source (h2.valid.arity k v hv).1, List.getElem?_mapIdx, Option.map_eq_some_iff] at he
      obtain ⟨e0, h0, rfl⟩ := he
      exact ⟨rfl, portOK_right hvert hg (h2.valid.edge k v c e0 hv h0).2⟩
  · intro id i
    rw [hidx]
    show (insertIds _ _ _).get id = some i ↔ _
    constructor
    · intro hgt
      by_cases hid : ∀ v ∈ net2.vertex, v.id ≠ id
      · rw [s2 id hid] at hgt
        obtain ⟨v, hv, hvi⟩ := (h1.valid.map _ _).1 hgt
        exact ⟨v, by rw [hvert]; exact (join_getElem? _ _ _ _ _).2 (Or.inl hv), hvi⟩
      · have : ∃ v ∈ net2.vertex, v.id = id := Classical.byContradiction (fun hc =>
          hid (fun v hv hvi => hc ⟨v, hv, hvi⟩))
        obtain ⟨v, hv, rfl⟩ := this
        obtain ⟨k, hk⟩ := List.getElem?_of_mem hv
        rw [s1 k v hk] at hgt
        cases hgt
        exact ⟨v.shift net1.vertex.length g _, by rw [hvert]; exact (join_getElem? _ _ _ _ _).2 (Or.inr ⟨k, v, rfl, hk, rfl⟩), rfl⟩
    · rintro ⟨w, hw, rfl⟩
      rcases getv i w hw with hw | ⟨k, v, rfl, hv, rfl⟩
      · have hget := (h1.valid.map w.id i).2 ⟨w, hw, rfl⟩
        rw [s2, hget]
        intro v hv he
        have := hdis' v hv
        rw [he, hget] at this; cases this
      · exact s1 k v hv
  · rw [hidx]; exact s3 h1.valid.keys
  · rw [hidx, hvert]
    show (insertIds _ _ _).length = _
    rw [s4 hdis', h1.valid.mapLen]
    simp [appendVertices]
  · intro i w c e p hw he
    rcases getv i w hw with hw | ⟨k, v, rfl, hv, rfl⟩
    · exact h1.noSelf i w c e p hw he
    · rw [shift_source (h2.valid.arity k v hv).1, List.getElem?_mapIdx, Option.map_eq_some_iff] at he
      obtain ⟨e0, h0, rfl⟩ := he
      have hok := (h2.valid.edge k v c e0 hv h0).2
      have hns := fun q => h2.noSelf k v c e0 q hv h0
      intro heq
      cases hs : e0.source with
      | zero => rw [hs] at heq; exact Port.noConfusion heq
      | glob q =>
        rw [hs] at heq hok
        have := hg' q _ _ hok heq
        omega
      | loc j q =>
        rw [hs] at heq
        simp only [shiftPort] at heq
        injection heq with ha hb
        exact hns q (by rw [hs]; congr 1; omega)
  · intro i w hw
    rcases getv i w hw with hw | ⟨k, v, rfl, hv, rfl⟩
    · exact h1.fades i w hw
    · exact h2.fades k v hv
  · intro i w hw
    rcases getv i w hw with hw | ⟨k, v, rfl, hv, rfl⟩
    · exact Nat.lt_of_lt_of_le (h1.below i w hw) hn1
    · exact Nat.lt_of_lt_of_le (h2.below k v hv) hn2

end Fundsp.Net
