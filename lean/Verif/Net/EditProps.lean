import Verif.Net.Order

/-! # What edits do to connections and nodes: C03, C04, C05, C06, C10 -/

namespace Fundsp.Net
variable {U α : Type}

/-! ## Lemmas -/

theorem Valid.get_of {S : Units U α} {net : Net U α} (h : Valid S net) {i : Nat} {v : Vertex U α}
    (hv : net.vertex[i]? = some v) : net.nodeIndex.get v.id = some i := (h.map _ _).2 ⟨v, hv, rfl⟩

theorem source_at {S : Units U α} {net : Net U α} (h : Valid S net) {i : Nat} {v : Vertex U α}
    (hv : net.vertex[i]? = some v) (c : Nat) :
    source net v.id c = (v.source[c]?).bind (fun e => reportSource net e.source) := by
  simp only [source, h.get_of hv, hv, Option.bind_eq_bind, Option.bind_some]
  have hl := (h.arity i v hv).1
  split
  · rfl
  · rw [List.getElem?_eq_none (by omega)]; rfl

theorem outputSource_at {S : Units U α} {net : Net U α} (h : Valid S net) (c : Nat) :
    outputSource net c = (net.outputEdge[c]?).bind (fun e => reportSource net e.source) := by
  simp only [outputSource, Option.bind_eq_bind]
  have hl := h.oeLen
  split
  · rfl
  · rw [List.getElem?_eq_none (by omega)]; rfl

theorem report_moved {net net' : Net U α} {node : NodeId} {link : Bool} {u : U} {ni : Nat} {v : Vertex U α}
    (r : Removed net net' node link u ni v) {p : Port} (hp : PortOK net p) (hn : ∀ q, p ≠ .loc ni q) :
    reportSource net' (movePort (net.vertex.length - 1) ni p) = reportSource net p := by
  cases p with
  | zero => rfl
  | glob g => rfl
  | loc j q =>
    obtain ⟨w, hw, hq⟩ := hp
    have hj : j ≠ ni := by rintro rfl; exact hn q rfl
    have hk := r.keep j w hw hj
    have : movePort (net.vertex.length - 1) ni (.loc j q) = .loc (moved (net.vertex.length - 1) ni j) q := by
      simp only [movePort, moved]; split <;> rfl
    rw [this]
    simp [reportSource, hk, hw]

/-! ## C03 and C04 -/

/-- What a wire reads after the node is removed with `remove`. -/
def dropNode (node : NodeId) : Source → Source
  | .loc id p => if id = node then .zero else .loc id p
  | s => s

/-- What a wire reads after the node is removed with `remove_link`: wires from output `p` of the node now read what
input `p` of the node read before. -/
def bypass (net : Net U α) (node : NodeId) : Source → Option Source
  | .loc id p => if id = node then source net node p else some (.loc id p)
  | s => some s

/-- All other nodes are still there, with the same units and arities; the removed node is not. -/
structure OthersKept (net net' : Net U α) (node : NodeId) (u : U) : Prop where
  returned : unitOf net node = some u
  gone : contains net' node = false
  size : size net' + 1 = size net
  inputs : net'.inputs = net.inputs
  outputs : net'.outputs = net.outputs
  contains : ∀ id, id ≠ node → contains net' id = contains net id
  unit : ∀ id, id ≠ node → unitOf net' id = unitOf net id
  inputsIn : ∀ id, id ≠ node → inputsIn net' id = inputsIn net id
  outputsIn : ∀ id, id ≠ node → outputsIn net' id = outputsIn net id

theorem Removed.othersKept {S : Units U α} {net net' : Net U α} (h : Valid S net) {node : NodeId} {link : Bool} {u : U} {ni : Nat} {v : Vertex U α}
    (r : Removed net net' node link u ni v) : OthersKept net net' node u := by
  have find : ∀ id, id ≠ node → (net.nodeIndex.get id = none ∧ net'.nodeIndex.get id = none) ∨
      ∃ j w w', net.nodeIndex.get id = some j ∧ net.vertex[j]? = some w ∧
        net'.nodeIndex.get id = some (moved (net.vertex.length - 1) ni j) ∧
        net'.vertex[moved (net.vertex.length - 1) ni j]? = some w' ∧
        w'.eng = w.eng ∧ w'.ins = w.ins ∧ w'.outs = w.outs := by
    intro id hid
    have hm := r.map id
    rw [if_neg hid] at hm
    cases hg : net.nodeIndex.get id with
    | none => left; rw [hg] at hm; exact ⟨rfl, hm⟩
    | some j =>
      right
      rw [hg] at hm
      obtain ⟨w, hw, hwid⟩ := (h.map id j).1 hg
      have hj : j ≠ ni := by
        rintro rfl
        rw [r.vertex] at hw; cases hw
        obtain ⟨x, hx, hxid⟩ := (h.map node j).1 r.index
        rw [r.vertex] at hx; cases hx
        exact hid (hwid.symm.trans hxid)
      exact ⟨j, w, _, rfl, hw, hm, r.keep j w hw hj, rfl, rfl, rfl⟩
  refine ⟨?_, ?_, r.len, r.nin, r.nout, ?_, ?_, ?_, ?_⟩
  · simp [unitOf, r.index, r.vertex, r.unit]
  · simp [contains, r.map]
  all_goals
    intro id hid
    rcases find id hid with ⟨h1, h2⟩ | ⟨j, w, w', h1, h2, h3, h4, h5, h6, h7⟩
    · simp [Net.contains, Net.unitOf, Net.inputsIn, Net.outputsIn, h1, h2]
    · simp [Net.contains, Net.unitOf, Net.inputsIn, Net.outputsIn, h1, h2, h3, h4, h5, h6, h7]

theorem removed_source {S : Units U α} {net net' : Net U α} (h : Valid S net) (h' : Valid S net')
    {node : NodeId} {link : Bool} {u : U} {ni : Nat} {v : Vertex U α} (r : Removed net net' node link u ni v)
    (f : Source → Option Source)
    (hf : ∀ p, PortOK net p → reportSource net' (movePort (net.vertex.length - 1) ni (unplugPort link v.source ni p)) =
      (reportSource net p).bind f) :
    (∀ id c, id ≠ node → source net' id c = (source net id c).bind f) ∧
    (∀ c, outputSource net' c = (outputSource net c).bind f) := by
  have hvid : v.id = node := by
    obtain ⟨x, hx, hxid⟩ := (h.map node ni).1 r.index
    rw [r.vertex] at hx; cases hx; exact hxid
  constructor
  · intro id c hid
    have hm := r.map id
    rw [if_neg hid] at hm
    cases hg : net.nodeIndex.get id with
    | none =>
      rw [hg] at hm
      simp only [Option.map_none] at hm
      simp [source, hg, hm]
    | some j =>
      obtain ⟨w, hw, rfl⟩ := (h.map id j).1 hg
      have hj : j ≠ ni := by
        rintro rfl
        rw [r.vertex] at hw; cases hw; exact hid hvid
      have hk := r.keep j w hw hj
      have e1 := source_at h' hk c
      simp only at e1
      rw [e1, source_at h hw c, List.getElem?_mapIdx]
      cases he : w.source[c]? with
      | none => rfl
      | some e =>
        simp only [Option.map_some, Option.bind_some]
        exact hf _ (h.edge j w c e hw he).2
  · intro c
    rw [outputSource_at h', outputSource_at h, r.outputs, List.getElem?_map]
    cases he : net.outputEdge[c]? with
    | none => rfl
    | some e =>
      simp only [Option.map_some, Option.bind_some, Edge.setSource]
      exact hf _ (h.oe c e he).2

/-- **C03**: on every net of C01, after `remove` all other nodes and connections are what they were, except that
wires from the removed node read zero. -/
theorem C03_remove [DecidableEq α] (E : Env U α) (hS : E.S.Lawful) {n : NodeId} {net net' : Net U α}
    (h : Reach E InRange n net) {node : NodeId} {u : U} (he : remove2 net node false = some (net', u)) :
    OthersKept net net' node u ∧
    (∀ id c, id ≠ node → source net' id c = (source net id c).map (dropNode node)) ∧
    (∀ c, outputSource net' c = (outputSource net c).map (dropNode node)) := by
  have hw := h.wf hS
  obtain ⟨ni, v, r⟩ := removed_of_remove2 hw.valid he
  have h' := (wf_remove hw he).valid
  have hvid : v.id = node := by
    obtain ⟨x, hx, hxid⟩ := (hw.valid.map node ni).1 r.index
    rw [r.vertex] at hx; cases hx; exact hxid
  have := removed_source hw.valid h' r (fun s => some (dropNode node s)) (by
    intro p hp
    by_cases hq : ∃ q, p = .loc ni q
    · obtain ⟨q, rfl⟩ := hq
      simp [unplugPort, movePort, reportSource, r.vertex, dropNode, hvid]
    · have hq' : ∀ q, p ≠ .loc ni q := fun q hh => hq ⟨q, hh⟩
      have hun : unplugPort false v.source ni p = p := by
        cases p with
        | loc j q => simp only [unplugPort]; rw [if_neg]; rintro rfl; exact hq' q rfl
        | _ => rfl
      rw [hun, report_moved r hp hq']
      obtain ⟨s, hs, _⟩ := report_exists hw.valid hp
      rw [hs]
      cases p with
      | loc j q =>
        obtain ⟨w, hwv, _⟩ := hp
        simp only [reportSource, hwv, Option.map_some] at hs
        cases hs
        have : w.id ≠ node := by
          intro hid
          have := hw.valid.id_inj hwv r.vertex (hid.trans hvid.symm)
          exact hq' q (by rw [this])
        simp [dropNode, this]
      | glob g => cases hs; rfl
      | zero => cases hs; rfl)
  refine ⟨r.othersKept hw.valid, ?_, ?_⟩
  · intro id c hid
    rw [this.1 id c hid]; cases source net id c <;> rfl
  · intro c
    rw [this.2 c]; cases outputSource net c <;> rfl

/-- `remove` succeeds on every node of the net. -/
theorem C03_total {net : Net U α} {S : Units U α} {n : NodeId} (h : WF S n net) {node : NodeId} (hc : contains net node = true) :
    ∃ net' u, remove2 net node false = some (net', u) := by
  simp only [contains, Option.isSome_iff_exists] at hc
  obtain ⟨i, hi⟩ := hc
  obtain ⟨v, hv, _⟩ := (h.valid.map _ _).1 hi
  have hil := (List.getElem?_eq_some_iff.1 hv).1
  simp only [remove2, hi, hv, Option.bind_eq_bind, Option.bind_some, Bool.not_false, Bool.true_or, if_true]
  split
  · exact ⟨_, _, rfl⟩
  · have hl : ((List.map (fun x => Vertex.mapSource (unplugPort false v.source i) x) net.vertex)[net.vertex.length - 1]?).isSome := by
      rw [List.getElem?_map, List.getElem?_eq_getElem (by omega)]; rfl
    obtain ⟨x, hx⟩ := Option.isSome_iff_exists.1 hl
    rw [hx]
    exact ⟨_, _, rfl⟩

/-- **C04**: `remove_link` bypasses the removed node. (The reports are well defined because no node of a net of C01 is
connected to itself.) -/
theorem C04_remove_link [DecidableEq α] (E : Env U α) (hS : E.S.Lawful) {n : NodeId} {net net' : Net U α}
    (h : Reach E InRange n net) {node : NodeId} {u : U} (he : remove2 net node true = some (net', u)) :
    OthersKept net net' node u ∧
    (∀ id c, id ≠ node → source net' id c = (source net id c).bind (bypass net node)) ∧
    (∀ c, outputSource net' c = (outputSource net c).bind (bypass net node)) ∧
    (∀ id c q, source net' id c ≠ some (.loc node q)) ∧ (∀ c q, outputSource net' c ≠ some (.loc node q)) := by
  have hw := h.wf hS
  obtain ⟨ni, v, r⟩ := removed_of_remove2 hw.valid he
  have h' : Valid E.S net' := valid_removed hw.valid r (fun _ c e q hc => hw.noSelf ni v c e q r.vertex hc)
  have hvid : v.id = node := by
    obtain ⟨x, hx, hxid⟩ := (hw.valid.map node ni).1 r.index
    rw [r.vertex] at hx; cases hx; exact hxid
  have hk := r.othersKept hw.valid
  have := removed_source hw.valid h' r (bypass net node) (by
    intro p hp
    by_cases hq : ∃ q, p = .loc ni q
    · obtain ⟨q, rfl⟩ := hq
      obtain ⟨w, hwv, hlt⟩ := hp
      rw [r.vertex] at hwv; cases hwv
      have har := r.arity rfl
      have hlen := (hw.valid.arity ni v r.vertex).1
      have hedge := List.getElem?_eq_getElem (show q < v.source.length by omega)
      generalize v.source[q] = e at hedge
      have hns : ∀ q', e.source ≠ .loc ni q' := fun q' => hw.noSelf ni v q e q' r.vertex hedge
      have := report_moved r (hw.valid.edge ni v q e r.vertex hedge).2 hns
      simp only [unplugPort, if_true, hedge, Option.map_some, Option.getD_some, this]
      simp only [reportSource, r.vertex, Option.map_some, Option.bind_some, bypass, hvid, if_true]
      rw [← hvid, source_at hw.valid r.vertex, hedge]
      rfl
    · have hq' : ∀ q, p ≠ .loc ni q := fun q hh => hq ⟨q, hh⟩
      have hun : unplugPort true v.source ni p = p := by
        cases p with
        | loc j q => simp only [unplugPort]; rw [if_neg]; rintro rfl; exact hq' q rfl
        | _ => rfl
      rw [hun, report_moved r hp hq']
      cases p with
      | loc j q =>
        obtain ⟨w, hwv, _⟩ := hp
        simp only [reportSource, hwv, Option.map_some, Option.bind_some]
        have : w.id ≠ node := by
          intro hid
          have := hw.valid.id_inj hwv r.vertex (hid.trans hvid.symm)
          exact hq' q (by rw [this])
        simp [bypass, this]
      | glob g => rfl
      | zero => rfl)
  have nodead : ∀ p q, reportSource net' p ≠ some (.loc node q) := by
    intro p q hr
    cases p with
    | loc j k =>
      simp only [reportSource, Option.map_eq_some_iff] at hr
      obtain ⟨w, hw', hh⟩ := hr
      injection hh with h1 h2
      have := h'.get_of hw'
      rw [h1] at this
      have hg := hk.gone
      simp [contains, this] at hg
    | glob g => simp [reportSource] at hr
    | zero => simp [reportSource] at hr
  refine ⟨hk, this.1, this.2, ?_, ?_⟩
  · intro id c q hs
    cases hg : net'.nodeIndex.get id with
    | none => simp [source, hg] at hs
    | some j =>
      obtain ⟨w, hwv, rfl⟩ := (h'.map _ _).1 hg
      rw [source_at h' hwv, Option.bind_eq_some_iff] at hs
      obtain ⟨e, _, hs⟩ := hs
      exact nodead _ _ hs
  · intro c q hs
    rw [outputSource_at h', Option.bind_eq_some_iff] at hs
    obtain ⟨e, _, hs⟩ := hs
    exact nodead _ _ hs

/-! ## C05 -/

theorem reportSource_congr {a b : Net U α} (h : ∀ i : Nat, (b.vertex[i]?).map Vertex.id = (a.vertex[i]?).map Vertex.id)
    (p : Port) : reportSource b p = reportSource a p := by
  cases p with
  | loc j q =>
    have := h j
    simp only [reportSource]
    cases ha : a.vertex[j]? <;> cases hb : b.vertex[j]? <;> simp [ha, hb] at this ⊢
    exact this
  | _ => rfl

/-- **C05**: `replace` with a matching unit returns the old unit, installs the new one (at the sample rate of the
net) under the same id, and changes nothing else that can be queried; otherwise it panics. -/
theorem C05_replace [DecidableEq α] (E : Env U α) (hS : E.S.Lawful) {n : NodeId} {net : Net U α}
    (h : Reach E InRange n net) {node : NodeId} (u : U) :
    (replace E.S net node u = none ↔
      ¬ (inputsIn net node = some (E.S.ins u) ∧ outputsIn net node = some (E.S.outs u))) ∧
    ∀ net' old, replace E.S net node u = some (net', old) →
      unitOf net node = some old ∧ unitOf net' node = some (E.S.setSR net.sampleRate u) ∧
      net'.inputs = net.inputs ∧ net'.outputs = net.outputs ∧ ids net' = ids net ∧ size net' = size net ∧
      (∀ id, id ≠ node → unitOf net' id = unitOf net id) ∧
      (∀ id, inputsIn net' id = inputsIn net id ∧ outputsIn net' id = outputsIn net id) ∧
      (∀ id c, source net' id c = source net id c) ∧ (∀ c, outputSource net' c = outputSource net c) := by
  have hv := (h.wf hS).valid
  cases hg : net.nodeIndex.get node with
  | none => simp [replace, inputsIn, outputsIn, hg]
  | some i =>
    obtain ⟨v, hvv, hid⟩ := (hv.map _ _).1 hg
    constructor
    · simp only [replace, inputsIn, outputsIn, hg, hvv, Option.bind_eq_bind, Option.bind_some, Option.map_some,
        Option.some.injEq]
      constructor
      · intro hh hc
        rw [if_pos ⟨hc.1.symm, hc.2.symm⟩] at hh; cases hh
      · intro hc
        rw [if_neg]
        intro hh; exact hc ⟨hh.1.symm, hh.2.symm⟩
    · intro net' old he
      simp only [replace, hg, hvv, Option.bind_eq_bind, Option.bind_some] at he
      obtain ⟨har, he⟩ := ite_none_right he
      cases he
      have hil := (List.getElem?_eq_some_iff.1 hvv).1
      have hget : ∀ j, (net.vertex.set i { v with eng := { v.eng with unit := E.S.setSR net.sampleRate u }, changed := net.revision })[j]? =
          if j = i then some { v with eng := { v.eng with unit := E.S.setSR net.sampleRate u }, changed := net.revision } else net.vertex[j]? := by
        intro j
        rw [List.getElem?_set]
        by_cases hij : i = j
        · subst hij; simp [hil]
        · simp [hij, Ne.symm hij]
      have hrep : ∀ p, reportSource { net with vertex := net.vertex.set i { v with eng := { v.eng with unit := E.S.setSR net.sampleRate u }, changed := net.revision } } p = reportSource net p := by
        apply reportSource_congr
        intro j
        simp only [hget]
        by_cases hj : j = i
        · subst hj; simp [hvv]
        · simp [hj]
      refine ⟨by simp [unitOf, hg, hvv], by simp [unitOf, hg, hget], rfl, rfl, rfl, by simp [size], ?_, ?_, ?_, ?_⟩
      · intro id hne
        cases hgi : net.nodeIndex.get id with
        | none => simp [unitOf, hgi]
        | some j =>
          have : j ≠ i := by
            rintro rfl
            obtain ⟨w, hw, hwid⟩ := (hv.map _ _).1 hgi
            rw [hvv] at hw; cases hw
            exact hne (hwid.symm.trans hid)
          simp [unitOf, hgi, hget, this]
      · intro id
        cases hgi : net.nodeIndex.get id with
        | none => simp [inputsIn, outputsIn, hgi]
        | some j =>
          by_cases hj : j = i
          · subst hj; simp [inputsIn, outputsIn, hgi, hget, hvv]
          · simp [inputsIn, outputsIn, hgi, hget, hj]
      · intro id c
        simp only [source, hget, hrep]
        cases hgi : net.nodeIndex.get id with
        | none => rfl
        | some j =>
          by_cases hj : j = i
          · subst hj; simp [hvv]
          · simp [hj]
      · intro c
        simp only [outputSource, hrep]

/-! ## C10 -/

/-- Only the connections of node `t` changed. -/
def OnlyInputsOf (net net' : Net U α) (t : NodeId) : Prop :=
  net'.inputs = net.inputs ∧ net'.outputs = net.outputs ∧ ids net' = ids net ∧
  (∀ id, unitOf net' id = unitOf net id ∧ inputsIn net' id = inputsIn net id ∧ outputsIn net' id = outputsIn net id) ∧
  (∀ id c, id ≠ t → source net' id c = source net id c) ∧ (∀ c, outputSource net' c = outputSource net c)

/-- Only the connections of the net outputs changed. -/
def OnlyOutputs (net net' : Net U α) : Prop :=
  net'.inputs = net.inputs ∧ net'.outputs = net.outputs ∧ ids net' = ids net ∧
  (∀ id, unitOf net' id = unitOf net id ∧ inputsIn net' id = inputsIn net id ∧ outputsIn net' id = outputsIn net id) ∧
  (∀ id c, source net' id c = source net id c)

theorem wireAll_spec {S : Units U α} {net : Net U α} (hv : Valid S net) {t : NodeId} {ti : Nat} {v : Vertex U α}
    (ht : net.nodeIndex.get t = some ti) (hvv : net.vertex[ti]? = some v) (f : Nat → Port) :
    OnlyInputsOf net (wireAll net ti f) t ∧
    ∀ c, c < v.ins → source (wireAll net ti f) t c = reportSource net (f c) := by
  obtain ⟨w, hw, hid⟩ := (hv.map _ _).1 ht
  rw [hvv] at hw; cases hw
  have hget : ∀ j, (wireAll net ti f).vertex[j]? =
      if j = ti then some { v with source := v.source.mapIdx (fun c e => if c < v.ins then ⟨f c, .loc ti c⟩ else e) }
      else net.vertex[j]? := by
    intro j
    simp only [wireAll, List.getElem?_modify]
    by_cases hj : ti = j
    · subst hj; simp [hvv]
    · simp [hj, Ne.symm hj]
  have hix : (wireAll net ti f).nodeIndex = net.nodeIndex := rfl
  have hrep : ∀ p, reportSource (wireAll net ti f) p = reportSource net p := by
    apply reportSource_congr
    intro j
    rw [hget]
    by_cases hj : j = ti
    · subst hj; simp [hvv]
    · simp [hj]
  refine ⟨⟨rfl, rfl, rfl, ?_, ?_, ?_⟩, ?_⟩
  · intro id
    simp only [unitOf, inputsIn, outputsIn, hix]
    cases hgi : net.nodeIndex.get id with
    | none => simp
    | some j =>
      by_cases hj : j = ti
      · subst hj; simp [hget, hvv]
      · simp [hget, hj]
  · intro id c hne
    simp only [source, hix, hrep]
    cases hgi : net.nodeIndex.get id with
    | none => rfl
    | some j =>
      have : j ≠ ti := by
        rintro rfl
        obtain ⟨w, hw, hwid⟩ := (hv.map _ _).1 hgi
        rw [hvv] at hw; cases hw
        exact hne (hwid.symm.trans hid)
      simp [hget, this]
  · intro c
    simp only [outputSource, hrep]
    rfl
  · intro c hc
    have hl := (hv.arity ti v hvv).1
    simp only [source, hix, ht, Option.bind_eq_bind, Option.bind_some, hget, if_true, hc, List.getElem?_mapIdx]
    rw [List.getElem?_eq_getElem (show c < v.source.length by omega)]
    simp [hrep]

/-- **C10**, `pipe_all(a, b)`: input `c` of `b` reads output `c` modulo the number of outputs of `a`. -/
theorem C10_pipe_all [DecidableEq α] (E : Env U α) (hS : E.S.Lawful) {n : NodeId} {net : Net U α}
    (h : Reach E InRange n net) {s t : NodeId} {o i : Nat} (hne : s ≠ t) (ho : outputsIn net s = some o)
    (hi : inputsIn net t = some i) :
    ∃ net', pipeAll net s t = some net' ∧ OnlyInputsOf net net' t ∧
      ∀ c, c < i → source net' t c = some (if o = 0 then .zero else .loc s (c % o)) := by
  have hv := (h.wf hS).valid
  simp only [outputsIn, inputsIn, Option.bind_eq_some_iff, Option.map_eq_some_iff] at ho hi
  obtain ⟨si, hsi, sv, hsv, rfl⟩ := ho
  obtain ⟨ti, hti, tv, htv, rfl⟩ := hi
  have hsid : sv.id = s := by
    obtain ⟨w, hw, hid⟩ := (hv.map _ _).1 hsi
    rw [hsv] at hw; cases hw; exact hid
  obtain ⟨h1, h2⟩ := wireAll_spec hv hti htv (fun c => if sv.outs > 0 then .loc si (c % sv.outs) else .zero)
  refine ⟨_, by simp [pipeAll, hne, hsi, hti, hsv, htv], h1, ?_⟩
  intro c hc
  rw [h2 c hc]
  by_cases hz : sv.outs = 0
  · simp [hz, reportSource]
  · simp [hz, Nat.pos_of_ne_zero hz, reportSource, hsv, hsid]

/-- **C10**, `pipe_input(t)`: input `c` of `t` reads net input `c` modulo the number of net inputs. -/
theorem C10_pipe_input [DecidableEq α] (E : Env U α) (hS : E.S.Lawful) {n : NodeId} {net : Net U α}
    (h : Reach E InRange n net) {t : NodeId} {i : Nat} (hi : inputsIn net t = some i) :
    ∃ net', pipeInput net t = some net' ∧ OnlyInputsOf net net' t ∧
      ∀ c, c < i → source net' t c = some (if net.inputs = 0 then .zero else .glob (c % net.inputs)) := by
  have hv := (h.wf hS).valid
  simp only [inputsIn, Option.bind_eq_some_iff, Option.map_eq_some_iff] at hi
  obtain ⟨ti, hti, tv, htv, rfl⟩ := hi
  obtain ⟨h1, h2⟩ := wireAll_spec hv hti htv (fun c => if net.inputs > 0 then .glob (c % net.inputs) else .zero)
  refine ⟨_, by simp [pipeInput, hti, htv], h1, ?_⟩
  intro c hc
  rw [h2 c hc]
  by_cases hz : net.inputs = 0
  · simp [hz, reportSource]
  · simp [hz, Nat.pos_of_ne_zero hz, reportSource]

theorem outputs_spec (net : Net U α) (oe : List Edge) (o : Option (List Nat)) :
    OnlyOutputs net { net with outputEdge := oe, order := o } ∧
    ∀ c, outputSource { net with outputEdge := oe, order := o } c =
      if c < net.outputs then (oe[c]?).bind (fun e => reportSource net e.source) else none := by
  refine ⟨⟨rfl, rfl, rfl, fun _ => ⟨rfl, rfl, rfl⟩, ?_⟩, ?_⟩
  · intro id c
    have hrep : ∀ p, reportSource { net with outputEdge := oe, order := o } p = reportSource net p :=
      reportSource_congr (fun _ => rfl)
    simp only [source, hrep]
  · intro c
    have hrep : ∀ p, reportSource { net with outputEdge := oe, order := o } p = reportSource net p :=
      reportSource_congr (fun _ => rfl)
    simp only [outputSource, hrep]
    split <;> rfl

/-- **C10**, `pipe_output(s)`: net output `c` reads output `c` modulo the number of outputs of `s`. -/
theorem C10_pipe_output [DecidableEq α] (E : Env U α) (hS : E.S.Lawful) {n : NodeId} {net : Net U α}
    (h : Reach E InRange n net) {s : NodeId} {o : Nat} (ho : outputsIn net s = some o) :
    ∃ net', pipeOutput net s = some net' ∧ OnlyOutputs net net' ∧
      ∀ c, c < net.outputs → outputSource net' c = some (if o = 0 then .zero else .loc s (c % o)) := by
  have hv := (h.wf hS).valid
  simp only [outputsIn, Option.bind_eq_some_iff, Option.map_eq_some_iff] at ho
  obtain ⟨si, hsi, sv, hsv, rfl⟩ := ho
  have hsid : sv.id = s := by
    obtain ⟨w, hw, hid⟩ := (hv.map _ _).1 hsi
    rw [hsv] at hw; cases hw; exact hid
  refine ⟨_, by simp only [pipeOutput, hsi, hsv, Option.bind_eq_bind, Option.bind_some]; rfl, (outputs_spec net _ _).1, ?_⟩
  intro c hc
  have hl := hv.oeLen
  rw [(outputs_spec net _ _).2 c, if_pos hc, List.getElem?_mapIdx, List.getElem?_eq_getElem (by omega)]
  by_cases hz : sv.outs = 0
  · simp [hz, reportSource, hc]
  · simp [hz, Nat.pos_of_ne_zero hz, reportSource, hsv, hsid, hc]

/-- **C10**, `pass_through(i, o)`: net output `o` reads net input `i`, nothing else changes. -/
theorem C10_pass_through [DecidableEq α] (E : Env U α) (hS : E.S.Lawful) {n : NodeId} {net : Net U α}
    (h : Reach E InRange n net) {i o : Nat} (ho : o < net.outputs) :
    ∃ net', passThrough net i o = some net' ∧ OnlyOutputs net net' ∧
      ∀ c, outputSource net' c = if c = o then some (.glob i) else outputSource net c := by
  have hv := (h.wf hS).valid
  have hl := hv.oeLen
  refine ⟨setOutputEdge net o ⟨.glob i, .glob o⟩, by simp only [passThrough]; rw [if_pos (by omega)], (outputs_spec net _ _).1, ?_⟩
  intro c
  rw [setOutputEdge, (outputs_spec net _ _).2 c, outputSource_at hv, List.getElem?_set]
  by_cases hc : c = o
  · subst hc; simp [ho, hl, reportSource]
  · rw [if_neg (Ne.symm hc), if_neg hc]
    split
    · rfl
    · rw [List.getElem?_eq_none (by omega)]; rfl

/-- Reports of ports that exist are not affected by pushing a node. -/
theorem report_push {S : Units U α} {net : Net U α} (id : NodeId) (u : U) {p : Port} (hp : PortOK net p) :
    reportSource (push S net id u) p = reportSource net p := by
  cases p with
  | loc j q =>
    obtain ⟨v, hv, _⟩ := hp
    have hj := (List.getElem?_eq_some_iff.1 hv).1
    simp [reportSource, push, List.getElem?_append_left hj]
  | _ => rfl

theorem modify_append_last {β : Type} (l : List β) (a : β) (f : β → β) :
    (l ++ [a]).modify l.length f = l ++ [f a] := by
  apply List.ext_getElem?
  intro i
  rw [List.getElem?_modify]
  rcases Nat.lt_trichotomy i l.length with h | h | h
  · simp [List.getElem?_append_left h, Nat.ne_of_gt h]
  · subst h; simp
  · rw [List.getElem?_eq_none (by simp; omega), List.getElem?_eq_none (by simp; omega)]; rfl

/-- **C10**, `chain(unit)`: the new node reads what the net outputs read before (or the net inputs, if it is the first
node), modulo their number; all net outputs now read the new node; nothing else changes. -/
theorem C10_chain [DecidableEq α] (E : Env U α) (hS : E.S.Lawful) {n : NodeId} {net : Net U α}
    (h : Reach E InRange n net) (u : U) :
    ∃ net', chain E.S net n u = some net' ∧
      net'.inputs = net.inputs ∧ net'.outputs = net.outputs ∧ size net' = size net + 1 ∧
      unitOf net' n = some (E.S.setSR net.sampleRate u) ∧
      (∀ id, id ≠ n → unitOf net' id = unitOf net id ∧ ∀ c, source net' id c = source net id c) ∧
      (∀ c, c < E.S.ins u → source net' n c =
        if size net = 0 then some (if net.inputs = 0 then .zero else .glob (c % net.inputs))
        else if net.outputs = 0 then some .zero else outputSource net (c % net.outputs)) ∧
      (∀ c, c < net.outputs → outputSource net' c = some (if E.S.outs u = 0 then .zero else .loc n (c % E.S.outs u))) := by
  have hw := h.wf hS
  have hv := hw.valid
  -- the net after `push` and the first rewiring
  let V : (Nat → Port) → Vertex U α := fun f => { Vertex.new E.S n net.vertex.length (E.S.setSR net.sampleRate u) with
    source := (List.range (E.S.ins u)).map (fun c => ⟨f c, .loc net.vertex.length c⟩) }
  have main : ∀ (net2 : Net U α) (f : Nat → Port), net2.vertex = net.vertex ++ [V f] →
      net2.nodeIndex = net.nodeIndex.insert n net.vertex.length → net2.outputEdge = net.outputEdge →
      net2.inputs = net.inputs → net2.outputs = net.outputs →
      (∀ c, c < E.S.ins u → PortOK net (f c)) →
      ∃ net', pipeOutput net2 n = some net' ∧
      net'.inputs = net.inputs ∧ net'.outputs = net.outputs ∧ size net' = size net + 1 ∧
      unitOf net' n = some (E.S.setSR net.sampleRate u) ∧
      (∀ id, id ≠ n → unitOf net' id = unitOf net id ∧ ∀ c, source net' id c = source net id c) ∧
      (∀ c, c < E.S.ins u → source net' n c = reportSource net (f c)) ∧
      (∀ c, c < net.outputs → outputSource net' c = some (if E.S.outs u = 0 then .zero else .loc n (c % E.S.outs u))) := by
    intro net2 f hvert hidx hoe hin hout hf
    have hgetn : net2.vertex[net.vertex.length]? = some (V f) := by rw [hvert]; simp
    have hgeto : ∀ j, j < net.vertex.length → net2.vertex[j]? = net.vertex[j]? := by
      intro j hj; rw [hvert, List.getElem?_append_left hj]
    have hixn : net2.nodeIndex.get n = some net.vertex.length := by rw [hidx, IdMap.get_insert]; simp
    have hixo : ∀ id, id ≠ n → net2.nodeIndex.get id = net.nodeIndex.get id := by
      intro id hid; rw [hidx, IdMap.get_insert]; simp [hid]
    have hrep : ∀ p, PortOK net p → reportSource net2 p = reportSource net p := by
      intro p hp
      cases p with
      | loc j q =>
        obtain ⟨v, hjv, _⟩ := hp
        have hj := (List.getElem?_eq_some_iff.1 hjv).1
        simp [reportSource, hgeto j hj]
      | _ => rfl
    have houts : (V f).outs = E.S.outs u := by simp [V, Vertex.new, hS.outs_setSR]
    have hins : (V f).ins = E.S.ins u := by simp [V, Vertex.new, hS.ins_setSR]
    obtain ⟨oe, hoed⟩ : ∃ oe, oe = net2.outputEdge.mapIdx (fun c e =>
      if c < net2.outputs then
        ⟨if (V f).outs > 0 then .loc net.vertex.length (c % (V f).outs) else .zero, .glob c⟩
      else e) := ⟨_, rfl⟩
    have hos := outputs_spec net2 oe none
    have hpo : pipeOutput net2 n = some { net2 with outputEdge := oe, order := none } := by
      simp only [pipeOutput, hixn, hgetn, Option.bind_eq_bind, Option.bind_some, hoed]
    refine ⟨_, hpo, hin, hout, ?_⟩
    obtain ⟨⟨o1, o2, o3, o4, o5⟩, o6⟩ := hos
    refine ⟨?_, ?_, ?_, ?_, ?_⟩
    · simp [size, hvert]
    · rw [(o4 n).1]
      simp [unitOf, hixn, hgetn, V, Vertex.new]
    · intro id hid
      rw [(o4 id).1]
      simp only [o5]
      constructor
      · simp only [unitOf, hixo id hid]
        cases hg : net.nodeIndex.get id with
        | none => rfl
        | some j => simp [hgeto j (hv.get_lt hg)]
      · intro c
        cases hg : net.nodeIndex.get id with
        | none => simp [source, hixo id hid, hg]
        | some j =>
          obtain ⟨v, hjv, rfl⟩ := (hv.map _ _).1 hg
          rw [source_at hv hjv]
          have hl := (hv.arity j v hjv).1
          simp only [source, hixo _ hid, hg, Option.bind_eq_bind, Option.bind_some, hgeto j (hv.get_lt hg), hjv]
          split
          · rw [List.getElem?_eq_getElem (by omega)]
            simp only [Option.bind_some]
            exact hrep _ (hv.edge j v c _ hjv (List.getElem?_eq_getElem (by omega))).2
          · rw [List.getElem?_eq_none (by omega)]; rfl
    · intro c hc
      rw [o5]
      simp only [source, hixn, hgetn, Option.bind_eq_bind, Option.bind_some, hins, if_pos hc]
      simp only [V, List.getElem?_map, List.getElem?_range hc, Option.map_some, Option.bind_some]
      exact hrep _ (hf c hc)
    · intro c hc
      rw [o6 c, hout, if_pos hc, hoed, List.getElem?_mapIdx, hoe, List.getElem?_eq_getElem (by rw [hv.oeLen]; exact hc)]
      simp only [Option.map_some, Option.bind_some]
      by_cases hz : E.S.outs u = 0
      · simp [houts, hz, reportSource, hout, hc]
      · rw [houts]; simp [hout, hc, hz, Nat.pos_of_ne_zero hz, reportSource, hgetn]; rfl
  have hpn : (push E.S net n u).nodeIndex.get n = some net.vertex.length := by
    simp [push, IdMap.get_insert]
  have hpv : (push E.S net n u).vertex = net.vertex ++ [Vertex.new E.S n net.vertex.length (E.S.setSR net.sampleRate u)] := rfl
  have hVz : V (fun _ => .zero) = Vertex.new E.S n net.vertex.length (E.S.setSR net.sampleRate u) := by
    simp [V, Vertex.new, hS.ins_setSR]
  simp only [chain, Option.bind_eq_bind, hpn, Option.bind_some]
  by_cases hs : (push E.S net n u).vertex.length = 1
  · have hnil : net.vertex = [] := by
      apply List.eq_nil_of_length_eq_zero
      rw [hpv] at hs; simp at hs; simpa using hs
    simp only [hs, if_true]
    have hsz : size net = 0 := by simp [size, hnil]
    by_cases hi : 0 < net.inputs
    · have hi' : (push E.S net n u).inputs > 0 := hi
      simp only [if_pos hi']
      have hg0 : (push E.S net n u).vertex[net.vertex.length]? = some (Vertex.new E.S n net.vertex.length (E.S.setSR net.sampleRate u)) := by
        rw [hpv]; simp
      simp only [pipeInput, hpn, hg0, Option.bind_eq_bind, Option.bind_some]
      obtain ⟨net', r1, r2⟩ := main (wireAll (push E.S net n u) net.vertex.length (fun c => if (push E.S net n u).inputs > 0 then .glob (c % (push E.S net n u).inputs) else .zero))
        (fun c => .glob (c % net.inputs)) (by
          simp only [wireAll, hpv]
          rw [modify_append_last]
          congr 1
          simp only [V]
          congr 1
          simp only [Vertex.new, hS.ins_setSR]
          congr 1
          apply List.ext_getElem?
          intro c
          simp only [List.getElem?_mapIdx, List.getElem?_map]
          by_cases hc : c < E.S.ins u
          · simp [hc, push, hi]
          · rw [List.getElem?_eq_none (by simp; omega)]; rfl) rfl rfl rfl rfl
        (fun c _ => Nat.mod_lt _ hi)
      refine ⟨net', r1, r2.1, r2.2.1, r2.2.2.1, r2.2.2.2.1, r2.2.2.2.2.1, ?_, r2.2.2.2.2.2.2⟩
      intro c hc
      rw [r2.2.2.2.2.2.1 c hc, if_pos hsz, if_neg (by omega)]; rfl
    · have hi' : ¬ (push E.S net n u).inputs > 0 := hi
      simp only [if_neg hi', Option.bind_some]
      obtain ⟨net', r1, r2⟩ := main (push E.S net n u) (fun _ => .zero) (by rw [hVz, hpv]) rfl rfl rfl rfl (fun _ _ => trivial)
      refine ⟨net', r1, r2.1, r2.2.1, r2.2.2.1, r2.2.2.2.1, r2.2.2.2.2.1, ?_, r2.2.2.2.2.2.2⟩
      intro c hc
      rw [r2.2.2.2.2.2.1 c hc, if_pos hsz, if_pos (by omega)]; rfl
  · simp only [hs, if_false]
    have hsz : size net ≠ 0 := by
      intro hz; apply hs; rw [hpv]; simp only [size] at hz; simp [hz]
    refine (fun (hm : _) => ?_) (main { push E.S net n u with vertex := (push E.S net n u).vertex.modify net.vertex.length (fun v =>
        { v with source := v.source.mapIdx (fun i e =>
            if i < E.S.ins u then
              e.setSource (if (push E.S net n u).outputs > 0 then
                (((push E.S net n u).outputEdge[i % (push E.S net n u).outputs]?).map (·.source)).getD .zero else .zero)
            else e) }) } (fun c => if net.outputs > 0 then ((net.outputEdge[c % net.outputs]?).map Edge.source).getD .zero else .zero)
      (by
        simp only [hpv]
        rw [modify_append_last]
        congr 1
        simp only [V]
        congr 1
        simp only [Vertex.new, hS.ins_setSR]
        congr 1
        apply List.ext_getElem?
        intro c
        simp only [List.getElem?_mapIdx, List.getElem?_map]
        by_cases hc : c < E.S.ins u
        · simp [hc, push, Edge.setSource]
        · simp [Nat.le_of_not_lt hc]) rfl rfl rfl rfl
      (by
        intro c _
        by_cases ho : net.outputs > 0
        · have hlt : c % net.outputs < net.outputEdge.length := by rw [hv.oeLen]; exact Nat.mod_lt _ ho
          rw [if_pos ho, List.getElem?_eq_getElem hlt]
          exact (hv.oe _ _ (List.getElem?_eq_getElem hlt)).2
        · rw [if_neg ho]; trivial))
    obtain ⟨net', r1, r2⟩ := hm
    refine ⟨net', r1, r2.1, r2.2.1, r2.2.2.1, r2.2.2.2.1, r2.2.2.2.2.1, ?_, r2.2.2.2.2.2.2⟩
    intro c hc
    rw [r2.2.2.2.2.2.1 c hc, if_neg hsz]
    by_cases ho : net.outputs = 0
    · simp [ho, reportSource]
    · have ho' : 0 < net.outputs := Nat.pos_of_ne_zero ho
      have hlt : c % net.outputs < net.outputEdge.length := by rw [hv.oeLen]; exact Nat.mod_lt _ ho'
      rw [if_pos ho', if_neg ho, outputSource_at hv, List.getElem?_eq_getElem hlt]; rfl

/-! ### Concrete cases -/

/-- generator 0 → filter 1 → filter 2 → output, built with in-range calls only. -/
def demoNet : Net DU Int :=
  match runEdits demoEnv 0 (new 44100 1 1) [.push gen1, .push fil1, .push fil1, .pipeAll 0 1, .connect 1 0 2 0, .pipeOutput 2] with
  | some r => r.1
  | none => new 44100 1 1

theorem demoNet_reach : Reach demoEnv InRange 3 demoNet := by
  have h0 : Reach demoEnv InRange 0 (new 44100 1 1 : Net DU Int) := .new 0 _ 1 1
  have h1 := h0.edit (.push gen1) trivial rfl
  have h2 := h1.edit (.push fil1) trivial rfl
  have h3 := h2.edit (.push fil1) trivial rfl
  have h4 := h3.edit (.pipeAll 0 1) trivial rfl
  have h5 := h4.edit (.connect 1 0 2 0) (by intro o ho; cases ho; decide) rfl
  exact h5.edit (.pipeOutput 2) trivial rfl

/-- C03: removing the middle node zeroes the input of the last one. -/
example : ∃ net' u, remove2 demoNet 1 false = some (net', u) ∧ u = fil1 ∧ source demoNet 2 0 = some (.loc 1 0) ∧
    source net' 2 0 = some .zero ∧ outputSource net' 0 = some (.loc 2 0) := ⟨_, _, rfl, rfl, rfl, rfl, rfl⟩
/-- C04: removing it with links connects the generator to the last node. -/
example : ∃ net' u, remove2 demoNet 1 true = some (net', u) ∧ source net' 2 0 = some (.loc 0 0) := ⟨_, _, rfl, rfl⟩
/-- C05: a filter can be replaced by a filter, not by a generator. -/
example : (∃ net' old, replace demo demoNet 1 fil1 = some (net', old)) ∧ replace demo demoNet 1 gen1 = none := ⟨⟨_, _, rfl⟩, rfl⟩
/-- C10 -/
example : outputsIn demoNet 0 = some 1 ∧ inputsIn demoNet 2 = some 1 ∧ 0 < demoNet.outputs ∧ 0 < demoNet.inputs := ⟨rfl, rfl, by decide, by decide⟩

end Fundsp.Net
