import Verif.Net.Valid

/-! # Well-formed nets, continued: removal, `chain`, graph operators, self-connections -/

namespace Fundsp.Net
variable {U α : Type}

/-! ## Self-connections -/

theorem noSelf_new (sr : α) (i o : Nat) : NoSelf (new sr i o : Net U α) := by
  intro i v c e p hv; simp [new] at hv

theorem noSelf_outputs {net : Net U α} (h : NoSelf net) (oe : List Edge) (o : Option (List Nat)) :
    NoSelf { net with outputEdge := oe, order := o } := h

theorem noSelf_push {S : Units U α} {net : Net U α} (h : NoSelf net) (id : NodeId) (u : U) :
    NoSelf (push S net id u) := by
  intro i v c e p hv he
  rcases (getElem?_append_singleton _ _ _ _).1 hv with hv | ⟨rfl, rfl⟩
  · exact h i v c e p hv he
  · rw [(Vertex.new_source he).1]; exact fun h => Port.noConfusion h

theorem noSelf_setVertexSource {net : Net U α} (h : NoSelf net) (i c : Nat) {p : Port} (hp : ∀ q, p ≠ .loc i q) :
    NoSelf (setVertexSource net i c p) := by
  intro j w c' e q hw he
  simp only [setVertexSource, List.getElem?_modify] at hw
  cases hv : net.vertex[j]? with
  | none => simp [hv] at hw
  | some v =>
    by_cases hij : i = j
    · subst hij
      simp [hv] at hw; subst hw
      simp only [List.getElem?_modify] at he
      cases hs : v.source[c']? with
      | none => simp [hs] at he
      | some e0 =>
        by_cases hc : c = c'
        · subst hc; simp [hs] at he; subst he
          exact hp q
        · simp [hs, hc] at he; subst he; exact h i v c' e0 q hv hs
    · simp [hv, hij] at hw; subst hw
      exact h j v c' e q hv he

theorem noSelf_setVertexEdge {net : Net U α} (h : NoSelf net) (i c : Nat) {p : Port} (hp : ∀ q, p ≠ .loc i q) (t) :
    NoSelf (setVertexEdge net i c ⟨p, t⟩) := by
  intro j w c' e q hw he
  simp only [setVertexEdge, List.getElem?_modify] at hw
  cases hv : net.vertex[j]? with
  | none => simp [hv] at hw
  | some v =>
    by_cases hij : i = j
    · subst hij
      simp [hv] at hw; subst hw
      simp only [List.getElem?_set] at he
      by_cases hc : c = c'
      · subst hc
        simp only [if_true] at he
        split at he
        · cases he; exact hp q
        · cases he
      · simp only [if_neg hc] at he; exact h i v c' e q hv he
    · simp [hv, hij] at hw; subst hw
      exact h j v c' e q hv he

theorem noSelf_wireAll {net : Net U α} (h : NoSelf net) (ti : Nat) {f : Nat → Port} (hf : ∀ c q, f c ≠ .loc ti q) :
    NoSelf (wireAll net ti f) := by
  intro j w c' e q hw he
  simp only [wireAll, List.getElem?_modify] at hw
  cases hv : net.vertex[j]? with
  | none => simp [hv] at hw
  | some v =>
    by_cases hij : ti = j
    · subst hij
      simp [hv] at hw; subst hw
      simp only [List.getElem?_mapIdx, Option.map_eq_some_iff] at he
      obtain ⟨e0, hs, rfl⟩ := he
      split
      · exact hf _ q
      · exact h ti v c' e0 q hv hs
    · simp [hv, hij] at hw; subst hw
      exact h j v c' e q hv he

theorem noSelf_setVertex {net : Net U α} (h : NoSelf net) {i : Nat} {v v' : Vertex U α}
    (hv : net.vertex[i]? = some v) (hsrc : v'.source = v.source) :
    NoSelf { net with vertex := net.vertex.set i v' } := by
  intro j w c e p hw he
  simp only [List.getElem?_set] at hw
  by_cases hij : i = j
  · subst hij
    simp only [if_true] at hw
    split at hw
    · cases hw; rw [hsrc] at he; exact h i v c e p hv he
    · cases hw
  · simp only [if_neg hij] at hw; exact h j w c e p hw he

theorem noSelf_setSource {S : Units U α} {net net' : Net U α} (hv : Valid S net) (h : NoSelf net) {n c s}
    (he : setSource net n c s = some net') : NoSelf net' := by
  simp only [setSource, Option.bind_eq_bind, Option.bind_eq_some_iff] at he
  obtain ⟨i, hi, v, _, he⟩ := he
  split at he
  · obtain ⟨hne, he⟩ := ite_none_right he
    rw [Option.bind_eq_some_iff] at he
    obtain ⟨p, hp, he⟩ := he
    obtain ⟨_, he⟩ := ite_none_right he
    cases he
    apply noSelf_setVertexSource h
    intro q hq
    subst hq
    cases s with
    | zero => simp [resolveSource] at hp
    | glob g => simp [resolveSource] at hp
    | loc id j =>
      simp only [resolveSource, Option.bind_eq_bind, Option.bind_eq_some_iff] at hp
      obtain ⟨i', hi', w, hw, hp⟩ := hp
      obtain ⟨_, hp⟩ := ite_none_right hp
      cases hp
      obtain ⟨w1, hw1, rfl⟩ := (hv.map _ _).1 hi
      obtain ⟨w2, hw2, rfl⟩ := (hv.map _ _).1 hi'
      rw [hw1] at hw2; cases hw2
      simp at hne
  · cases he

theorem noSelf_setOutputSource {net net' : Net U α} (h : NoSelf net) {c s}
    (he : setOutputSource net c s = some net') : NoSelf net' := by
  simp only [setOutputSource, Option.bind_eq_bind] at he
  split at he
  · simp only [Option.bind_eq_some_iff] at he
    obtain ⟨p, hp, e, hoe, he⟩ := he
    cases he
    exact h
  · cases he

theorem noSelf_connect {S : Units U α} {net net' : Net U α} (hv : Valid S net) (h : NoSelf net) {s sp t tp}
    (he : connect net s sp t tp = some net') : NoSelf net' := by
  simp only [connect, Option.bind_eq_bind] at he
  split at he
  · cases he
  · rename_i hne
    simp only [Option.bind_eq_some_iff] at he
    obtain ⟨si, hsi, ti, hti, v, _, he⟩ := he
    obtain ⟨_, he⟩ := ite_none_right he
    cases he
    apply noSelf_setVertexEdge h
    rintro q ⟨⟩
    obtain ⟨w1, hw1, rfl⟩ := (hv.map _ _).1 hsi
    obtain ⟨w2, hw2, rfl⟩ := (hv.map _ _).1 hti
    rw [hw1] at hw2; cases hw2
    exact hne rfl

theorem noSelf_disconnect {net net' : Net U α} (h : NoSelf net) {n p}
    (he : disconnect net n p = some net') : NoSelf net' := by
  simp only [disconnect, Option.bind_eq_bind, Option.bind_eq_some_iff] at he
  obtain ⟨i, _, v, _, he⟩ := he
  obtain ⟨_, he⟩ := ite_none_right he
  cases he
  exact noSelf_setVertexSource h _ _ (by intro q; exact fun h => Port.noConfusion h)

theorem noSelf_connectInput {net net' : Net U α} (h : NoSelf net) {g t tp}
    (he : connectInput net g t tp = some net') : NoSelf net' := by
  simp only [connectInput, Option.bind_eq_bind, Option.bind_eq_some_iff] at he
  obtain ⟨i, _, v, _, he⟩ := he
  obtain ⟨_, he⟩ := ite_none_right he
  cases he
  exact noSelf_setVertexEdge h _ _ (by intro q; exact fun h => Port.noConfusion h) _

theorem noSelf_pipeInput {net net' : Net U α} (h : NoSelf net) {t}
    (he : pipeInput net t = some net') : NoSelf net' := by
  simp only [pipeInput, Option.bind_eq_bind, Option.bind_eq_some_iff] at he
  obtain ⟨i, _, v, _, he⟩ := he
  cases he
  apply noSelf_wireAll h
  intro c q; split <;> exact fun h => Port.noConfusion h

theorem noSelf_connectOutput {net net' : Net U α} (h : NoSelf net) {s sp g}
    (he : connectOutput net s sp g = some net') : NoSelf net' := by
  simp only [connectOutput, Option.bind_eq_bind, Option.bind_eq_some_iff] at he
  obtain ⟨i, _, he⟩ := he
  obtain ⟨_, he⟩ := ite_none_right he
  cases he; exact h

theorem noSelf_disconnectOutput {net net' : Net U α} (h : NoSelf net) {c}
    (he : disconnectOutput net c = some net') : NoSelf net' := by
  simp only [disconnectOutput] at he
  obtain ⟨_, he⟩ := ite_none_right he
  cases he; exact h

theorem noSelf_passThrough {net net' : Net U α} (h : NoSelf net) {i c}
    (he : passThrough net i c = some net') : NoSelf net' := by
  simp only [passThrough] at he
  obtain ⟨_, he⟩ := ite_none_right he
  cases he; exact h

theorem noSelf_pipeOutput {net net' : Net U α} (h : NoSelf net) {s}
    (he : pipeOutput net s = some net') : NoSelf net' := by
  simp only [pipeOutput, Option.bind_eq_bind, Option.bind_eq_some_iff] at he
  obtain ⟨si, hsi, sv, hsv, he⟩ := he
  cases he; exact h

theorem noSelf_pipeAll {S : Units U α} {net net' : Net U α} (hv : Valid S net) (h : NoSelf net) {s t}
    (he : pipeAll net s t = some net') : NoSelf net' := by
  simp only [pipeAll, Option.bind_eq_bind] at he
  split at he
  · cases he; exact h
  · rename_i hne
    simp only [Option.bind_eq_some_iff] at he
    obtain ⟨si, hsi, ti, hti, sv, hsv, v, _, he⟩ := he
    cases he
    apply noSelf_wireAll h
    intro c q
    split
    · rintro ⟨⟩
      obtain ⟨w1, hw1, rfl⟩ := (hv.map _ _).1 hsi
      obtain ⟨w2, hw2, rfl⟩ := (hv.map _ _).1 hti
      rw [hw1] at hw2; cases hw2
      exact hne rfl
    · exact fun h => Port.noConfusion h

theorem noSelf_replace {S : Units U α} {net net' : Net U α} (h : NoSelf net) {n u u'}
    (he : replace S net n u = some (net', u')) : NoSelf net' := by
  simp only [replace, Option.bind_eq_bind, Option.bind_eq_some_iff] at he
  obtain ⟨i, hi, v, hv, he⟩ := he
  obtain ⟨_, he⟩ := ite_none_right he
  cases he
  exact noSelf_setVertex h hv rfl

theorem noSelf_crossfade {S : Units U α} {net net' : Net U α} (h : NoSelf net) {n f t u}
    (he : crossfade S net n f t u = some net') : NoSelf net' := by
  simp only [crossfade, Option.bind_eq_bind, Option.bind_eq_some_iff] at he
  obtain ⟨i, hi, v, hv, he⟩ := he
  obtain ⟨_, he⟩ := ite_none_right he
  split at he
  · cases he; exact h
  · cases he
    exact noSelf_setVertex h hv rfl

/-! ## Removal -/

/-- New position of vertex `j` when `ni` is removed and the last vertex takes its place. -/
def moved (last ni j : Nat) : Nat := if j = last then ni else j

theorem movePort_self (n : Nat) (p : Port) : movePort n n p = p := by
  cases p with
  | loc i j => simp only [movePort]; split <;> simp_all
  | _ => rfl

/-- Everything about the result of `remove_2`. -/
structure Removed (net net' : Net U α) (node : NodeId) (link : Bool) (u : U) (ni : Nat) (v : Vertex U α) : Prop where
  index : net.nodeIndex.get node = some ni
  vertex : net.vertex[ni]? = some v
  unit : u = v.eng.unit
  arity : link = true → v.ins = v.outs
  len : net'.vertex.length + 1 = net.vertex.length
  keep : ∀ (j : Nat) (w : Vertex U α), net.vertex[j]? = some w → j ≠ ni →
    net'.vertex[moved (net.vertex.length - 1) ni j]? = some { w with
      source := w.source.mapIdx (fun c e =>
        ⟨movePort (net.vertex.length - 1) ni (unplugPort link v.source ni e.source),
          .loc (moved (net.vertex.length - 1) ni j) c⟩) }
  outputs : net'.outputEdge = net.outputEdge.map (fun e =>
    e.setSource (movePort (net.vertex.length - 1) ni (unplugPort link v.source ni e.source)))
  map : ∀ id, net'.nodeIndex.get id =
    if id = node then none else (net.nodeIndex.get id).map (moved (net.vertex.length - 1) ni)
  keys : (List.map Prod.fst net'.nodeIndex).Nodup
  mapLen : net'.nodeIndex.length + 1 = net.nodeIndex.length
  nin : net'.inputs = net.inputs
  nout : net'.outputs = net.outputs
  rest : net'.sampleRate = net.sampleRate ∧ net'.hasBackend = net.hasBackend ∧ net'.editQueue = net.editQueue ∧
    net'.revision = net.revision ∧ net'.backendInputs = net.backendInputs ∧ net'.backendOutputs = net.backendOutputs

theorem mapSource_eq {S : Units U α} {net : Net U α} (h : Valid S net) {j : Nat} {w : Vertex U α}
    (hw : net.vertex[j]? = some w) (f : Port → Port) :
    w.source.map (fun e => e.setSource (f e.source)) = w.source.mapIdx (fun c e => ⟨f e.source, .loc j c⟩) := by
  apply List.ext_getElem?
  intro c
  simp only [List.getElem?_map, List.getElem?_mapIdx]
  cases he : w.source[c]? with
  | none => rfl
  | some e =>
    have := (h.edge j w c e hw he).1
    simp [Edge.setSource, this]

theorem removed_of_remove2 {S : Units U α} {net net' : Net U α} (h : Valid S net) {node : NodeId} {link : Bool} {u : U}
    (he : remove2 net node link = some (net', u)) :
    ∃ ni v, Removed net net' node link u ni v := by
  simp only [remove2, Option.bind_eq_bind, Option.bind_eq_some_iff] at he
  obtain ⟨ni, hni, v, hv, he⟩ := he
  obtain ⟨har, he⟩ := ite_none_right he
  have hlt := (List.getElem?_eq_some_iff.1 hv).1
  obtain ⟨v0, hv0, hid⟩ := (h.map node ni).1 hni
  rw [hv] at hv0; cases hv0
  have harity : link = true → v.ins = v.outs := by
    intro hl; simpa [hl] using har
  have hlast : net.vertex.length - 1 + 1 = net.vertex.length := by omega
  have hmlen := IdMap.length_erase net.nodeIndex v.id h.keys (by rw [hid, hni]; rfl)
  split at he
  · rename_i hl
    cases he
    refine ⟨ni, v, ⟨hni, hv, rfl, harity, by simp; omega, ?_, ?_, ?_, ?_, hmlen, rfl, rfl, ⟨rfl, rfl, rfl, rfl, rfl, rfl⟩⟩⟩
    · intro j w hw hj
      have hjl := (List.getElem?_eq_some_iff.1 hw).1
      have hj2 : j < net.vertex.length - 1 := by omega
      have hm : moved (net.vertex.length - 1) ni j = j := by simp only [moved]; split <;> omega
      rw [hm, hl]
      simp only [movePort_self]
      rw [← hl, List.getElem?_take_of_lt hj2, List.getElem?_map, hw]
      simp only [Option.map_some, Vertex.mapSource, mapSource_eq h hw, hl]
    · simp only [hl, movePort_self]
    · intro id
      rw [IdMap.get_erase, hid]
      by_cases hi : id = node
      · simp [hi]
      · simp only [if_neg hi]
        cases hg : net.nodeIndex.get id with
        | none => rfl
        | some j =>
          simp only [Option.map_some, moved, hl]
          by_cases hj : j = ni <;> simp [hj]
    · exact (IdMap.keys_erase _ _ h.keys).1
  · rename_i hl
    rw [Option.bind_eq_some_iff] at he
    obtain ⟨lv', hlv, he⟩ := he
    cases he
    rw [List.getElem?_map, Option.map_eq_some_iff] at hlv
    obtain ⟨lv, hlv, rfl⟩ := hlv
    have hni2 : ni < net.vertex.length - 1 := by omega
    refine ⟨ni, v, ⟨hni, hv, rfl, harity, by simp; omega, ?_, ?_, ?_, ?_, ?_, rfl, rfl, ⟨rfl, rfl, rfl, rfl, rfl, rfl⟩⟩⟩
    · intro j w hw hj
      have hjl := (List.getElem?_eq_some_iff.1 hw).1
      by_cases hjlast : j = net.vertex.length - 1
      · subst hjlast
        rw [hw] at hlv; cases hlv
        simp only [moved, if_true, List.getElem?_modify, List.getElem?_map, List.getElem?_take_of_lt hni2]
        rw [List.getElem?_set_self (by simp; omega)]
        simp only [Option.map_some, Vertex.mapSource, Vertex.retarget, Functor.map, List.map_map]
        congr 2
        apply List.ext_getElem?
        intro c
        simp only [List.getElem?_map, List.getElem?_mapIdx]
        cases lv.source[c]? <;> rfl
      · have hj2 : j < net.vertex.length - 1 := by omega
        have hnj : ¬ ni = j := fun h => hj h.symm
        simp only [moved, if_neg hjlast, List.getElem?_modify, List.getElem?_map, List.getElem?_take_of_lt hj2]
        rw [List.getElem?_set_ne hnj, List.getElem?_map, hw]
        simp only [Option.map_some, Vertex.mapSource, if_neg hnj, List.map_map]
        have := mapSource_eq h hw (fun p => movePort (net.vertex.length - 1) ni (unplugPort link v.source ni p))
        simp only [← this, Function.comp_def, Edge.setSource]
        rfl
    · simp [List.map_map, Function.comp_def, Edge.setSource]
    · intro id
      rw [IdMap.get_insert, IdMap.get_erase, hid]
      by_cases hi2 : id = lv.id
      · subst hi2
        have hg := (h.map lv.id _).2 ⟨lv, hlv, rfl⟩
        have hne : ¬ lv.id = node := by
          intro h3
          have := h.id_inj hlv hv (by rw [h3, hid])
          omega
        simp [hne, hg, moved, Vertex.mapSource]
      · have hi2' : ¬ id = (Vertex.mapSource (unplugPort link v.source ni) lv).id := hi2
        simp only [if_neg hi2']
        by_cases hi : id = node
        · simp [hi]
        · simp only [if_neg hi]
          cases hg : net.nodeIndex.get id with
          | none => rfl
          | some j =>
            have : ¬ j = net.vertex.length - 1 := by
              rintro rfl
              obtain ⟨w, hw, rfl⟩ := (h.map _ _).1 hg
              rw [hlv] at hw; cases hw; exact hi2 rfl
            simp [moved, this]
    · exact IdMap.keys_insert _ _ _ (IdMap.keys_erase _ _ h.keys).1
    · have hk := IdMap.keys_erase net.nodeIndex v.id h.keys
      have hs : ((net.nodeIndex.erase v.id).get lv.id).isSome := by
        rw [IdMap.get_erase]
        have hne : ¬ lv.id = v.id := by
          intro h3
          have := h.id_inj hlv hv h3
          omega
        rw [if_neg hne, (h.map lv.id _).2 ⟨lv, hlv, rfl⟩]; rfl
      have := IdMap.length_insert_some (net.nodeIndex.erase v.id) lv.id ni hk.1 hs
      show (IdMap.insert _ lv.id ni).length + 1 = _
      rw [this]; exact hmlen

/-- Every vertex of the new net comes from a vertex of the old net. -/
theorem Removed.origin {S : Units U α} {net net' : Net U α} (_ : Valid S net) {node : NodeId} {link : Bool} {u : U}
    {ni : Nat} {v : Vertex U α} (r : Removed net net' node link u ni v) {i : Nat} {w' : Vertex U α}
    (hw : net'.vertex[i]? = some w') :
    ∃ j w, net.vertex[j]? = some w ∧ j ≠ ni ∧ i = moved (net.vertex.length - 1) ni j ∧ w' = { w with
      source := w.source.mapIdx (fun c e =>
        ⟨movePort (net.vertex.length - 1) ni (unplugPort link v.source ni e.source),
          .loc (moved (net.vertex.length - 1) ni j) c⟩) } := by
  have hi := (List.getElem?_eq_some_iff.1 hw).1
  have hl := r.len
  have hni := (List.getElem?_eq_some_iff.1 r.vertex).1
  by_cases h1 : i = ni
  · have hlt : net.vertex.length - 1 < net.vertex.length := by omega
    have hk := r.keep _ _ (List.getElem?_eq_getElem hlt) (by omega)
    refine ⟨net.vertex.length - 1, _, List.getElem?_eq_getElem hlt, by omega, by simp [moved, h1], ?_⟩
    have : moved (net.vertex.length - 1) ni (net.vertex.length - 1) = i := by simp [moved, h1]
    rw [this, hw] at hk
    rw [this]
    exact Option.some.inj hk
  · have hlt : i < net.vertex.length := by omega
    have hk := r.keep _ _ (List.getElem?_eq_getElem hlt) h1
    have : moved (net.vertex.length - 1) ni i = i := by simp [moved]; omega
    rw [this, hw] at hk
    refine ⟨i, _, List.getElem?_eq_getElem hlt, h1, this.symm, ?_⟩
    rw [this]
    exact Option.some.inj hk

/-- `moved` is injective on surviving positions. -/
theorem moved_inj {last ni j k : Nat} (hj : j ≠ ni) (hk : k ≠ ni) (hjl : j ≤ last) (hkl : k ≤ last)
    (h : moved last ni j = moved last ni k) : j = k := by
  unfold moved at h
  split at h <;> split at h <;> omega

theorem portOK_removed {S : Units U α} {net net' : Net U α} (h : Valid S net) {node : NodeId} {link : Bool} {u : U}
    {ni : Nat} {v : Vertex U α} (r : Removed net net' node link u ni v)
    (hself : link = true → ∀ (c : Nat) (e : Edge) (q : Nat), v.source[c]? = some e → e.source ≠ .loc ni q)
    {p : Port} (hp : PortOK net p) :
    PortOK net' (movePort (net.vertex.length - 1) ni (unplugPort link v.source ni p)) := by
  have key : ∀ p, PortOK net p → (∀ q, p ≠ .loc ni q) → PortOK net' (movePort (net.vertex.length - 1) ni p) := by
    intro p hp hne
    cases p with
    | zero => trivial
    | glob g => simp only [movePort, PortOK, r.nin]; exact hp
    | loc j q =>
      obtain ⟨w, hw, hq⟩ := hp
      have hj : j ≠ ni := by rintro rfl; exact hne q rfl
      have hk := r.keep j w hw hj
      have : movePort (net.vertex.length - 1) ni (.loc j q) = .loc (moved (net.vertex.length - 1) ni j) q := by
        simp only [movePort, moved]; split <;> rfl
      rw [this]
      exact ⟨_, hk, hq⟩
  cases p with
  | zero => exact key _ hp (by intro q; exact fun h => Port.noConfusion h)
  | glob g => exact key _ hp (by intro q; exact fun h => Port.noConfusion h)
  | loc j q =>
    simp only [unplugPort]
    by_cases hj : j = ni
    · subst hj
      simp only [if_true]
      split
      · rename_i hl
        cases hs : v.source[q]? with
        | none => trivial
        | some e =>
          exact key _ (h.edge j v q e r.vertex hs).2 (fun q' => hself hl q e q' hs)
      · trivial
    · simp only [if_neg hj]
      exact key _ hp (by rintro q' ⟨⟩; exact hj rfl)

theorem valid_removed {S : Units U α} {net net' : Net U α} (h : Valid S net) {node : NodeId} {link : Bool} {u : U}
    {ni : Nat} {v : Vertex U α} (r : Removed net net' node link u ni v)
    (hself : link = true → ∀ (c : Nat) (e : Edge) (q : Nat), v.source[c]? = some e → e.source ≠ .loc ni q) :
    Valid S net' where
  oeLen := by rw [r.outputs, List.length_map, h.oeLen, r.nout]
  oe := by
    intro c e he
    rw [r.outputs, List.getElem?_map, Option.map_eq_some_iff] at he
    obtain ⟨e0, h0, rfl⟩ := he
    exact ⟨(h.oe c e0 h0).1, portOK_removed h r hself (h.oe c e0 h0).2⟩
  arity := by
    intro i w' hw
    obtain ⟨j, w, hw1, _, _, rfl⟩ := r.origin h hw
    have := h.arity j w hw1
    simpa using this
  edge := by
    intro i w' c e hw he
    obtain ⟨j, w, hw1, _, rfl, rfl⟩ := r.origin h hw
    simp only [List.getElem?_mapIdx, Option.map_eq_some_iff] at he
    obtain ⟨e0, h0, rfl⟩ := he
    exact ⟨rfl, portOK_removed h r hself (h.edge j w c e0 hw1 h0).2⟩
  map := by
    intro id i
    rw [r.map]
    have hl := r.len
    obtain ⟨v1, hv1, hvid⟩ := (h.map _ _).1 r.index
    rw [r.vertex] at hv1; cases hv1
    constructor
    · intro hg
      by_cases hid : id = node
      · simp [hid] at hg
      · simp only [if_neg hid, Option.map_eq_some_iff] at hg
        obtain ⟨j, hj, rfl⟩ := hg
        obtain ⟨w, hw, rfl⟩ := (h.map _ _).1 hj
        have hne : j ≠ ni := by
          rintro rfl
          rw [r.vertex] at hw; cases hw; exact hid hvid
        exact ⟨_, r.keep j w hw hne, rfl⟩
    · rintro ⟨w', hw, rfl⟩
      obtain ⟨j, w, hw1, hne, rfl, rfl⟩ := r.origin h hw
      have hj := (h.map w.id j).2 ⟨w, hw1, rfl⟩
      have : ¬ w.id = node := by
        intro h3; rw [h3, r.index] at hj; cases hj; exact hne rfl
      simp [this, hj]
  keys := r.keys
  mapLen := by have := r.mapLen; have := r.len; have := h.mapLen; omega

theorem below_removed {S : Units U α} {net net' : Net U α} (h : Valid S net) {node : NodeId} {link : Bool} {u : U}
    {ni : Nat} {v : Vertex U α} (r : Removed net net' node link u ni v) {n : NodeId} (hb : Below n net) :
    Below n net' := by
  intro i w' hw
  obtain ⟨j, w, hw1, _, _, rfl⟩ := r.origin h hw
  exact hb j w hw1

/-- A node feeding itself through the removed node would become self-connected. -/
def NoTwoCycle (net : Net U α) (ni : Nat) (v : Vertex U α) : Prop :=
  ∀ (j : Nat) (w : Vertex U α) (c : Nat) (e : Edge) (p : Nat) (e' : Edge) (q : Nat),
    net.vertex[j]? = some w → w.source[c]? = some e → e.source = .loc ni p →
    v.source[p]? = some e' → e'.source ≠ .loc j q

theorem noSelf_removed {S : Units U α} {net net' : Net U α} (h : Valid S net) (hn : NoSelf net) {node : NodeId}
    {link : Bool} {u : U} {ni : Nat} {v : Vertex U α} (r : Removed net net' node link u ni v)
    (h2 : link = true → NoTwoCycle net ni v) : NoSelf net' := by
  intro i w' c e p hw he
  obtain ⟨j, w, hw1, hj, rfl, rfl⟩ := r.origin h hw
  have hjl := (List.getElem?_eq_some_iff.1 hw1).1
  have hni := (List.getElem?_eq_some_iff.1 r.vertex).1
  simp only [List.getElem?_mapIdx, Option.map_eq_some_iff] at he
  obtain ⟨e0, h0, rfl⟩ := he
  simp only
  -- a moved port equal to the new position of `j` comes from `j`
  have key : ∀ x, PortOK net x → (∀ q, x ≠ .loc ni q) → (∀ q, x ≠ .loc j q) →
      movePort (net.vertex.length - 1) ni x ≠ .loc (moved (net.vertex.length - 1) ni j) p := by
    intro x hx hxn hxj heq
    cases x with
    | zero => exact Port.noConfusion heq
    | glob g => exact Port.noConfusion heq
    | loc k q =>
      have hk : k ≠ ni := by rintro rfl; exact hxn q rfl
      have hkj : k ≠ j := by rintro rfl; exact hxj q rfl
      have hm : movePort (net.vertex.length - 1) ni (.loc k q) = .loc (moved (net.vertex.length - 1) ni k) q := by
        simp only [movePort, moved]; split <;> rfl
      rw [hm] at heq
      injection heq with h3 h4
      obtain ⟨wk, hwk, _⟩ := hx
      have hkl := (List.getElem?_eq_some_iff.1 hwk).1
      exact hkj (moved_inj hk hj (by omega) (by omega) h3)
  have hok := (h.edge j w c e0 hw1 h0).2
  have hns := hn j w c e0
  cases hs : e0.source with
  | zero => exact fun h => Port.noConfusion h
  | glob g => exact fun h => Port.noConfusion h
  | loc k q =>
    simp only [unplugPort]
    by_cases hk : k = ni
    · subst hk
      simp only [if_true]
      split
      · rename_i hl
        cases hs2 : v.source[q]? with
        | none => exact fun h => Port.noConfusion h
        | some e' =>
          simp only [Option.map_some, Option.getD_some]
          exact key _ (h.edge k v q e' r.vertex hs2).2 (fun q' => hn k v q e' q' r.vertex hs2)
            (fun q' => h2 hl j w c e0 q e' q' hw1 h0 hs hs2)
      · exact fun h => Port.noConfusion h
    · simp only [if_neg hk]
      rw [hs] at hok
      exact key _ hok (by rintro q' ⟨⟩; exact hk rfl) (by rintro q' hq; rw [hq] at hs; exact hns q' hw1 h0 hs)

/-! ## `chain`, `fade_in`, `wrap` -/

theorem push_get {S : Units U α} (net : Net U α) (id : NodeId) (u : U) :
    (push S net id u).nodeIndex.get id = some net.vertex.length := by
  simp [push, IdMap.get_insert]

theorem valid_chain {S : Units U α} {net net' : Net U α} (h : Valid S net) (hn : NoSelf net) {id : NodeId} {u : U}
    (hid : net.nodeIndex.get id = none) (he : chain S net id u = some net') :
    Valid S net' ∧ NoSelf net' ∧ SameNodes S (push S net id u) net' := by
  have hp := valid_push h hid u
  have hpn := noSelf_push (S := S) hn id u
  simp only [chain, Option.bind_eq_bind, push_get, Option.bind_some] at he
  suffices key : ∃ net2, pipeOutput net2 id = some net' ∧
      (Valid S net2 ∧ NoSelf net2 ∧ SameNodes S (push S net id u) net2) by
    obtain ⟨net2, he, k1, k2, k3⟩ := key
    have hv := valid_pipeOutput k1 he
    refine ⟨hv.1, noSelf_pipeOutput k2 he, ?_⟩
    constructor
    · rw [hv.2.inputs, k3.inputs]
    · rw [hv.2.len, k3.len]
    · intro i v w hv1 hw
      obtain ⟨x, hx⟩ := k3.find' hv1
      have a := k3.node i v x hv1 hx
      have b := hv.2.node i x w hx hw
      exact ⟨b.1.trans a.1, b.2.1.trans a.2.1, b.2.2.1.trans a.2.2.1, b.2.2.2.1.trans a.2.2.2.1,
        b.2.2.2.2.1.trans a.2.2.2.2.1, b.2.2.2.2.2.trans a.2.2.2.2.2⟩
    · rw [hv.2.index, k3.index]
  · split at he
    · rw [Option.bind_eq_some_iff] at he
      obtain ⟨net2, h2, he⟩ := he
      refine ⟨net2, he, ?_⟩
      split at h2
      · exact ⟨(valid_pipeInput hp h2).1, noSelf_pipeInput hpn h2, (valid_pipeInput hp h2).2⟩
      · cases h2; exact ⟨hp, hpn, sameNodes_refl _⟩
    · refine ⟨_, he, ?_⟩
      have hs : SameNodes S (push S net id u) _ := sameNodes_modify (push S net id u) net.vertex.length
        (fun v => { v with source := v.source.mapIdx (fun i e =>
            if i < S.ins u then
              e.setSource (if (push S net id u).outputs > 0 then
                (((push S net id u).outputEdge[i % (push S net id u).outputs]?).map (·.source)).getD .zero else .zero)
            else e) }) (fun v _ => ⟨rfl, rfl, rfl, by simp, rfl, rfl⟩)
        { push S net id u with vertex := _ } rfl rfl rfl
      have hedges : ∀ (i : Nat) (w : Vertex U α) (c : Nat) (e : Edge),
          ((push S net id u).vertex.modify net.vertex.length (fun v => { v with source := v.source.mapIdx (fun i e =>
            if i < S.ins u then
              e.setSource (if (push S net id u).outputs > 0 then
                (((push S net id u).outputEdge[i % (push S net id u).outputs]?).map (·.source)).getD .zero else .zero)
            else e) }))[i]? = some w → w.source[c]? = some e →
          (e.target = .loc i c ∧ PortOK (push S net id u) e.source ∧ ∀ q, e.source ≠ .loc i q) := by
        intro i w c e hw he
        rw [List.getElem?_modify] at hw
        cases hv : (push S net id u).vertex[i]? with
        | none => simp [hv] at hw
        | some v =>
          by_cases hij : net.vertex.length = i
          · subst hij
            simp [hv] at hw; subst hw
            simp only [List.getElem?_mapIdx, Option.map_eq_some_iff] at he
            obtain ⟨e0, h0, rfl⟩ := he
            have h1 := hp.edge _ v c e0 hv h0
            have h1n := fun q => hpn _ v c e0 q hv h0
            split
            · refine ⟨h1.1, ?_⟩
              simp only [Edge.setSource]
              split
              · cases ho : (push S net id u).outputEdge[c % (push S net id u).outputs]? with
                | none => exact ⟨trivial, fun q h => Port.noConfusion h⟩
                | some eo =>
                  simp only [Option.map_some, Option.getD_some]
                  refine ⟨(hp.oe _ eo ho).2, ?_⟩
                  intro q hq
                  have := (h.oe _ eo ho).2
                  rw [hq] at this
                  obtain ⟨w, hw, _⟩ := this
                  have := (List.getElem?_eq_some_iff.1 hw).1
                  omega
              · exact ⟨trivial, fun q h => Port.noConfusion h⟩
            · exact ⟨h1.1, h1.2, h1n⟩
          · simp [hv, hij] at hw; subst hw
            have h1 := hp.edge i v c e hv he
            exact ⟨h1.1, h1.2, fun q => hpn i v c e q hv he⟩
      refine ⟨hp.rewire hs hp.oeLen hp.oe ?_, ?_, hs⟩
      · intro i w c e hw he
        have := hedges i w c e hw he
        exact ⟨this.1, this.2.1⟩
      · intro i w c e q hw he
        exact (hedges i w c e hw he).2.2 q

end Fundsp.Net
