import Verif.Net.Model

/-! # Well-formed nets: specification and preservation lemmas (helpers for C01, C03-C06, C10) -/

namespace Fundsp.Net
variable {U α : Type}

/-- A port denotes an existing signal source: an existing output of an existing node, an existing global input, or
zero. -/
def PortOK (net : Net U α) : Port → Prop
  | .loc n p => ∃ v, net.vertex[n]? = some v ∧ p < v.outs
  | .glob p => p < net.inputs
  | .zero => True

/-- Well-formed wiring. -/
structure Valid (S : Units U α) (net : Net U α) : Prop where
  oeLen : net.outputEdge.length = net.outputs
  oe : ∀ (c : Nat) (e : Edge), net.outputEdge[c]? = some e → e.target = .glob c ∧ PortOK net e.source
  arity : ∀ (i : Nat) (v : Vertex U α), net.vertex[i]? = some v →
    v.source.length = v.ins ∧ v.ins = S.ins v.eng.unit ∧ v.outs = S.outs v.eng.unit
  edge : ∀ (i : Nat) (v : Vertex U α) (c : Nat) (e : Edge), net.vertex[i]? = some v → v.source[c]? = some e → e.target = .loc i c ∧ PortOK net e.source
  map : ∀ (id : NodeId) (i : Nat), net.nodeIndex.get id = some i ↔ ∃ v, net.vertex[i]? = some v ∧ v.id = id
  keys : (List.map Prod.fst net.nodeIndex).Nodup
  mapLen : net.nodeIndex.length = net.vertex.length

/-- No node reads its own output. -/
def NoSelf (net : Net U α) : Prop :=
  ∀ (i : Nat) (v : Vertex U α) (c : Nat) (e : Edge) (p : Nat), net.vertex[i]? = some v → v.source[c]? = some e → e.source ≠ .loc i p

/-- All node ids are below `next` (the id generator has moved past them). -/
def Below (next : NodeId) (net : Net U α) : Prop := ∀ (i : Nat) (v : Vertex U α), net.vertex[i]? = some v → v.id < next

/-! ## Association lists -/

theorem IdMap.get_erase (m : IdMap) (k k' : NodeId) :
    (m.erase k).get k' = if k' = k then none else m.get k' := by
  unfold IdMap.erase IdMap.get
  induction m with
  | nil => simp
  | cons a m ih =>
    obtain ⟨x, y⟩ := a
    by_cases hx : x = k
    · subst hx
      by_cases hk : k' = x
      · subst hk; simp only [if_true] at ih; simp [ih]
      · simp_all [List.lookup_cons, show (k' == x) = false by simpa using hk]
    · have hb : (x != k) = true := by simpa using hx
      simp only [List.filter_cons, hb, if_true, List.lookup_cons]
      by_cases hk : k' = x
      · subst hk; simp [hx]
      · have : (k' == x) = false := by simpa using hk
        simp [this, ih]

theorem IdMap.get_insert (m : IdMap) (k : NodeId) (v : Nat) (k' : NodeId) :
    (m.insert k v).get k' = if k' = k then some v else m.get k' := by
  have h := IdMap.get_erase m k k'
  unfold IdMap.get at *
  unfold IdMap.insert
  rw [List.lookup_cons]
  by_cases hk : k' = k
  · subst hk; simp
  · have hb : (k' == k) = false := by simpa using hk
    simp only [hb, if_neg hk] at *
    exact h

theorem IdMap.keys_erase (m : IdMap) (k : NodeId) (h : (List.map Prod.fst m).Nodup) :
    (List.map Prod.fst (m.erase k)).Nodup ∧ k ∉ List.map Prod.fst (m.erase k) := by
  constructor
  · exact h.sublist (List.Sublist.map _ List.filter_sublist)
  · simp [IdMap.erase]

theorem IdMap.keys_insert (m : IdMap) (k : NodeId) (v : Nat) (h : (List.map Prod.fst m).Nodup) :
    (List.map Prod.fst (m.insert k v)).Nodup := by
  have := IdMap.keys_erase m k h
  simp only [IdMap.insert, List.map_cons, List.nodup_cons]
  exact ⟨this.2, this.1⟩

theorem IdMap.get_eq_none (m : IdMap) (k : NodeId) : m.get k = none ↔ k ∉ List.map Prod.fst m := by
  unfold IdMap.get
  induction m with
  | nil => simp
  | cons a m ih =>
    rw [List.lookup_cons]
    by_cases hk : k = a.1
    · subst hk; simp
    · have hb : (k == a.1) = false := by simpa using hk
      simp [hb, ih, hk]

theorem IdMap.erase_of_none (m : IdMap) (k : NodeId) (h : m.get k = none) : m.erase k = m := by
  have := (IdMap.get_eq_none m k).1 h
  unfold IdMap.erase
  apply List.filter_eq_self.2
  intro a ha
  simp only [bne_iff_ne, ne_eq]
  intro hk; exact this (List.mem_map.2 ⟨a, ha, hk⟩)

theorem IdMap.length_insert_none (m : IdMap) (k : NodeId) (v : Nat) (h : m.get k = none) :
    (m.insert k v).length = m.length + 1 := by
  rw [IdMap.insert, IdMap.erase_of_none m k h, List.length_cons]

theorem IdMap.length_erase (m : IdMap) (k : NodeId) (hk : (List.map Prod.fst m).Nodup) (h : (m.get k).isSome) :
    (m.erase k).length + 1 = m.length := by
  induction m with
  | nil => simp [IdMap.get] at h
  | cons a m ih =>
    simp only [List.map_cons, List.nodup_cons] at hk
    by_cases ha : a.1 = k
    · have hn : IdMap.get m k = none := (IdMap.get_eq_none m k).2 (ha ▸ hk.1)
      have := IdMap.erase_of_none m k hn
      unfold IdMap.erase at *
      simp [ha, this]
    · have hs : (IdMap.get m k).isSome := by
        unfold IdMap.get at *
        rw [List.lookup_cons] at h
        have : (k == a.1) = false := by simpa using Ne.symm ha
        simpa [this] using h
      have := ih hk.2 hs
      unfold IdMap.erase at *
      simp [ha, this]

theorem IdMap.length_insert_some (m : IdMap) (k : NodeId) (v : Nat) (hk : (List.map Prod.fst m).Nodup)
    (h : (m.get k).isSome) : (m.insert k v).length = m.length := by
  have := IdMap.length_erase m k hk h
  simp [IdMap.insert, this]

/-! ## Basic consequences -/

theorem Valid.id_inj {S : Units U α} {net : Net U α} (h : Valid S net) {i j : Nat} {v w : Vertex U α} (hi : net.vertex[i]? = some v)
    (hj : net.vertex[j]? = some w) (he : v.id = w.id) : i = j := by
  have h1 := (h.map v.id i).2 ⟨v, hi, rfl⟩
  have h2 := (h.map v.id j).2 ⟨w, hj, he.symm⟩
  rw [h1] at h2
  exact Option.some.inj h2

theorem Valid.get_lt {S : Units U α} {net : Net U α} (h : Valid S net) {id : NodeId} {i : Nat} (hi : net.nodeIndex.get id = some i) :
    i < net.vertex.length := by
  obtain ⟨v, hv, _⟩ := (h.map id i).1 hi
  exact (List.getElem?_eq_some_iff.1 hv).1

/-- Two nets with the same nodes (ids, arities, index map, global inputs) but possibly different edges. -/
structure SameNodes (S : Units U α) (a b : Net U α) : Prop where
  inputs : b.inputs = a.inputs
  len : b.vertex.length = a.vertex.length
  node : ∀ (i : Nat) (v w : Vertex U α), a.vertex[i]? = some v → b.vertex[i]? = some w →
    w.id = v.id ∧ w.ins = v.ins ∧ w.outs = v.outs ∧ w.source.length = v.source.length ∧
    S.ins w.eng.unit = S.ins v.eng.unit ∧ S.outs w.eng.unit = S.outs v.eng.unit
  index : b.nodeIndex = a.nodeIndex

theorem SameNodes.find {S : Units U α} {a b : Net U α} (h : SameNodes S a b) {i : Nat} {w : Vertex U α} (hw : b.vertex[i]? = some w) :
    ∃ v, a.vertex[i]? = some v := by
  have hi := (List.getElem?_eq_some_iff.1 hw).1
  rw [h.len] at hi
  exact ⟨_, List.getElem?_eq_getElem hi⟩

theorem SameNodes.find' {S : Units U α} {a b : Net U α} (h : SameNodes S a b) {i : Nat} {w : Vertex U α} (hw : a.vertex[i]? = some w) :
    ∃ v, b.vertex[i]? = some v := by
  have hi := (List.getElem?_eq_some_iff.1 hw).1
  rw [← h.len] at hi
  exact ⟨_, List.getElem?_eq_getElem hi⟩

theorem SameNodes.portOK {S : Units U α} {a b : Net U α} (h : SameNodes S a b) (p : Port) :
    PortOK b p ↔ PortOK a p := by
  cases p with
  | zero => exact Iff.rfl
  | glob p => simp only [PortOK, h.inputs]
  | loc n p =>
    constructor
    · rintro ⟨w, hw, hp⟩
      obtain ⟨v, hv⟩ := h.find hw
      exact ⟨v, hv, (h.node n v w hv hw).2.2.1 ▸ hp⟩
    · rintro ⟨v, hv, hp⟩
      obtain ⟨w, hw⟩ := h.find' hv
      exact ⟨w, hw, (h.node n v w hv hw).2.2.1 ▸ hp⟩

/-- Rewiring with valid edges keeps a net valid. -/
theorem Valid.rewire {S : Units U α} {a b : Net U α} (h : Valid S a) (hs : SameNodes S a b)
    (hlen : b.outputEdge.length = b.outputs)
    (hoe : ∀ (c : Nat) (e : Edge), b.outputEdge[c]? = some e → e.target = .glob c ∧ PortOK a e.source)
    (hedge : ∀ (i : Nat) (v : Vertex U α) (c : Nat) (e : Edge), b.vertex[i]? = some v → v.source[c]? = some e → e.target = .loc i c ∧ PortOK a e.source) :
    Valid S b where
  oeLen := hlen
  oe := fun c e he => ⟨(hoe c e he).1, (hs.portOK _).2 (hoe c e he).2⟩
  arity := by
    intro i w hw
    obtain ⟨v, hv⟩ := hs.find hw
    obtain ⟨_, h2, h3, h4, h5, h6⟩ := hs.node i v w hv hw
    obtain ⟨a1, a2, a3⟩ := h.arity i v hv
    exact ⟨by omega, by omega, by omega⟩
  edge := fun i v c e hv he => ⟨(hedge i v c e hv he).1, (hs.portOK _).2 (hedge i v c e hv he).2⟩
  map := by
    intro id i
    rw [hs.index, h.map]
    constructor
    · rintro ⟨v, hv, rfl⟩
      obtain ⟨w, hw⟩ := hs.find' hv
      exact ⟨w, hw, (hs.node i v w hv hw).1⟩
    · rintro ⟨w, hw, rfl⟩
      obtain ⟨v, hv⟩ := hs.find hw
      exact ⟨v, hv, (hs.node i v w hv hw).1.symm⟩
  keys := by rw [hs.index]; exact h.keys
  mapLen := by rw [hs.index, hs.len]; exact h.mapLen

theorem Below.same {S : Units U α} {a b : Net U α} {n : NodeId} (h : Below n a) (hs : SameNodes S a b) : Below n b := by
  intro i w hw
  obtain ⟨v, hv⟩ := hs.find hw
  rw [(hs.node i v w hv hw).1]; exact h i v hv

theorem Below.mono {a : Net U α} {n m : NodeId} (h : Below n a) (hm : n ≤ m) : Below m a :=
  fun i v hv => Nat.lt_of_lt_of_le (h i v hv) hm

theorem Below.get_none {S : Units U α} {a : Net U α} {n : NodeId} (hv : Valid S a) (h : Below n a) {m} (hm : n ≤ m) :
    a.nodeIndex.get m = none := by
  cases hg : a.nodeIndex.get m with
  | none => rfl
  | some i =>
    obtain ⟨v, hv1, rfl⟩ := (hv.map _ _).1 hg
    have := h i v hv1
    omega

/-- Changing one vertex by a map that keeps id and arities. -/
theorem sameNodes_modify {S : Units U α} (a : Net U α) (i : Nat) (f : Vertex U α → Vertex U α)
    (hf : ∀ v, a.vertex[i]? = some v → (f v).id = v.id ∧ (f v).ins = v.ins ∧ (f v).outs = v.outs ∧
      (f v).source.length = v.source.length ∧
      S.ins (f v).eng.unit = S.ins v.eng.unit ∧ S.outs (f v).eng.unit = S.outs v.eng.unit)
    (b : Net U α) (hb : b.vertex = a.vertex.modify i f) (hin : b.inputs = a.inputs) (hix : b.nodeIndex = a.nodeIndex) :
    SameNodes S a b where
  inputs := hin
  len := by rw [hb]; simp
  node := by
    intro j v w hv hw
    rw [hb, List.getElem?_modify, hv] at hw
    by_cases hij : i = j
    · subst hij
      simp at hw; subst hw
      exact hf v hv
    · simp [hij] at hw; subst hw; exact ⟨rfl, rfl, rfl, rfl, rfl, rfl⟩
  index := hix

theorem sameNodes_map {S : Units U α} (a : Net U α) (f : Vertex U α → Vertex U α)
    (hf : ∀ v, (f v).id = v.id ∧ (f v).ins = v.ins ∧ (f v).outs = v.outs ∧
      (f v).source.length = v.source.length ∧
      S.ins (f v).eng.unit = S.ins v.eng.unit ∧ S.outs (f v).eng.unit = S.outs v.eng.unit)
    (b : Net U α) (hb : b.vertex = a.vertex.map f) (hin : b.inputs = a.inputs) (hix : b.nodeIndex = a.nodeIndex) :
    SameNodes S a b where
  inputs := hin
  len := by rw [hb]; simp
  node := by
    intro j v w hv hw
    rw [hb, List.getElem?_map, hv] at hw
    simp at hw; subst hw
    exact hf v
  index := hix

/-! ## Valid for each edit -/

theorem valid_new {S : Units U α} (sr : α) (i o : Nat) : Valid S (new sr i o : Net U α) where
  oeLen := by simp [new]
  oe := by
    intro c e he
    simp only [new, List.getElem?_map, Option.map_eq_some_iff] at he
    obtain ⟨k, hk, rfl⟩ := he
    rw [List.getElem?_range (by simpa using (List.getElem?_eq_some_iff.1 hk).1)] at hk
    cases hk
    exact ⟨rfl, trivial⟩
  arity := by intro i v hv; simp [new] at hv
  edge := by intro i v c e hv; simp [new] at hv
  map := by intro id i; simp [new, IdMap.get]
  keys := by simp [new]
  mapLen := by simp [new]

theorem below_new (sr : α) (i o n : Nat) : Below n (new sr i o : Net U α) := by
  intro i v hv; simp [new] at hv

theorem getElem?_append_singleton {β : Type} (l : List β) (x : β) (i : Nat) (v : β) :
    (l ++ [x])[i]? = some v ↔ l[i]? = some v ∨ (i = l.length ∧ v = x) := by
  rcases Nat.lt_trichotomy i l.length with h | h | h
  · rw [List.getElem?_append_left h]
    constructor
    · exact Or.inl
    · rintro (h1 | ⟨h1, _⟩)
      · exact h1
      · omega
  · subst h
    simp [eq_comm]
  · simp [List.getElem?_append_right (Nat.le_of_lt h), List.getElem?_eq_none (Nat.le_of_lt h)]
    constructor
    · intro h2
      have := (List.getElem?_eq_some_iff.1 h2).1
      simp at this; omega
    · intro h2; omega

theorem PortOK.push {S : Units U α} {net : Net U α} {p : Port} (h : PortOK net p) (id : NodeId) (u : U) :
    PortOK (push S net id u) p := by
  cases p with
  | zero => trivial
  | glob p => exact h
  | loc n p =>
    obtain ⟨v, hv, hp⟩ := h
    exact ⟨v, (getElem?_append_singleton _ _ _ _).2 (Or.inl hv), hp⟩

theorem Vertex.new_source {S : Units U α} {id : NodeId} {index : Nat} {u : U} {c : Nat} {e : Edge}
    (h : (Vertex.new S id index u).source[c]? = some e) : e = ⟨.zero, .loc index c⟩ ∧ c < S.ins u := by
  simp only [Vertex.new, List.getElem?_map, Option.map_eq_some_iff] at h
  obtain ⟨k, hk, rfl⟩ := h
  have hc : c < S.ins u := by simpa using (List.getElem?_eq_some_iff.1 hk).1
  rw [List.getElem?_range hc] at hk
  cases hk
  exact ⟨rfl, hc⟩

theorem valid_push {S : Units U α} {net : Net U α} (h : Valid S net) {id : NodeId} (hid : net.nodeIndex.get id = none)
    (u : U) : Valid S (push S net id u) where
  oeLen := h.oeLen
  oe := fun c e he => ⟨(h.oe c e he).1, (h.oe c e he).2.push id u⟩
  arity := by
    intro i v hv
    rcases (getElem?_append_singleton _ _ _ _).1 hv with hv | ⟨rfl, rfl⟩
    · exact h.arity i v hv
    · simp [Vertex.new]
  edge := by
    intro i v c e hv he
    rcases (getElem?_append_singleton _ _ _ _).1 hv with hv | ⟨rfl, rfl⟩
    · exact ⟨(h.edge i v c e hv he).1, (h.edge i v c e hv he).2.push id u⟩
    · rw [(Vertex.new_source he).1]; exact ⟨rfl, trivial⟩
  map := by
    intro id' i
    simp only [push, IdMap.get_insert]
    by_cases hi : id' = id
    · subst hi
      simp only [if_true]
      constructor
      · rintro ⟨⟩
        exact ⟨_, (getElem?_append_singleton _ _ _ _).2 (Or.inr ⟨rfl, rfl⟩), rfl⟩
      · rintro ⟨v, hv, hvi⟩
        rcases (getElem?_append_singleton _ _ _ _).1 hv with hv | ⟨rfl, rfl⟩
        · have := (h.map id' i).2 ⟨v, hv, hvi⟩; rw [hid] at this; cases this
        · rfl
    · simp only [if_neg hi]
      rw [h.map]
      constructor
      · rintro ⟨v, hv, hvi⟩
        exact ⟨v, (getElem?_append_singleton _ _ _ _).2 (Or.inl hv), hvi⟩
      · rintro ⟨v, hv, hvi⟩
        rcases (getElem?_append_singleton _ _ _ _).1 hv with hv | ⟨rfl, rfl⟩
        · exact ⟨v, hv, hvi⟩
        · exact absurd hvi.symm hi
  keys := IdMap.keys_insert _ _ _ h.keys
  mapLen := by
    simp only [push, IdMap.length_insert_none _ _ _ hid, h.mapLen, List.length_append, List.length_singleton]

theorem below_push {S : Units U α} {net : Net U α} {n : NodeId} (h : Below n net) (u : U) :
    Below (n + 1) (push S net n u) := by
  intro i v hv
  rcases (getElem?_append_singleton _ _ _ _).1 hv with hv | ⟨rfl, rfl⟩
  · exact Nat.lt_succ_of_lt (h i v hv)
  · exact Nat.lt_succ_self _

/-! Setting a single edge. -/

theorem sameNodes_setVertexSource {S : Units U α} (net : Net U α) (i c : Nat) (p : Port) :
    SameNodes S net (setVertexSource net i c p) :=
  sameNodes_modify net i (fun v => { v with source := v.source.modify c (·.setSource p) })
    (fun v _ => ⟨rfl, rfl, rfl, by simp, rfl, rfl⟩) _ rfl rfl rfl

theorem sameNodes_setVertexEdge {S : Units U α} (net : Net U α) (i c : Nat) (e : Edge) :
    SameNodes S net (setVertexEdge net i c e) :=
  sameNodes_modify net i (fun v => { v with source := v.source.set c e })
    (fun v _ => ⟨rfl, rfl, rfl, by simp, rfl, rfl⟩) _ rfl rfl rfl

theorem sameNodes_refl {S : Units U α} (net : Net U α) : SameNodes S net net where
  inputs := rfl
  len := rfl
  node := by intro i v w hv hw; rw [hv] at hw; cases hw; exact ⟨rfl, rfl, rfl, rfl, rfl, rfl⟩
  index := rfl

theorem sameNodes_outputs {S : Units U α} (net : Net U α) (oe : List Edge) (o : Option (List Nat)) :
    SameNodes S net { net with outputEdge := oe, order := o } where
  inputs := rfl
  len := rfl
  node := (sameNodes_refl net).node
  index := rfl

theorem valid_setVertexSource {S : Units U α} {net : Net U α} (h : Valid S net) (i c : Nat) {p : Port}
    (hp : PortOK net p) : Valid S (setVertexSource net i c p) := by
  refine h.rewire (sameNodes_setVertexSource net i c p) h.oeLen h.oe ?_
  intro j w c' e hw he
  simp only [setVertexSource, List.getElem?_modify] at hw
  cases hv : net.vertex[j]? with
  | none => simp [hv] at hw
  | some v =>
    by_cases hij : i = j
    · subst hij
      simp [hv] at hw; subst hw
      simp only [List.getElem?_modify] at he
      cases hs : v.source[c']? with
      | none => simp [hs] at he
      | some e0 =>
        have h0 := h.edge i v c' e0 hv hs
        by_cases hc : c = c'
        · subst hc; simp [hs] at he; subst he
          exact ⟨h0.1, hp⟩
        · simp [hs, hc] at he; subst he; exact h0
    · simp [hv, hij] at hw; subst hw
      exact h.edge j v c' e hv he

theorem valid_setVertexEdge {S : Units U α} {net : Net U α} (h : Valid S net) (i c : Nat) {p : Port}
    (hp : PortOK net p) : Valid S (setVertexEdge net i c ⟨p, .loc i c⟩) := by
  refine h.rewire (sameNodes_setVertexEdge net i c _) h.oeLen h.oe ?_
  intro j w c' e hw he
  simp only [setVertexEdge, List.getElem?_modify] at hw
  cases hv : net.vertex[j]? with
  | none => simp [hv] at hw
  | some v =>
    by_cases hij : i = j
    · subst hij
      simp [hv] at hw; subst hw
      simp only [List.getElem?_set] at he
      by_cases hc : c = c'
      · subst hc
        simp only [if_true] at he
        split at he
        · cases he; exact ⟨rfl, hp⟩
        · cases he
      · simp only [if_neg hc] at he; exact h.edge i v c' e hv he
    · simp [hv, hij] at hw; subst hw
      exact h.edge j v c' e hv he

theorem valid_setOutputEdge {S : Units U α} {net : Net U α} (h : Valid S net) (c : Nat) {e : Edge}
    (ht : e.target = .glob c) (hp : PortOK net e.source) : Valid S (setOutputEdge net c e) := by
  refine h.rewire (sameNodes_outputs net _ _) (by simp [setOutputEdge, h.oeLen]) ?_ h.edge
  intro c' e' he
  simp only [setOutputEdge, List.getElem?_set] at he
  by_cases hc : c = c'
  · subst hc
    simp only [if_true] at he
    split at he
    · cases he; exact ⟨ht, hp⟩
    · cases he
  · simp only [if_neg hc] at he; exact h.oe c' e' he

theorem sameNodes_wireAll {S : Units U α} (net : Net U α) (ti : Nat) (f : Nat → Port) :
    SameNodes S net (wireAll net ti f) :=
  sameNodes_modify net ti
    (fun v => { v with source := v.source.mapIdx (fun c e => if c < v.ins then ⟨f c, .loc ti c⟩ else e) })
    (fun v _ => ⟨rfl, rfl, rfl, by simp, rfl, rfl⟩) _ rfl rfl rfl

theorem valid_wireAll {S : Units U α} {net : Net U α} (h : Valid S net) (ti : Nat) {f : Nat → Port}
    (hf : ∀ c, PortOK net (f c)) : Valid S (wireAll net ti f) := by
  refine h.rewire (sameNodes_wireAll net ti f) h.oeLen h.oe ?_
  intro j w c' e hw he
  simp only [wireAll, List.getElem?_modify] at hw
  cases hv : net.vertex[j]? with
  | none => simp [hv] at hw
  | some v =>
    by_cases hij : ti = j
    · subst hij
      simp [hv] at hw; subst hw
      simp only [List.getElem?_mapIdx, Option.map_eq_some_iff] at he
      obtain ⟨e0, hs, rfl⟩ := he
      split
      · exact ⟨rfl, hf _⟩
      · exact h.edge ti v c' e0 hv hs
    · simp [hv, hij] at hw; subst hw
      exact h.edge j v c' e hv he

theorem resolveSource_ok {S : Units U α} {net : Net U α} (_ : Valid S net) {src : Source} {p : Port}
    (hp : resolveSource net src = some p) : PortOK net p := by
  cases src with
  | zero => simp [resolveSource] at hp; subst hp; trivial
  | glob i =>
    simp only [resolveSource] at hp
    split at hp
    · cases hp; assumption
    · cases hp
  | loc id j =>
    simp only [resolveSource, Option.bind_eq_bind, Option.bind_eq_some_iff] at hp
    obtain ⟨i, _, v, hv, hp⟩ := hp
    split at hp
    · cases hp; exact ⟨v, hv, by assumption⟩
    · cases hp

theorem portOK_mod_in (net : Net U α) (c : Nat) :
    PortOK net (if net.inputs > 0 then .glob (c % net.inputs) else .zero) := by
  split
  · exact Nat.mod_lt _ (by assumption)
  · trivial

theorem portOK_mod_out {net : Net U α} {si : Nat} {sv : Vertex U α} (h : net.vertex[si]? = some sv) (c : Nat) :
    PortOK net (if sv.outs > 0 then .loc si (c % sv.outs) else .zero) := by
  split
  · exact ⟨sv, h, Nat.mod_lt _ (by assumption)⟩
  · trivial

theorem ite_none_right {β : Type} {c : Prop} [Decidable c] {x : Option β} {y : β}
    (h : (if c then x else none) = some y) : c ∧ x = some y := by
  split at h
  · exact ⟨by assumption, h⟩
  · cases h

theorem valid_setSource {S : Units U α} {net net' : Net U α} (h : Valid S net) {n c s}
    (he : setSource net n c s = some net') : Valid S net' ∧ SameNodes S net net' := by
  simp only [setSource, Option.bind_eq_bind, Option.bind_eq_some_iff] at he
  obtain ⟨i, _, v, _, he⟩ := he
  split at he
  · obtain ⟨_, he⟩ := ite_none_right he
    rw [Option.bind_eq_some_iff] at he
    obtain ⟨p, hp, he⟩ := he
    obtain ⟨_, he⟩ := ite_none_right he
    cases he
    exact ⟨valid_setVertexSource h i c (resolveSource_ok h hp), sameNodes_setVertexSource ..⟩
  · cases he

theorem valid_setOutputSource {S : Units U α} {net net' : Net U α} (h : Valid S net) {c s}
    (he : setOutputSource net c s = some net') : Valid S net' ∧ SameNodes S net net' := by
  simp only [setOutputSource, Option.bind_eq_bind] at he
  split at he
  · simp only [Option.bind_eq_some_iff] at he
    obtain ⟨p, hp, e, hoe, he⟩ := he
    cases he
    exact ⟨valid_setOutputEdge h c (h.oe c e hoe).1 (resolveSource_ok h hp), sameNodes_outputs ..⟩
  · cases he

theorem valid_connect {S : Units U α} {net net' : Net U α} (h : Valid S net) {s sp t tp}
    (he : connect net s sp t tp = some net')
    (hr : ∀ (i : Nat) (v : Vertex U α), net.nodeIndex.get s = some i → net.vertex[i]? = some v → sp < v.outs) :
    Valid S net' ∧ SameNodes S net net' := by
  simp only [connect, Option.bind_eq_bind] at he
  split at he
  · cases he
  · simp only [Option.bind_eq_some_iff] at he
    obtain ⟨si, hsi, ti, _, v, _, he⟩ := he
    split at he
    · cases he
      obtain ⟨sv, hsv, _⟩ := (h.map _ _).1 hsi
      exact ⟨valid_setVertexEdge h ti tp ⟨sv, hsv, hr si sv hsi hsv⟩, sameNodes_setVertexEdge ..⟩
    · cases he

theorem valid_disconnect {S : Units U α} {net net' : Net U α} (h : Valid S net) {n p}
    (he : disconnect net n p = some net') : Valid S net' ∧ SameNodes S net net' := by
  simp only [disconnect, Option.bind_eq_bind, Option.bind_eq_some_iff] at he
  obtain ⟨i, _, v, _, he⟩ := he
  split at he
  · cases he; exact ⟨valid_setVertexSource h i p trivial, sameNodes_setVertexSource ..⟩
  · cases he

theorem valid_connectInput {S : Units U α} {net net' : Net U α} (h : Valid S net) {g t tp}
    (he : connectInput net g t tp = some net') (hr : g < net.inputs) : Valid S net' ∧ SameNodes S net net' := by
  simp only [connectInput, Option.bind_eq_bind, Option.bind_eq_some_iff] at he
  obtain ⟨i, _, v, _, he⟩ := he
  split at he
  · cases he; exact ⟨valid_setVertexEdge h i tp hr, sameNodes_setVertexEdge ..⟩
  · cases he

theorem valid_pipeInput {S : Units U α} {net net' : Net U α} (h : Valid S net) {t}
    (he : pipeInput net t = some net') : Valid S net' ∧ SameNodes S net net' := by
  simp only [pipeInput, Option.bind_eq_bind, Option.bind_eq_some_iff] at he
  obtain ⟨i, _, v, _, he⟩ := he
  cases he
  exact ⟨valid_wireAll h i (portOK_mod_in net), sameNodes_wireAll ..⟩

theorem valid_connectOutput {S : Units U α} {net net' : Net U α} (h : Valid S net) {s sp g}
    (he : connectOutput net s sp g = some net')
    (hr : ∀ (i : Nat) (v : Vertex U α), net.nodeIndex.get s = some i → net.vertex[i]? = some v → sp < v.outs) :
    Valid S net' ∧ SameNodes S net net' := by
  simp only [connectOutput, Option.bind_eq_bind, Option.bind_eq_some_iff] at he
  obtain ⟨si, hsi, he⟩ := he
  split at he
  · cases he
    obtain ⟨sv, hsv, _⟩ := (h.map _ _).1 hsi
    exact ⟨valid_setOutputEdge h g rfl ⟨sv, hsv, hr si sv hsi hsv⟩, sameNodes_outputs ..⟩
  · cases he

theorem valid_disconnectOutput {S : Units U α} {net net' : Net U α} (h : Valid S net) {c}
    (he : disconnectOutput net c = some net') : Valid S net' ∧ SameNodes S net net' := by
  simp only [disconnectOutput] at he
  split at he
  · cases he; exact ⟨valid_setOutputEdge h c rfl trivial, sameNodes_outputs ..⟩
  · cases he

theorem valid_passThrough {S : Units U α} {net net' : Net U α} (h : Valid S net) {i c}
    (he : passThrough net i c = some net') (hr : i < net.inputs) : Valid S net' ∧ SameNodes S net net' := by
  simp only [passThrough] at he
  split at he
  · cases he; exact ⟨valid_setOutputEdge h c rfl hr, sameNodes_outputs ..⟩
  · cases he

theorem valid_pipeOutput {S : Units U α} {net net' : Net U α} (h : Valid S net) {s}
    (he : pipeOutput net s = some net') : Valid S net' ∧ SameNodes S net net' := by
  simp only [pipeOutput, Option.bind_eq_bind, Option.bind_eq_some_iff] at he
  obtain ⟨si, hsi, sv, hsv, he⟩ := he
  cases he
  refine ⟨h.rewire (sameNodes_outputs net _ _) (by simp [h.oeLen]) ?_ h.edge, sameNodes_outputs ..⟩
  intro c e he
  simp only [List.getElem?_mapIdx, Option.map_eq_some_iff] at he
  obtain ⟨e0, h0, rfl⟩ := he
  split
  · exact ⟨rfl, portOK_mod_out hsv c⟩
  · exact h.oe c e0 h0

theorem valid_pipeAll {S : Units U α} {net net' : Net U α} (h : Valid S net) {s t}
    (he : pipeAll net s t = some net') : Valid S net' ∧ SameNodes S net net' := by
  simp only [pipeAll, Option.bind_eq_bind] at he
  split at he
  · cases he; exact ⟨h, sameNodes_refl _⟩
  · simp only [Option.bind_eq_some_iff] at he
    obtain ⟨si, hsi, ti, _, sv, hsv, v, _, he⟩ := he
    cases he
    exact ⟨valid_wireAll h ti (portOK_mod_out hsv), sameNodes_wireAll ..⟩

/-- Replacing a vertex by one with the same id, arity and edges. -/
theorem valid_setVertex {S : Units U α} {net : Net U α} (h : Valid S net) {i : Nat} {v v' : Vertex U α}
    (hv : net.vertex[i]? = some v) (hid : v'.id = v.id) (hin : v'.ins = v.ins) (hout : v'.outs = v.outs)
    (hsrc : v'.source = v.source) (hi : S.ins v'.eng.unit = S.ins v.eng.unit)
    (ho : S.outs v'.eng.unit = S.outs v.eng.unit) :
    Valid S { net with vertex := net.vertex.set i v' } ∧ SameNodes S net { net with vertex := net.vertex.set i v' } := by
  have hs : SameNodes S net { net with vertex := net.vertex.set i v' } := by
    constructor
    · rfl
    · simp
    · intro j w w' hw hw'
      simp only [List.getElem?_set] at hw'
      by_cases hij : i = j
      · subst hij
        rw [hv] at hw; cases hw
        simp only [if_true] at hw'
        split at hw'
        · cases hw'
          exact ⟨hid, hin, hout, by rw [hsrc], hi, ho⟩
        · cases hw'
      · simp only [if_neg hij] at hw'; rw [hw] at hw'; cases hw'; exact ⟨rfl, rfl, rfl, rfl, rfl, rfl⟩
    · rfl
  refine ⟨h.rewire hs h.oeLen h.oe ?_, hs⟩
  intro j w c e hw he
  simp only [List.getElem?_set] at hw
  by_cases hij : i = j
  · subst hij
    simp only [if_true] at hw
    split at hw
    · cases hw; rw [hsrc] at he; exact h.edge i v c e hv he
    · cases hw
  · simp only [if_neg hij] at hw; exact h.edge j w c e hw he

theorem valid_replace {S : Units U α} (hS : S.Lawful) {net net' : Net U α} (h : Valid S net) {n u u'}
    (he : replace S net n u = some (net', u')) : Valid S net' ∧ SameNodes S net net' := by
  simp only [replace, Option.bind_eq_bind, Option.bind_eq_some_iff] at he
  obtain ⟨i, hi, v, hv, he⟩ := he
  split at he
  · rename_i har
    cases he
    have := h.arity i v hv
    exact valid_setVertex h hv rfl rfl rfl rfl (by rw [hS.ins_setSR]; omega) (by rw [hS.outs_setSR]; omega)
  · cases he

theorem enqueue_unit (S : Units U α) (e : Eng U α) (d : NodeEdit U α) : (e.enqueue S d).unit = e.unit := by
  unfold Eng.enqueue; split <;> rfl

theorem valid_crossfade {S : Units U α} {net net' : Net U α} (h : Valid S net) {n f t u}
    (he : crossfade S net n f t u = some net') : Valid S net' ∧ SameNodes S net net' := by
  simp only [crossfade, Option.bind_eq_bind, Option.bind_eq_some_iff] at he
  obtain ⟨i, hi, v, hv, he⟩ := he
  split at he
  · split at he
    · cases he
      have hs : SameNodes S net { net with editQueue := net.editQueue ++
          [⟨some (S.setSR net.sampleRate u), n, i, f, t⟩] } := ⟨rfl, rfl, (sameNodes_refl net).node, rfl⟩
      exact ⟨h.rewire hs h.oeLen h.oe h.edge, hs⟩
    · cases he
      exact valid_setVertex h hv rfl rfl rfl rfl (by simp [enqueue_unit]) (by simp [enqueue_unit])
  · cases he

end Fundsp.Net
