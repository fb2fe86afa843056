import Verif.Net.Backend

/-! # Lemmas about messages, migration and revision stamps -/
namespace Fundsp.Net
variable {U α : Type}

/-- A vertex with another state of its units. -/
def Vertex.withEng (v : Vertex U α) (e : Eng U α) : Vertex U α := { v with eng := e }

/-- The map from ids to nodes is right. -/
structure MapOK (net : Net U α) : Prop where
  map : ∀ (id : NodeId) (i : Nat), net.nodeIndex.get id = some i ↔ ∃ v, net.vertex[i]? = some v ∧ v.id = id
  keys : (List.map Prod.fst net.nodeIndex).Nodup

theorem Valid.mapOK {S : Units U α} {net : Net U α} (h : Valid S net) : MapOK net := ⟨h.map, h.keys⟩

theorem MapOK.same {a b : Net U α} (h : MapOK a) (hs : SameWiring a b) : MapOK b := by
  refine ⟨fun id i => ?_, by rw [hs.index]; exact h.keys⟩
  rw [hs.index, h.map]
  constructor
  · rintro ⟨v, hv, hid⟩
    have hi : i < b.vertex.length := by rw [hs.len]; exact (List.getElem?_eq_some_iff.1 hv).1
    have hw : b.vertex[i]? = some b.vertex[i] := List.getElem?_eq_getElem hi
    exact ⟨_, hw, (hs.node i v _ hv hw).1.trans hid⟩
  · rintro ⟨w, hw, hid⟩
    obtain ⟨v, hv⟩ := hs.find hw
    exact ⟨v, hv, (hs.node i v w hv hw).1.symm.trans hid⟩

/-- The running state of a node. -/
def engOf (net : Net U α) (id : NodeId) : Option (Eng U α) :=
  (net.nodeIndex.get id).bind (fun i => (net.vertex[i]?).map Vertex.eng)

theorem engOf_unit (net : Net U α) (id : NodeId) : unitOf net id = (engOf net id).map Eng.unit := by
  unfold unitOf engOf
  cases net.nodeIndex.get id with
  | none => rfl
  | some i => simp only [Option.bind_some]; cases net.vertex[i]? <;> rfl

/-- A list of edits enters the queue of a node. -/
def Eng.enqueueAll (S : Units U α) (e : Eng U α) (l : List (NodeEdit U α)) : Eng U α := l.foldl (Eng.enqueue S) e

theorem enqueue_withUnit (S : Units U α) (e : Eng U α) (u : U) (d : NodeEdit U α) :
    ({ e with unit := u } : Eng U α).enqueue S d = { e.enqueue S d with unit := u } := by
  simp only [Eng.enqueue]
  split <;> rfl

theorem enqueueAll_withUnit (S : Units U α) (l : List (NodeEdit U α)) : ∀ (e : Eng U α) (u : U),
    Eng.enqueueAll S { e with unit := u } l = { Eng.enqueueAll S e l with unit := u } := by
  induction l with
  | nil => intro e u; rfl
  | cons d l ih =>
    intro e u
    have h1 : Eng.enqueueAll S { e with unit := u } (d :: l) = Eng.enqueueAll S (({ e with unit := u } : Eng U α).enqueue S d) l := rfl
    rw [h1, enqueue_withUnit, ih]
    rfl

theorem enqueueAll_unit (S : Units U α) (l : List (NodeEdit U α)) : ∀ e : Eng U α, (Eng.enqueueAll S e l).unit = e.unit := by
  induction l with
  | nil => intro e; rfl
  | cons d l ih =>
    intro e
    have h1 : Eng.enqueueAll S e (d :: l) = Eng.enqueueAll S (e.enqueue S d) l := rfl
    rw [h1, ih]
    simp only [Eng.enqueue]
    split <;> rfl

theorem enqueueAt_get (S : Units U α) (l : List (Nat × NodeEdit U α)) : ∀ (vs : List (Vertex U α)) (k : Nat),
    (l.foldl (enqueueAt S) vs)[k]? =
      (vs[k]?).map (fun v => v.withEng (v.eng.enqueueAll S ((l.filter (fun p => p.1 == k)).map Prod.snd))) := by
  induction l with
  | nil => intro vs k; cases h : vs[k]? <;> simp [h, Eng.enqueueAll, Vertex.withEng]
  | cons p l ih =>
    intro vs k
    rw [List.foldl_cons, ih, enqueueAt, List.getElem?_modify]
    by_cases h : p.1 = k
    · cases hv : vs[k]? with
      | none => simp
      | some v =>
        simp only [h, if_true, Option.map_some, List.filter_cons, beq_self_eq_true, List.map_cons]
        rfl
    · cases hv : vs[k]? with
      | none => simp
      | some v => simp [h]

theorem enqueueAt_length (S : Units U α) (l : List (Nat × NodeEdit U α)) : ∀ (vs : List (Vertex U α)),
    (l.foldl (enqueueAt S) vs).length = vs.length := by
  induction l with
  | nil => intro vs; rfl
  | cons p l ih => intro vs; rw [List.foldl_cons, ih]; simp [enqueueAt]

/-- Same nodes, wires, outputs and revision. -/
structure SameNet (a b : Net U α) : Prop extends SameWiring a b where
  rev : b.revision = a.revision

theorem SameNet.refl (a : Net U α) : SameNet a a := ⟨SameWiring.refl a, rfl⟩
theorem SameNet.trans {a b c : Net U α} (h : SameNet a b) (h' : SameNet b c) : SameNet a c :=
  ⟨h.toSameWiring.trans h'.toSameWiring, h'.rev.trans h.rev⟩

theorem sameNet_of {a b : Net U α} (hi : b.inputs = a.inputs) (ho : b.outputs = a.outputs) (he : b.outputEdge = a.outputEdge)
    (hn : b.nodeIndex = a.nodeIndex) (hr : b.revision = a.revision) (f : Nat → Vertex U α → Eng U α)
    (hv : ∀ k : Nat, b.vertex[k]? = (a.vertex[k]?).map (fun v => v.withEng (f k v))) : SameNet a b := by
  have hlen : b.vertex.length = a.vertex.length := by
    rcases Nat.lt_trichotomy b.vertex.length a.vertex.length with h | h | h
    · have := hv b.vertex.length
      rw [List.getElem?_eq_none (Nat.le_refl _), List.getElem?_eq_getElem h] at this
      cases this
    · exact h
    · have := hv a.vertex.length
      rw [List.getElem?_eq_none (Nat.le_refl _), List.getElem?_eq_getElem h] at this
      cases this
  refine ⟨⟨hi, ho, he, hn, hlen, ?_⟩, hr⟩
  intro i v w h1 h2
  rw [hv, h1] at h2
  cases h2; exact ⟨rfl, rfl, rfl, rfl⟩

theorem engOf_of {a b : Net U α} (hn : b.nodeIndex = a.nodeIndex) (f : Nat → Vertex U α → Eng U α)
    (hv : ∀ k : Nat, b.vertex[k]? = (a.vertex[k]?).map (fun v => v.withEng (f k v))) (id : NodeId) (i : Nat) (v : Vertex U α)
    (h1 : a.nodeIndex.get id = some i) (h2 : a.vertex[i]? = some v) : engOf b id = some (f i v) := by
  simp only [engOf, hn, h1, Option.bind_some, hv, h2, Option.map_some, Vertex.withEng]

theorem engOf_none {a b : Net U α} (ha : MapOK a) (hs : SameWiring a b) {id : NodeId} (h : engOf a id = none) : engOf b id = none := by
  unfold engOf at *
  rw [hs.index]
  cases hi : a.nodeIndex.get id with
  | none => rfl
  | some i =>
    obtain ⟨v, hv, _⟩ := (ha.map id i).1 hi
    rw [hi] at h
    simp [hv] at h

theorem engOf_some {a : Net U α} {id : NodeId} {e : Eng U α} (h : engOf a id = some e) :
    ∃ i v, a.nodeIndex.get id = some i ∧ a.vertex[i]? = some v ∧ v.eng = e := by
  unfold engOf at h
  obtain ⟨i, hi, h⟩ := Option.bind_eq_some_iff.1 h
  obtain ⟨v, hv, h⟩ := Option.map_eq_some_iff.1 h
  exact ⟨i, v, hi, hv, h⟩

/-- Edits of node `id`. -/
def editsOf (id : NodeId) (l : List (NodeEdit U α)) : List (NodeEdit U α) := l.filter (fun d => d.id == id)

theorem applyForeign_vertex (S : Units U α) (net src : Net U α) (k : Nat) :
    (applyForeign S net src).vertex[k]? = (net.vertex[k]?).map (fun v => v.withEng (v.eng.enqueueAll S
      (((src.editQueue.filterMap (fun ed => (net.nodeIndex.get ed.id).map (fun i => (i, ed)))).filter (fun p => p.1 == k)).map Prod.snd))) :=
  enqueueAt_get S _ _ _

theorem foreign_filter {net : Net U α} (hv : MapOK net) {id : NodeId} {i : Nat} (hi : net.nodeIndex.get id = some i)
    (l : List (NodeEdit U α)) :
    ((l.filterMap (fun ed => (net.nodeIndex.get ed.id).map (fun i => (i, ed)))).filter (fun p => p.1 == i)).map Prod.snd = editsOf id l := by
  induction l with
  | nil => rfl
  | cons d l ih =>
    have hd : net.nodeIndex.get d.id = some i ↔ d.id = id := by
      constructor
      · intro h
        obtain ⟨v, h1, h2⟩ := (hv.map _ _).1 h
        obtain ⟨w, h3, h4⟩ := (hv.map _ _).1 hi
        rw [h1] at h3; cases h3
        rw [← h2, ← h4]
      · intro h; rw [h]; exact hi
    rw [List.filterMap_cons, editsOf, List.filter_cons]
    cases hg : net.nodeIndex.get d.id with
    | none =>
      have : ¬ d.id = id := fun c => by rw [hd.2 c] at hg; cases hg
      simp only [Option.map_none, beq_iff_eq, this, if_false]
      exact ih
    | some k =>
      simp only [Option.map_some, List.filter_cons, beq_iff_eq]
      by_cases hk : k = i
      · have : d.id = id := hd.1 (by rw [hg, hk])
        simp only [hk, this, if_true, List.map_cons]
        rw [ih]; rfl
      · have : ¬ d.id = id := fun c => hk (by have := hd.2 c; rw [hg] at this; exact Option.some.inj this)
        simp only [hk, this, if_false]
        exact ih

theorem applyForeign_same (S : Units U α) (net src : Net U α) : SameNet net (applyForeign S net src) :=
  sameNet_of rfl rfl rfl rfl rfl _ (applyForeign_vertex S net src)

theorem engOf_applyForeign {net : Net U α} (hv : MapOK net) (src : Net U α) (id : NodeId) :
    engOf (applyForeign S net src) id = (engOf net id).map (fun e => e.enqueueAll S (editsOf id src.editQueue)) := by
  cases h : engOf net id with
  | none => exact engOf_none hv (applyForeign_same S net src).toSameWiring h
  | some e =>
    obtain ⟨i, v, h1, h2, h3⟩ := engOf_some h
    rw [engOf_of (a := net) (b := applyForeign S net src) rfl _ (applyForeign_vertex S net src) id i v h1 h2, foreign_filter hv h1, h3]
    rfl

theorem set_vertex (net : Net U α) (id : NodeId) (f : U → U) (k : Nat) :
    (set net id f).vertex[k]? = (net.vertex[k]?).map (fun v => v.withEng
      (if net.nodeIndex.get id = some k then { v.eng with unit := f v.eng.unit } else v.eng)) := by
  unfold set
  cases h : net.nodeIndex.get id with
  | none => cases hv : net.vertex[k]? <;> simp [hv, Vertex.withEng]
  | some i =>
    simp only [List.getElem?_modify]
    by_cases hik : i = k
    · cases hv : net.vertex[k]? <;> simp [hik, Vertex.withEng]
    · cases hv : net.vertex[k]? <;> simp [hik, Vertex.withEng]

theorem set_index (net : Net U α) (id : NodeId) (f : U → U) : (set net id f).nodeIndex = net.nodeIndex := by
  unfold set; split <;> rfl

theorem set_same (net : Net U α) (id : NodeId) (f : U → U) : SameNet net (set net id f) := by
  refine sameNet_of ?_ ?_ ?_ (set_index net id f) ?_ _ (set_vertex net id f) <;> (unfold set; split <;> rfl)

theorem engOf_set {net : Net U α} (hv : MapOK net) (k : NodeId) (f : U → U) (id : NodeId) :
    engOf (set net k f) id = (engOf net id).map (fun e => if k = id then { e with unit := f e.unit } else e) := by
  cases h : engOf net id with
  | none => exact engOf_none hv (set_same net k f).toSameWiring h
  | some e =>
    obtain ⟨i, v, h1, h2, h3⟩ := engOf_some h
    rw [engOf_of (set_index net k f) _ (set_vertex net k f) id i v h1 h2, h3]
    have : net.nodeIndex.get k = some i ↔ k = id := by
      constructor
      · intro h
        obtain ⟨x, h4, h5⟩ := (hv.map _ _).1 h
        obtain ⟨w, h6, h7⟩ := (hv.map _ _).1 h1
        rw [h4] at h6; cases h6
        rw [← h5, ← h7]
      · intro h; rw [h]; exact h1
    simp only [this, Option.map_some]

/-- What migration does to the vertices. -/
theorem migrate_fold {new : Net U α} {j : Nat} {id : NodeId} (hj : ∀ k, new.nodeIndex.get k = some j ↔ k = id) (old : Net U α)
    (l : List (NodeId × Nat)) (hl : (l.map Prod.fst).Nodup) : ∀ (vs : List (Vertex U α)),
    (l.foldl (migrateStep old new) vs)[j]? =
    (vs[j]?).map (fun v => v.withEng
      (if v.changed ≤ old.revision then (((l.lookup id).bind (fun i => (old.vertex[i]?).map Vertex.eng)).getD v.eng) else v.eng)) := by
  induction l with
  | nil => intro vs; cases h : vs[j]? <;> simp [h, Vertex.withEng]
  | cons p l ih =>
    intro vs
    simp only [List.map_cons, List.nodup_cons] at hl
    rw [List.foldl_cons, ih hl.2]
    obtain ⟨pid, pi⟩ := p
    by_cases hp : pid = id
    · have hg : new.nodeIndex.get pid = some j := (hj pid).2 hp
      have hnone : l.lookup id = none := by
        rw [List.lookup_eq_none_iff]
        intro q hq
        have : q.1 ≠ id := fun c => hl.1 (by rw [hp]; exact List.mem_map.2 ⟨q, hq, c⟩)
        simpa [beq_eq_false_iff_ne] using fun c => this c.symm
      simp only [migrateStep, hg, hnone, Option.bind_none, Option.getD_none]
      subst hp
      simp only [List.lookup_cons, beq_self_eq_true, Option.bind_some]
      cases hw : old.vertex[pi]? with
      | none => cases hv : vs[j]? <;> simp [Vertex.withEng]
      | some w =>
        simp only [List.getElem?_modify, if_true]
        cases hv : vs[j]? with
        | none => rfl
        | some v =>
          by_cases hc : v.changed ≤ old.revision <;> simp [hc, Vertex.withEng]
    · have hne : (id == pid) = false := by simpa [beq_eq_false_iff_ne] using fun c => hp c.symm
      simp only [List.lookup_cons, hne]
      have : (migrateStep old new vs (pid, pi))[j]? = vs[j]? := by
        unfold migrateStep
        simp only
        cases hg : new.nodeIndex.get pid with
        | none => rfl
        | some k =>
          cases hw : old.vertex[pi]? with
          | none => rfl
          | some w =>
            simp only [List.getElem?_modify]
            have : k ≠ j := fun c => hp ((hj pid).1 (by rw [hg, c]))
            simp only [this, if_false]
            cases vs[j]? <;> rfl
      rw [this]

theorem valid_inj {net : Net U α} (hv : MapOK net) {id : NodeId} {j : Nat} (h : net.nodeIndex.get id = some j) (k : NodeId) :
    net.nodeIndex.get k = some j ↔ k = id := by
  constructor
  · intro h'
    obtain ⟨x, h4, h5⟩ := (hv.map _ _).1 h'
    obtain ⟨w, h6, h7⟩ := (hv.map _ _).1 h
    rw [h4] at h6; cases h6
    rw [← h5, ← h7]
  · intro c; rw [c]; exact h

theorem migrate_vertex {old new : Net U α} (hv : MapOK new) (ho : MapOK old) (j : Nat) :
    (migrate old new).vertex[j]? = (new.vertex[j]?).map (fun v => v.withEng
      (if v.changed ≤ old.revision then (engOf old v.id).getD v.eng else v.eng)) := by
  cases hj : new.vertex[j]? with
  | none =>
    have hlen : ∀ (l : List (NodeId × Nat)) (vs : List (Vertex U α)),
        (l.foldl (migrateStep old new) vs).length = vs.length := by
      intro l
      induction l with
      | nil => intro vs; rfl
      | cons p l ih =>
        intro vs
        rw [List.foldl_cons, ih, migrateStep]
        split <;> simp
    rw [List.getElem?_eq_none_iff] at hj
    simp only [Option.map_none, List.getElem?_eq_none_iff, migrate, hlen]
    exact hj
  | some v =>
    have hid : new.nodeIndex.get v.id = some j := (hv.map _ _).2 ⟨v, hj, rfl⟩
    have := migrate_fold (valid_inj hv hid) old old.nodeIndex ho.keys new.vertex
    rw [hj] at this
    exact this

theorem migrate_same {old new : Net U α} (hv : MapOK new) (ho : MapOK old) : SameNet new (migrate old new) :=
  sameNet_of rfl rfl rfl rfl rfl _ (migrate_vertex hv ho)

theorem applyEdits_vertex (S : Units U α) (net : Net U α) (k : Nat) :
    (applyEdits S net).vertex[k]? = (net.vertex[k]?).map (fun v => v.withEng (v.eng.enqueueAll S
      (((net.editQueue.map (fun ed => (ed.index, ed))).filter (fun p => p.1 == k)).map Prod.snd))) :=
  enqueueAt_get S _ _ _

theorem applyEdits_same (S : Units U α) (net : Net U α) : SameNet net (applyEdits S net) :=
  sameNet_of rfl rfl rfl rfl rfl _ (applyEdits_vertex S net)

/-- The edits of a message carry the index of their node. -/
def Indexed (net : Net U α) : Prop := ∀ ed ∈ net.editQueue, net.nodeIndex.get ed.id = some ed.index

theorem indexed_filter {net : Net U α} (hv : MapOK net) {id : NodeId} {i : Nat} (hi : net.nodeIndex.get id = some i)
    (l : List (NodeEdit U α)) (hl : ∀ ed ∈ l, net.nodeIndex.get ed.id = some ed.index) :
    ((l.map (fun ed => (ed.index, ed))).filter (fun p => p.1 == i)).map Prod.snd = editsOf id l := by
  induction l with
  | nil => rfl
  | cons d l ih =>
    have hd : d.index = i ↔ d.id = id := by
      have h1 := hl d (by simp)
      constructor
      · intro c; rw [c] at h1; exact (valid_inj hv hi _).1 h1
      · intro c; rw [c, hi] at h1; exact (Option.some.inj h1).symm
    have ih := ih (fun ed h => hl ed (by simp [h]))
    rw [List.map_cons, List.filter_cons, editsOf, List.filter_cons]
    simp only [beq_iff_eq]
    by_cases h : d.id = id
    · simp only [h, hd.2 h, if_true, List.map_cons, ih]; rfl
    · rw [if_neg (fun c => h (hd.1 c)), if_neg h]; exact ih

theorem engOf_applyEdits {net : Net U α} (hv : MapOK net) (hx : Indexed net) (id : NodeId) :
    engOf (applyEdits S net) id = (engOf net id).map (fun e => e.enqueueAll S (editsOf id net.editQueue)) := by
  cases h : engOf net id with
  | none => exact engOf_none hv (applyEdits_same S net).toSameWiring h
  | some e =>
    obtain ⟨i, v, h1, h2, h3⟩ := engOf_some h
    rw [engOf_of (a := net) (b := applyEdits S net) rfl _ (applyEdits_vertex S net) id i v h1 h2, indexed_filter hv h1 _ hx, h3]
    rfl

end Fundsp.Net
