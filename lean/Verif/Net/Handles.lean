import Verif.Net.Ops

/-! # Node handles (C06) -/

namespace Fundsp.Net
variable {U α : Type}

/-- What can happen to a unit that stays in the net: it is run, reset, told the sample rate, or pinged. -/
inductive Evolves (S : Units U α) : U → U → Prop
  | refl (u) : Evolves S u u
  | tick {u v} (h : Evolves S u v) (x : List α) : Evolves S u (S.utick v x).1
  | reset {u v} (h : Evolves S u v) : Evolves S u (S.reset v)
  | setSR {u v} (h : Evolves S u v) (r : α) : Evolves S u (S.setSR r v)
  | ping {u v} (h : Evolves S u v) (p : Bool) (k : Nat) : Evolves S u (S.ping p k v).1

theorem Evolves.trans {S : Units U α} {a b c : U} (h : Evolves S a b) (h' : Evolves S b c) : Evolves S a c := by
  induction h' with
  | refl => exact h
  | tick _ x ih => exact .tick ih x
  | reset _ ih => exact .reset ih
  | setSR _ r ih => exact .setSR ih r
  | ping _ p k ih => exact .ping ih p k

/-- Effect on a running node that is not being crossfaded. -/
def EngRun (S : Units U α) (e e' : Eng U α) : Prop :=
  e.next.unit = none → e'.next.unit = none ∧ Evolves S e.unit e'.unit

/-- The node `id` is kept, its engine changes according to `R`. -/
def KeepsNode (R : Eng U α → Eng U α → Prop) (a b : Net U α) (id : NodeId) : Prop :=
  ∀ (i : Nat) (v : Vertex U α), a.vertex[i]? = some v → v.id = id → ∃ (j : Nat) (w : Vertex U α), b.vertex[j]? = some w ∧
    w.id = id ∧ w.ins = v.ins ∧ w.outs = v.outs ∧ R v.eng w.eng

theorem KeepsNode.mono {R R' : Eng U α → Eng U α → Prop} {a b : Net U α} {id : NodeId} (h : KeepsNode R a b id)
    (hR : ∀ e e', R e e' → R' e e') : KeepsNode R' a b id := by
  intro i v hv hid
  obtain ⟨j, w, h1, h2, h3, h4, h5⟩ := h i v hv hid
  exact ⟨j, w, h1, h2, h3, h4, hR _ _ h5⟩

theorem KeepsNode.trans {R R' R'' : Eng U α → Eng U α → Prop} {a b c : Net U α} {id : NodeId} (h : KeepsNode R a b id)
    (h' : KeepsNode R' b c id) (hR : ∀ e e' e'', R e e' → R' e' e'' → R'' e e'') : KeepsNode R'' a c id := by
  intro i v hv hid
  obtain ⟨j, w, h1, h2, h3, h4, h5⟩ := h i v hv hid
  obtain ⟨k, x, g1, g2, g3, g4, g5⟩ := h' j w h1 h2
  exact ⟨k, x, g1, g2, g3.trans h3, g4.trans h4, hR _ _ _ h5 g5⟩

theorem keeps_refl {a b : Net U α} (h : b.vertex = a.vertex) (id : NodeId) : KeepsNode Eq a b id := by
  intro i v hv hid
  exact ⟨i, v, by rw [h]; exact hv, hid, rfl, rfl, rfl⟩

theorem keeps_modify {R : Eng U α → Eng U α → Prop} {a b : Net U α} (i : Nat) {f : Vertex U α → Vertex U α}
    (hb : b.vertex = a.vertex.modify i f) (hr : ∀ e, R e e)
    (hf : ∀ v, (f v).id = v.id ∧ (f v).ins = v.ins ∧ (f v).outs = v.outs ∧ R v.eng (f v).eng) (id : NodeId) :
    KeepsNode R a b id := by
  intro j v hv hid
  by_cases hij : i = j
  · refine ⟨j, f v, by rw [hb, List.getElem?_modify, hv]; simp [hij], ?_⟩
    have := hf v
    exact ⟨this.1.trans hid, this.2.1, this.2.2.1, this.2.2.2⟩
  · exact ⟨j, v, by rw [hb, List.getElem?_modify, hv]; simp [hij], hid, rfl, rfl, hr _⟩

theorem keeps_map {R : Eng U α → Eng U α → Prop} {a b : Net U α} {f : Vertex U α → Vertex U α}
    (hb : b.vertex = a.vertex.map f)
    (hf : ∀ v, (f v).id = v.id ∧ (f v).ins = v.ins ∧ (f v).outs = v.outs ∧ R v.eng (f v).eng) (id : NodeId) :
    KeepsNode R a b id := by
  intro j v hv hid
  refine ⟨j, f v, by rw [hb, List.getElem?_map, hv]; rfl, ?_⟩
  have := hf v
  exact ⟨this.1.trans hid, this.2.1, this.2.2.1, this.2.2.2⟩

theorem keeps_set {R : Eng U α → Eng U α → Prop} {a b : Net U α} {i : Nat} {v v' : Vertex U α}
    (hv : a.vertex[i]? = some v) (hb : b.vertex = a.vertex.set i v') (hr : ∀ e, R e e) {id : NodeId}
    (hf : v'.id = v.id ∧ v'.ins = v.ins ∧ v'.outs = v.outs) (hR : v.id = id → R v.eng v'.eng) :
    KeepsNode R a b id := by
  intro j w hw hid
  by_cases hij : i = j
  · subst hij
    rw [hv] at hw; cases hw
    refine ⟨i, v', by rw [hb, List.getElem?_set]; simp [(List.getElem?_eq_some_iff.1 hv).1], hf.1.trans hid, hf.2.1, hf.2.2, hR hid⟩
  · exact ⟨j, w, by rw [hb, List.getElem?_set]; simp [hij, hw], hid, rfl, rfl, hr _⟩

theorem keeps_push {S : Units U α} (net : Net U α) (n : NodeId) (u : U) (id : NodeId) : KeepsNode Eq net (push S net n u) id := by
  intro i v hv hid
  exact ⟨i, v, by simp [push, List.getElem?_append_left (List.getElem?_eq_some_iff.1 hv).1, hv], hid, rfl, rfl, rfl⟩

/-- The calls that run the net (and ping its units). -/
def Edit.runs : Edit U α → Prop
  | .error | .tick _ | .reset | .setSampleRate _ => True
  | _ => False

/-- The calls that delete node `id`. -/
def Edit.deletes (id : NodeId) : Edit U α → Prop
  | .remove n | .removeLink n => n = id
  | _ => False

/-- The calls that give node `id` a new unit. -/
def Edit.swaps (id : NodeId) : Edit U α → Prop
  | .replace n _ | .crossfade n _ _ _ => n = id
  | _ => False

theorem engRun_refl {S : Units U α} (e : Eng U α) : EngRun S e e := fun h => ⟨h, .refl _⟩

theorem EngRun.trans {S : Units U α} {a b c : Eng U α} (h : EngRun S a b) (h' : EngRun S b c) : EngRun S a c := by
  intro hn
  obtain ⟨h1, h2⟩ := h hn
  obtain ⟨h3, h4⟩ := h' h1
  exact ⟨h3, h2.trans h4⟩

theorem keeps_pingAll {S : Units U α} (probe : Bool) (h : Nat) (vs : List (Vertex U α)) :
    ∀ (i : Nat) (v : Vertex U α), vs[i]? = some v → ∃ w, (pingAll S probe h vs).1[i]? = some w ∧ w.id = v.id ∧ w.ins = v.ins ∧
      w.outs = v.outs ∧ EngRun S v.eng w.eng := by
  induction vs generalizing h with
  | nil => intro i v hv; simp at hv
  | cons x vs ih =>
    intro i v hv
    cases i with
    | zero =>
      simp only [List.getElem?_cons_zero, Option.some.injEq] at hv
      subst hv
      exact ⟨_, rfl, rfl, rfl, rfl, fun hn => ⟨hn, .ping (.refl _) _ _⟩⟩
    | succ i => exact ih _ i v (by simpa using hv)

theorem keeps_determineOrder {S : Units U α} (seed : Nat → Nat) (h0 : Nat) (net : Net U α) (id : NodeId) :
    KeepsNode (EngRun S) net (determineOrder S seed h0 net) id := by
  intro i v hv hid
  have h0' : (net.vertex.map Vertex.updateSourceVertex)[i]? = some v.updateSourceVertex := by
    rw [List.getElem?_map, hv]; rfl
  obtain ⟨w, hw, a1, a2, a3, a4⟩ := keeps_pingAll (S := S) true (seed h0) _ i _ h0'
  obtain ⟨x, hx, b1, b2, b3, b4⟩ := keeps_pingAll (S := S) false (seed (pingAll S true (seed h0) (net.vertex.map Vertex.updateSourceVertex)).2) _ i _ hw
  refine ⟨i, x, hx, ?_, ?_, ?_, a4.trans b4⟩
  · rw [b1, a1]; exact hid
  · rw [b2, a2]; rfl
  · rw [b3, a3]; rfl

theorem keeps_ticks {S : Units U α} (sr : α) (x : List α) (is : List Nat) (net : Net U α) (id : NodeId) :
    KeepsNode (EngRun S) net { net with vertex := is.foldl (tickNode S sr x) net.vertex } id := by
  induction is generalizing net with
  | nil => exact (keeps_refl rfl id).mono (fun e e' h => h ▸ engRun_refl e)
  | cons i is ih =>
    have h1 : KeepsNode (EngRun S) net { net with vertex := tickNode S sr x net.vertex i } id := by
      refine keeps_modify (R := EngRun S) i rfl engRun_refl ?_ id
      intro v
      refine ⟨rfl, rfl, rfl, ?_⟩
      intro hn
      simp only [Eng.tick, hn]
      exact ⟨trivial, .tick (.refl _) _⟩
    exact h1.trans (ih { net with vertex := tickNode S sr x net.vertex i }) (fun _ _ _ => EngRun.trans)

theorem keeps_run [DecidableEq α] {E : Env U α} {n m : NodeId} {net net' : Net U α} {e : Edit U α} (hr : e.runs)
    (he : e.apply E n net = some (net', m)) (id : NodeId) : KeepsNode (EngRun E.S) net net' id := by
  have same : ∀ x : Net U α, KeepsNode (EngRun E.S) x x id := fun x =>
    (keeps_refl rfl id).mono (fun e e' h => h ▸ engRun_refl e)
  have ord : ∀ x : Net U α, KeepsNode (EngRun E.S) x (if x.order.isSome then x else determineOrder E.S E.seed E.hash0 x) id := by
    intro x
    split
    · exact same x
    · exact keeps_determineOrder _ _ _ _
  cases e <;> simp only [Edit.runs] at hr <;> simp only [Edit.apply, Option.some.injEq, Prod.mk.injEq] at he <;>
    obtain ⟨rfl, rfl⟩ := he
  case error => exact ord net
  case tick x =>
    exact (ord net).trans (keeps_ticks _ _ _ _ _) (fun _ _ _ => EngRun.trans)
  case reset =>
    refine KeepsNode.trans (keeps_map (R := EngRun E.S) (b := { net with vertex := _ }) rfl ?_ id) (ord _) (fun _ _ _ => EngRun.trans)
    intro v
    exact ⟨rfl, rfl, rfl, fun hn => ⟨hn, .reset (.refl _)⟩⟩
  case setSampleRate r =>
    simp only [Net.setSampleRate]
    split
    · exact same net
    · refine KeepsNode.trans (keeps_map (R := EngRun E.S) (b := { net with sampleRate := r, vertex := _ }) rfl ?_ id) (ord _) (fun _ _ _ => EngRun.trans)
      intro v
      exact ⟨rfl, rfl, rfl, fun hn => ⟨hn, .setSR (.refl _) _⟩⟩

/-- Editing calls other than those that delete or swap node `id` leave it exactly as it is. -/
theorem keeps_edit [DecidableEq α] {E : Env U α} {n m : NodeId} {net net' : Net U α}
    (h : WF E.S n net) {e : Edit U α} {id : NodeId} (hr : ¬ e.runs) (hd : ¬ e.deletes id)
    (he : e.apply E n net = some (net', m)) :
    KeepsNode (fun _ _ => True) net net' id ∧ (¬ e.swaps id → (id < n) → KeepsNode Eq net net' id) := by
  have fin : KeepsNode Eq net net' id →
      KeepsNode (fun _ _ => True) net net' id ∧ (¬ e.swaps id → (id < n) → KeepsNode Eq net net' id) :=
    fun h => ⟨h.mono (fun _ _ _ => trivial), fun _ _ => h⟩
  have mo : ∀ (i : Nat) (f : Vertex U α → Vertex U α), net'.vertex = net.vertex.modify i f →
      (∀ v, (f v).id = v.id ∧ (f v).ins = v.ins ∧ (f v).outs = v.outs ∧ v.eng = (f v).eng) →
      KeepsNode Eq net net' id := fun i f h1 h2 => keeps_modify i h1 (fun _ => rfl) h2 id
  have cf : ∀ (net1 : Net U α) (x : NodeId) f t u, crossfade E.S net1 x f t u = some net' →
      WF E.S (n + 1) net1 →
      KeepsNode (fun _ _ => True) net1 net' id ∧ (x ≠ id → KeepsNode Eq net1 net' id) := by
    intro net1 x f t u hc hw
    simp only [crossfade, Option.bind_eq_bind, Option.bind_eq_some_iff] at hc
    obtain ⟨i, hi, v, hv, hc⟩ := hc
    obtain ⟨_, hc⟩ := ite_none_right hc
    obtain ⟨w, hwv, hwid⟩ := (hw.valid.map _ _).1 hi
    rw [hv] at hwv; cases hwv
    split at hc
    · cases hc
      exact ⟨(keeps_refl rfl id).mono (fun _ _ _ => trivial), fun _ => keeps_refl rfl id⟩
    · cases hc
      exact ⟨keeps_set hv rfl (fun _ => trivial) (by exact ⟨rfl, rfl, rfl⟩) (fun _ => trivial),
        fun hne => keeps_set (R := Eq) hv rfl (fun _ => rfl) (by exact ⟨rfl, rfl, rfl⟩) (fun hid => absurd (hwid.symm.trans hid) hne)⟩
  cases e <;> simp only [Edit.runs, not_true_eq_false] at hr <;>
    simp only [Edit.apply, Option.map_eq_some_iff, Prod.mk.injEq, Option.some.injEq] at he
  case push u => obtain ⟨rfl, rfl⟩ := he; exact fin (keeps_push net n u id)
  case fadeIn f t u =>
    obtain ⟨x, hx, rfl, rfl⟩ := he
    have hk := keeps_push (S := E.S) net n (E.S.dummy (E.S.ins u) (E.S.outs u)) id
    obtain ⟨c1, c2⟩ := cf _ _ _ _ _ hx (wf_push h _)
    refine ⟨hk.trans c1 (fun _ _ _ _ _ => trivial), fun _ hlt => hk.trans (c2 (Nat.ne_of_gt hlt)) (fun _ _ _ => Eq.trans)⟩
  case chain u =>
    obtain ⟨x, hx, rfl, rfl⟩ := he
    refine fin ?_
    have hk := keeps_push (S := E.S) net n u id
    have po : ∀ y, pipeOutput y n = some x → x.vertex = y.vertex := by
      intro y hy
      simp only [pipeOutput, Option.bind_eq_bind, Option.bind_eq_some_iff] at hy
      obtain ⟨_, _, _, _, hy⟩ := hy
      cases hy; rfl
    simp only [Net.chain, Option.bind_eq_bind, Option.bind_eq_some_iff] at hx
    obtain ⟨i, hi, hx⟩ := hx
    split at hx
    · split at hx
      · obtain ⟨y, hy, hx⟩ := Option.bind_eq_some_iff.1 hx
        simp only [Net.pipeInput, Option.bind_eq_bind, Option.bind_eq_some_iff] at hy
        obtain ⟨_, _, _, _, hy⟩ := hy
        cases hy
        refine hk.trans (keeps_modify (R := Eq) _ (po _ hx) (fun _ => rfl) (fun v => ⟨rfl, rfl, rfl, rfl⟩) id) (fun _ _ _ => Eq.trans)
      · exact hk.trans (keeps_refl (po _ hx) id) (fun _ _ _ => Eq.trans)
    · refine hk.trans (keeps_modify (R := Eq) _ (po _ hx) (fun _ => rfl) (fun v => ⟨rfl, rfl, rfl, rfl⟩) id) (fun _ _ _ => Eq.trans)
  case setSource =>
    obtain ⟨x, hx, rfl, rfl⟩ := he
    simp only [Net.setSource, Option.bind_eq_bind, Option.bind_eq_some_iff] at hx
    obtain ⟨i, hi, v, _, hx⟩ := hx
    split at hx
    · obtain ⟨hne, hx⟩ := ite_none_right hx
      rw [Option.bind_eq_some_iff] at hx
      obtain ⟨p, hp, hx⟩ := hx
      obtain ⟨_, hx⟩ := ite_none_right hx
      cases hx
      exact fin (mo _ _ rfl (fun v => ⟨rfl, rfl, rfl, rfl⟩))
    · cases hx
  case setOutputSource =>
    obtain ⟨x, hx, rfl, rfl⟩ := he
    simp only [Net.setOutputSource, Option.bind_eq_bind] at hx
    split at hx
    · simp only [Option.bind_eq_some_iff] at hx
      obtain ⟨p, hp, e, hoe, hx⟩ := hx
      cases hx; exact fin (keeps_refl rfl id)
    · cases hx
  case remove a =>
    obtain ⟨⟨x, u⟩, hx, rfl, rfl⟩ := he
    obtain ⟨ni, v, r⟩ := removed_of_remove2 h.valid hx
    refine fin ?_
    intro j w hw hid
    have hj : j ≠ ni := by
      rintro rfl
      rw [r.vertex] at hw; cases hw
      obtain ⟨y, hy, hyid⟩ := (h.valid.map _ _).1 r.index
      rw [r.vertex] at hy; cases hy
      exact hd (hyid.symm.trans hid)
    exact ⟨_, _, r.keep j w hw hj, hid, rfl, rfl, rfl⟩
  case removeLink a =>
    obtain ⟨⟨x, u⟩, hx, rfl, rfl⟩ := he
    obtain ⟨ni, v, r⟩ := removed_of_remove2 h.valid hx
    refine fin ?_
    intro j w hw hid
    have hj : j ≠ ni := by
      rintro rfl
      rw [r.vertex] at hw; cases hw
      obtain ⟨y, hy, hyid⟩ := (h.valid.map _ _).1 r.index
      rw [r.vertex] at hy; cases hy
      exact hd (hyid.symm.trans hid)
    exact ⟨_, _, r.keep j w hw hj, hid, rfl, rfl, rfl⟩
  case replace a u =>
    obtain ⟨⟨x, old⟩, hx, rfl, rfl⟩ := he
    simp only [Net.replace, Option.bind_eq_bind, Option.bind_eq_some_iff] at hx
    obtain ⟨i, hi, v, hv, hx⟩ := hx
    obtain ⟨_, hx⟩ := ite_none_right hx
    cases hx
    obtain ⟨w, hwv, hwid⟩ := (h.valid.map _ _).1 hi
    rw [hv] at hwv; cases hwv
    exact ⟨keeps_set hv rfl (fun _ => trivial) (by exact ⟨rfl, rfl, rfl⟩) (fun _ => trivial),
      fun hne _ => keeps_set (R := Eq) hv rfl (fun _ => rfl) (by exact ⟨rfl, rfl, rfl⟩) (fun hid => absurd (hwid.symm.trans hid) hne)⟩
  case crossfade a f t u =>
    obtain ⟨x, hx, rfl, rfl⟩ := he
    obtain ⟨c1, c2⟩ := cf _ _ _ _ _ hx (h.mono (Nat.le_succ _))
    exact ⟨c1, fun hne _ => c2 hne⟩
  case connect =>
    obtain ⟨x, hx, rfl, rfl⟩ := he
    simp only [Net.connect, Option.bind_eq_bind] at hx
    split at hx
    · cases hx
    · simp only [Option.bind_eq_some_iff] at hx
      obtain ⟨si, hsi, ti, hti, v, _, hx⟩ := hx
      obtain ⟨_, hx⟩ := ite_none_right hx
      cases hx
      exact fin (mo _ _ rfl (fun v => ⟨rfl, rfl, rfl, rfl⟩))
  case disconnect =>
    obtain ⟨x, hx, rfl, rfl⟩ := he
    simp only [Net.disconnect, Option.bind_eq_bind, Option.bind_eq_some_iff] at hx
    obtain ⟨i, _, v, _, hx⟩ := hx
    obtain ⟨_, hx⟩ := ite_none_right hx
    cases hx
    exact fin (mo _ _ rfl (fun v => ⟨rfl, rfl, rfl, rfl⟩))
  case connectInput =>
    obtain ⟨x, hx, rfl, rfl⟩ := he
    simp only [Net.connectInput, Option.bind_eq_bind, Option.bind_eq_some_iff] at hx
    obtain ⟨i, _, v, _, hx⟩ := hx
    obtain ⟨_, hx⟩ := ite_none_right hx
    cases hx
    exact fin (mo _ _ rfl (fun v => ⟨rfl, rfl, rfl, rfl⟩))
  case pipeInput =>
    obtain ⟨x, hx, rfl, rfl⟩ := he
    simp only [Net.pipeInput, Option.bind_eq_bind, Option.bind_eq_some_iff] at hx
    obtain ⟨i, _, v, _, hx⟩ := hx
    cases hx
    exact fin (mo _ _ rfl (fun v => ⟨rfl, rfl, rfl, rfl⟩))
  case connectOutput =>
    obtain ⟨x, hx, rfl, rfl⟩ := he
    simp only [Net.connectOutput, Option.bind_eq_bind, Option.bind_eq_some_iff] at hx
    obtain ⟨i, _, hx⟩ := hx
    obtain ⟨_, hx⟩ := ite_none_right hx
    cases hx; exact fin (keeps_refl rfl id)
  case disconnectOutput =>
    obtain ⟨x, hx, rfl, rfl⟩ := he
    simp only [Net.disconnectOutput] at hx
    obtain ⟨_, hx⟩ := ite_none_right hx
    cases hx; exact fin (keeps_refl rfl id)
  case pipeOutput =>
    obtain ⟨x, hx, rfl, rfl⟩ := he
    simp only [Net.pipeOutput, Option.bind_eq_bind, Option.bind_eq_some_iff] at hx
    obtain ⟨i, _, v, _, hx⟩ := hx
    cases hx; exact fin (keeps_refl rfl id)
  case passThrough =>
    obtain ⟨x, hx, rfl, rfl⟩ := he
    simp only [Net.passThrough] at hx
    obtain ⟨_, hx⟩ := ite_none_right hx
    cases hx; exact fin (keeps_refl rfl id)
  case pipeAll =>
    obtain ⟨x, hx, rfl, rfl⟩ := he
    simp only [Net.pipeAll, Option.bind_eq_bind] at hx
    split at hx
    · cases hx; exact fin (keeps_refl rfl id)
    · simp only [Option.bind_eq_some_iff] at hx
      obtain ⟨si, hsi, ti, hti, sv, hsv, v, _, hx⟩ := hx
      cases hx
      exact fin (mo _ _ rfl (fun v => ⟨rfl, rfl, rfl, rfl⟩))
  case thru => obtain ⟨rfl, rfl⟩ := he; exact fin (keeps_refl rfl id)

theorem joined_of_op2 {E : Env U α} (hS : E.S.Lawful) {n m : NodeId} {a b c : Net U α} (ha : WF E.S n a)
    (hb : WF E.S n b) (o : Op2) (he : o.apply E a b n = some (c, m)) : ∃ g, Joined E.S a b c g := by
  cases o
  · exact ⟨_, (pipe_struct ha hb he).2.1⟩
  · exact ⟨_, (stack_struct ha hb he).1⟩
  · exact ⟨_, (branch_struct ha hb he).2.1⟩
  · exact ⟨_, (bus_struct hS ha hb he).2.2.1⟩
  · exact ⟨_, (binary_struct hS ha hb he).2.1⟩

theorem Joined.keeps_left {S : Units U α} {a b c : Net U α} {g} (h : Joined S a b c g) (id : NodeId) : KeepsNode Eq a c id := by
  intro i v hv hid
  exact ⟨i, v, h.left i v hv, hid, rfl, rfl, rfl⟩

theorem Joined.keeps_right {S : Units U α} {a b c : Net U α} {g} (h : Joined S a b c g) {id : NodeId}
    (hid : a.nodeIndex.get id = none) : KeepsNode Eq b c id := by
  intro i v hv hv'
  obtain ⟨id', h1, h2⟩ := h.right i v hv
  rw [hv'] at h2
  exact ⟨_, _, h1, h2 hid, rfl, rfl, rfl⟩

/-- `Follow E id bad n net m net'`: `net'` (when the next id is `m`) comes from `net` (when the next id is `n`) by
calls that are in range and not `bad`; the net may be combined with other nets on either side (on the right hand
side of a net that also has a node `id`, that is, a clone, the node is given a new id). -/
inductive Follow [DecidableEq α] (E : Env U α) (id : NodeId) (bad : Edit U α → Prop) (n : NodeId) (net : Net U α) :
    NodeId → Net U α → Prop
  | start : Follow E id bad n net n net
  | later {m m' x} (h : Follow E id bad n net m x) (hm : m ≤ m') : Follow E id bad n net m' x
  | edit {m m' x y} (h : Follow E id bad n net m x) (e : Edit U α) (hr : InRange x e) (hb : ¬ bad e)
      (he : e.apply E m x = some (y, m')) : Follow E id bad n net m' y
  | left {m m' x b y} (h : Follow E id bad n net m x) (hb : Reach E InRange m b) (o : Op2)
      (he : o.apply E x b m = some (y, m')) : Follow E id bad n net m' y
  | right {m m' x b y} (h : Follow E id bad n net m x) (hb : Reach E InRange m b) (o : Op2)
      (hne : contains b id = false) (he : o.apply E b x m = some (y, m')) : Follow E id bad n net m' y

theorem Follow.wf [DecidableEq α] {E : Env U α} (hS : E.S.Lawful) {id : NodeId} {bad : Edit U α → Prop} {n m : NodeId}
    {net net' : Net U α} (hw : WF E.S n net) (h : Follow E id bad n net m net') : WF E.S m net' ∧ n ≤ m := by
  induction h with
  | start => exact ⟨hw, Nat.le_refl _⟩
  | later _ hm ih => exact ⟨ih.1.mono hm, Nat.le_trans ih.2 hm⟩
  | edit _ e hr _ he ih =>
    have := wf_edit hS ih.1 e hr he
    exact ⟨this.1, Nat.le_trans ih.2 this.2⟩
  | left _ hb o he ih =>
    have := wf_op2 hS ih.1 (hb.wf hS) o he
    exact ⟨this.1, Nat.le_trans ih.2 this.2⟩
  | right _ hb o _ he ih =>
    have := wf_op2 hS (hb.wf hS) ih.1 o he
    exact ⟨this.1, Nat.le_trans ih.2 this.2⟩

/-- General form: steps satisfy `R`. -/
theorem Follow.keeps [DecidableEq α] {E : Env U α} (hS : E.S.Lawful) {id : NodeId} {bad : Edit U α → Prop} {n m : NodeId}
    {net net' : Net U α} (hw : WF E.S n net) (R : Eng U α → Eng U α → Prop) (hr : ∀ e, R e e)
    (ht : ∀ a b c, R a b → R b c → R a c)
    (hstep : ∀ m m' x y (e : Edit U α), n ≤ m → WF E.S m x → ¬ bad e → e.apply E m x = some (y, m') → KeepsNode R x y id)
    (h : Follow E id bad n net m net') : KeepsNode R net net' id := by
  induction h with
  | start => exact (keeps_refl rfl id).mono (fun e e' h => h ▸ hr e)
  | later _ _ ih => exact ih
  | edit hf e hir hb he ih =>
    have hx := hf.wf hS hw
    exact ih.trans (hstep _ _ _ _ e hx.2 hx.1 hb he) ht
  | left hf hb o he ih =>
    obtain ⟨g, hj⟩ := joined_of_op2 hS (hf.wf hS hw).1 (hb.wf hS) o he
    exact ih.trans ((hj.keeps_left id).mono (fun e e' h => h ▸ hr e)) ht
  | right hf hb o hne he ih =>
    obtain ⟨g, hj⟩ := joined_of_op2 hS (hb.wf hS) (hf.wf hS hw).1 o he
    refine ih.trans ((hj.keeps_right ?_).mono (fun e e' h => h ▸ hr e)) ht
    simpa [contains] using hne

theorem node_queries {S : Units U α} {net : Net U α} (h : Valid S net) {i : Nat} {v : Vertex U α}
    (hv : net.vertex[i]? = some v) :
    unitOf net v.id = some v.eng.unit ∧ inputsIn net v.id = some v.ins ∧ outputsIn net v.id = some v.outs := by
  have := h.get_of hv
  exact ⟨by simp [unitOf, this, hv], by simp [inputsIn, this, hv], by simp [outputsIn, this, hv]⟩

/-- **C06** (fresh handles): `push` returns an id that no node of any existing net has; the new node holds the unit. -/
theorem C06_push_fresh [DecidableEq α] (E : Env U α) (hS : E.S.Lawful) {n : NodeId} {net : Net U α} (h : Reach E InRange n net)
    (u : U) : contains net n = false ∧ unitOf (push E.S net n u) n = some (E.S.setSR net.sampleRate u) ∧
      ∀ other, Reach E InRange n other → contains other n = false := by
  have fresh : ∀ other, Reach E InRange n other → contains other n = false := by
    intro other ho
    have hw := ho.wf hS
    cases hg : other.nodeIndex.get n with
    | none => simp [contains, hg]
    | some i =>
      obtain ⟨v, hv, hid⟩ := (hw.valid.map _ _).1 hg
      have := hw.below i v hv
      omega
  refine ⟨fresh net h, ?_, fresh⟩
  have hv : (push E.S net n u).vertex[net.vertex.length]? = some (Vertex.new E.S n net.vertex.length (E.S.setSR net.sampleRate u)) := by
    simp [push]
  exact (node_queries (wf_push (h.wf hS) u).valid hv).1

/-- **C06** (same node): the handle returned by `push` keeps referring to a node with the same numbers of inputs and
outputs until it is deleted, whatever else is done. -/
theorem C06_handle_arity [DecidableEq α] (E : Env U α) (hS : E.S.Lawful) {n : NodeId} {net : Net U α} (h : Reach E InRange n net)
    (u : U) {m : NodeId} {net' : Net U α} (hf : Follow E n (Edit.deletes n) (n + 1) (push E.S net n u) m net') :
    inputsIn net' n = some (E.S.ins u) ∧ outputsIn net' n = some (E.S.outs u) := by
  have hw := wf_push (h.wf hS) u
  have hk := hf.keeps hS hw (fun _ _ => True) (fun _ => trivial) (fun _ _ _ _ _ => trivial) (by
    intro m m' x y e _ hx hb he
    by_cases hr : e.runs
    · exact (keeps_run hr he n).mono (fun _ _ _ => trivial)
    · exact (keeps_edit hx hr hb he).1)
  have hv : (push E.S net n u).vertex[net.vertex.length]? = some (Vertex.new E.S n net.vertex.length (E.S.setSR net.sampleRate u)) := by
    simp [push]
  obtain ⟨j, w, h1, h2, h3, h4, _⟩ := hk _ _ hv rfl
  have := node_queries (hf.wf hS hw).1.valid h1
  rw [h2, h3, h4] at this
  simpa [Vertex.new, hS.ins_setSR, hS.outs_setSR] using this.2

/-- **C06** (same unit): until the node is deleted or given a new unit, the handle refers to the unit that was pushed:
it has only been run, reset, told the sample rate or pinged. -/
theorem C06_handle_unit [DecidableEq α] (E : Env U α) (hS : E.S.Lawful) {n : NodeId} {net : Net U α} (h : Reach E InRange n net)
    (u : U) {m : NodeId} {net' : Net U α}
    (hf : Follow E n (fun e => e.deletes n ∨ e.swaps n) (n + 1) (push E.S net n u) m net') :
    ∃ u', unitOf net' n = some u' ∧ Evolves E.S u u' := by
  have hw := wf_push (h.wf hS) u
  have hk := hf.keeps hS hw (EngRun E.S) engRun_refl (fun _ _ _ => EngRun.trans) (by
    intro m m' x y e hm hx hb he
    by_cases hr : e.runs
    · exact keeps_run hr he n
    · exact ((keeps_edit hx hr (fun h => hb (Or.inl h)) he).2 (fun h => hb (Or.inr h)) (by omega)).mono (fun e e' h => h ▸ engRun_refl e))
  have hv : (push E.S net n u).vertex[net.vertex.length]? = some (Vertex.new E.S n net.vertex.length (E.S.setSR net.sampleRate u)) := by
    simp [push]
  obtain ⟨j, w, h1, h2, h3, h4, h5⟩ := hk _ _ hv rfl
  have := node_queries (hf.wf hS hw).1.valid h1
  rw [h2] at this
  refine ⟨_, this.1, ?_⟩
  have := (h5 rfl).2
  exact Evolves.trans (.setSR (.refl u) net.sampleRate) this

/-- **C06** (same unit, editing only): if moreover the net is not run, reset or reordered, the unit is exactly the one
that was pushed. -/
theorem C06_handle_exact [DecidableEq α] (E : Env U α) (hS : E.S.Lawful) {n : NodeId} {net : Net U α} (h : Reach E InRange n net)
    (u : U) {m : NodeId} {net' : Net U α}
    (hf : Follow E n (fun e => e.deletes n ∨ e.swaps n ∨ e.runs) (n + 1) (push E.S net n u) m net') :
    unitOf net' n = some (E.S.setSR net.sampleRate u) := by
  have hw := wf_push (h.wf hS) u
  have hk := hf.keeps hS hw Eq (fun _ => rfl) (fun _ _ _ => Eq.trans) (by
    intro m m' x y e hm hx hb he
    exact (keeps_edit hx (fun h => hb (Or.inr (Or.inr h))) (fun h => hb (Or.inl h)) he).2 (fun h => hb (Or.inr (Or.inl h))) (by omega))
  have hv : (push E.S net n u).vertex[net.vertex.length]? = some (Vertex.new E.S n net.vertex.length (E.S.setSR net.sampleRate u)) := by
    simp [push]
  obtain ⟨j, w, h1, h2, h3, h4, h5⟩ := hk _ _ hv rfl
  have := node_queries (hf.wf hS hw).1.valid h1
  rw [h2, ← h5] at this
  exact this.1

/-- **C06** (unambiguous): the ids of a net are distinct, one per node. -/
theorem C06_unambiguous [DecidableEq α] (E : Env U α) (hS : E.S.Lawful) {n : NodeId} {net : Net U α}
    (h : Reach E InRange n net) : (ids net).Nodup ∧ (ids net).length = size net :=
  ⟨(h.wf hS).valid.wired.ids_nodup, (h.wf hS).valid.wired.ids_size⟩

/-- **C06** (crossfade): `crossfade` is accepted exactly when the node exists and the arities match. -/
theorem C06_crossfade_accepts [DecidableEq α] (E : Env U α) (hS : E.S.Lawful) {n : NodeId} {net : Net U α}
    (h : Reach E InRange n net) (node : NodeId) (f : Fade) (t : α) (u : U) :
    (crossfade E.S net node f t u).isSome ↔
      (inputsIn net node = some (E.S.ins u) ∧ outputsIn net node = some (E.S.outs u)) := by
  have hv := (h.wf hS).valid
  simp only [crossfade, inputsIn, outputsIn, Option.bind_eq_bind]
  cases hi : net.nodeIndex.get node with
  | none => simp
  | some i =>
    obtain ⟨v, hvv, _⟩ := (hv.map node i).1 hi
    simp only [Option.bind_some, hvv, Option.map_some, Option.some.injEq]
    constructor
    · intro hx
      split at hx
      · rename_i hc; exact ⟨hc.1.symm, hc.2.symm⟩
      · cases hx
    · rintro ⟨h1, h2⟩
      rw [if_pos ⟨h1.symm, h2.symm⟩]
      split <;> rfl

/-- **C06** (fade in): `fade_in` always succeeds. It adds one node, under a fresh handle, with the arity of the given unit. -/
theorem C06_fade_in [DecidableEq α] (E : Env U α) (hS : E.S.Lawful) {n : NodeId} {net : Net U α}
    (h : Reach E InRange n net) (f : Fade) (t : α) (u : U) :
    contains net n = false ∧ ∃ net', fadeIn E.S net n f t u = some net' ∧ size net' = size net + 1 ∧ contains net' n = true ∧
      inputsIn net' n = some (E.S.ins u) ∧ outputsIn net' n = some (E.S.outs u) := by
  refine ⟨(C06_push_fresh E hS h u).1, ?_⟩
  let d := E.S.dummy (E.S.ins u) (E.S.outs u)
  have hr : Reach E InRange (n + 1) (push E.S net n d) := h.edit (.push d) trivial rfl
  have hg : (push E.S net n d).nodeIndex.get n = some net.vertex.length := by
    refine ((wf_push (h.wf hS) d).valid.map n _).2 ⟨Vertex.new E.S n net.vertex.length (E.S.setSR net.sampleRate d), ?_, rfl⟩
    simp [push]
  have hgv : (push E.S net n d).vertex[net.vertex.length]? =
      some (Vertex.new E.S n net.vertex.length (E.S.setSR net.sampleRate d)) := by simp [push]
  have e1 : inputsIn (push E.S net n d) n = some (E.S.ins u) := by
    simp only [inputsIn, hg, Option.bind_some, hgv, Option.map_some, Vertex.new, hS.ins_setSR, d, hS.ins_dummy]
  have e2 : outputsIn (push E.S net n d) n = some (E.S.outs u) := by
    simp only [outputsIn, hg, Option.bind_some, hgv, Option.map_some, Vertex.new, hS.outs_setSR, d, hS.outs_dummy]
  obtain ⟨net', hn⟩ := Option.isSome_iff_exists.1 ((C06_crossfade_accepts E hS hr n f t u).2 ⟨e1, e2⟩)
  have hs := (valid_crossfade (wf_push (h.wf hS) d).valid hn).2
  have key : net'.nodeIndex = (push E.S net n d).nodeIndex ∧ net'.vertex.length = (push E.S net n d).vertex.length ∧
      ∀ (i : Nat), (net'.vertex[i]?).map (fun v => (v.ins, v.outs)) = ((push E.S net n d).vertex[i]?).map (fun v => (v.ins, v.outs)) := by
    simp only [crossfade, hg, hgv, Option.bind_eq_bind, Option.bind_some] at hn
    split at hn
    · split at hn
      · cases hn; exact ⟨rfl, rfl, fun _ => rfl⟩
      · cases hn
        refine ⟨rfl, by simp, fun i => ?_⟩
        by_cases hi : net.vertex.length = i
        · subst hi
          rw [List.getElem?_set_self (List.getElem?_eq_some_iff.1 hgv).1, hgv]; rfl
        · rw [List.getElem?_set_ne hi]
    · cases hn
  refine ⟨net', hn, ?_, ?_, ?_, ?_⟩
  · rw [size, key.2.1]; simp [push, size]
  · simp [contains, key.1, hg]
  · have := key.2.2 net.vertex.length
    rw [inputsIn, hg] at e1
    rw [inputsIn, key.1, hg]
    simp only [Option.bind_some] at e1 ⊢
    have h2 := congrArg (Option.map Prod.fst) this
    simp only [Option.map_map] at h2
    exact h2.trans e1
  · have := key.2.2 net.vertex.length
    rw [outputsIn, hg] at e2
    rw [outputsIn, key.1, hg]
    simp only [Option.bind_some] at e2 ⊢
    have h2 := congrArg (Option.map Prod.snd) this
    simp only [Option.map_map] at h2
    exact h2.trans e2

/-- C06: fading in a unit whose numbers of inputs and outputs differ. -/
example : gen1.ins ≠ gen1.outs ∧ ∃ net', fadeIn demo demoNet 3 .smooth 1 gen1 = some net' ∧ outputsIn net' 3 = some gen1.outs := by
  refine ⟨by decide, _, rfl, rfl⟩

/-- C06: the handle of a pushed generator survives pushing another node, running, removing a node with a smaller index. -/
example : ∃ m net', Follow demoEnv 3 (fun e => e.deletes 3 ∨ e.swaps 3) 4 (push demo demoNet 3 gen1) m net' ∧
    unitOf net' 3 = some { gen1 with k := 2 } := by
  have h1 : Follow demoEnv 3 (fun e => e.deletes 3 ∨ e.swaps 3) 4 (push demo demoNet 3 gen1) _ _ := .start
  have h2 := h1.edit (.push fil1) trivial (by simp [Edit.deletes, Edit.swaps]) rfl
  have h3 := h2.edit (.tick [7]) trivial (by simp [Edit.deletes, Edit.swaps]) rfl
  have h4 := h3.edit (.remove 0) trivial (by simp [Edit.deletes, Edit.swaps]) rfl
  exact ⟨_, _, h4, rfl⟩

end Fundsp.Net
