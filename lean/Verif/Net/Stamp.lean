import Verif.Net.BackendLemmas

/-! # Revision stamps of nodes

How the calls of the frontend change `revision`, the edit queue and the `changed` stamps of the nodes. -/
namespace Fundsp.Net
variable {U α : Type}

/-- Vertices of `b` are vertices of `a` with the same id and stamp. -/
def Keep (a b : List (Vertex U α)) : Prop := ∀ w ∈ b, ∃ v ∈ a, v.id = w.id ∧ v.changed = w.changed

theorem Keep.refl (a : List (Vertex U α)) : Keep a a := fun w hw => ⟨w, hw, rfl, rfl⟩
theorem Keep.trans {a b c : List (Vertex U α)} (h : Keep a b) (h' : Keep b c) : Keep a c := by
  intro w hw
  obtain ⟨v, hv, h1, h2⟩ := h' w hw
  obtain ⟨u, hu, h3, h4⟩ := h v hv
  exact ⟨u, hu, h3.trans h1, h4.trans h2⟩

theorem keep_map {f : Vertex U α → Vertex U α} (hf : ∀ v, (f v).id = v.id ∧ (f v).changed = v.changed) (a : List (Vertex U α)) :
    Keep a (a.map f) := by
  intro w hw
  obtain ⟨v, hv, rfl⟩ := List.mem_map.1 hw
  exact ⟨v, hv, (hf v).1.symm, (hf v).2.symm⟩

theorem keep_modify {f : Vertex U α → Vertex U α} (a : List (Vertex U α)) (i : Nat)
    (hf : ∀ v, (f v).id = v.id ∧ (f v).changed = v.changed := by intro _; exact ⟨rfl, rfl⟩) :
    Keep a (a.modify i f) := by
  intro w hw
  obtain ⟨j, hj⟩ := List.mem_iff_getElem?.1 hw
  rw [List.getElem?_modify] at hj
  cases hv : a[j]? with
  | none => rw [hv] at hj; simp at hj
  | some v =>
    rw [hv] at hj
    have hm : v ∈ a := List.mem_of_getElem? hv
    by_cases h : i = j
    · simp only [h, if_true, Option.map_eq_map, Option.map_some, Option.some.injEq] at hj
      subst hj
      exact ⟨v, hm, (hf v).1.symm, (hf v).2.symm⟩
    · simp only [h, if_false, Option.map_eq_map, Option.map_some, Option.some.injEq] at hj
      subst hj
      exact ⟨v, hm, rfl, rfl⟩

theorem keep_take (a : List (Vertex U α)) (n : Nat) : Keep a (a.take n) := fun w hw => ⟨w, List.mem_of_mem_take hw, rfl, rfl⟩

theorem keep_set {a : List (Vertex U α)} {v : Vertex U α} (hv : v ∈ a) (i : Nat) : Keep a (a.set i v) := by
  intro w hw
  rcases List.mem_or_eq_of_mem_set hw with h | h
  · exact ⟨w, h, rfl, rfl⟩
  · exact ⟨v, hv, by rw [h], by rw [h]⟩

theorem keep_pingAll (S : Units U α) (probe : Bool) (vs : List (Vertex U α)) : ∀ h, Keep vs (pingAll S probe h vs).1 := by
  induction vs with
  | nil => intro h w hw; simp [pingAll] at hw
  | cons v vs ih =>
    intro h w hw
    simp only [pingAll, List.mem_cons] at hw
    rcases hw with rfl | hw
    · exact ⟨v, by simp, rfl, rfl⟩
    · obtain ⟨u, hu, h1⟩ := ih _ w hw
      exact ⟨u, by simp [hu], h1⟩

theorem keep_determineOrder (S : Units U α) (seed : Nat → Nat) (h0 : Nat) (net : Net U α) : Keep net.vertex (determineOrder S seed h0 net).vertex :=
  ((keep_map (f := Vertex.updateSourceVertex) (fun _ => ⟨rfl, rfl⟩) net.vertex).trans (keep_pingAll S true _ _)).trans (keep_pingAll S false _ _)

theorem keep_ready (S : Units U α) (seed : Nat → Nat) (h0 : Nat) (net : Net U α) : Keep net.vertex (ready S seed h0 net).vertex := by
  unfold ready
  split
  · exact Keep.refl _
  · exact keep_determineOrder S seed h0 net

theorem keep_tickNodes (S : Units U α) (sr : α) (x : List α) (is : List Nat) : ∀ vs : List (Vertex U α), Keep vs (is.foldl (tickNode S sr x) vs) := by
  induction is with
  | nil => intro vs; exact Keep.refl _
  | cons i is ih => intro vs; exact (keep_modify vs i).trans (ih _)

/-- Fields that do not concern the graph. -/
structure SameRest (a b : Net U α) : Prop where
  rev : b.revision = a.revision
  back : b.hasBackend = a.hasBackend
  queue : ∃ l, b.editQueue = a.editQueue ++ l

theorem SameRest.refl (a : Net U α) : SameRest a a := ⟨rfl, rfl, [], by simp⟩
theorem SameRest.trans {a b c : Net U α} (h : SameRest a b) (h' : SameRest b c) : SameRest a c := by
  obtain ⟨l, hl⟩ := h.queue
  obtain ⟨k, hk⟩ := h'.queue
  exact ⟨h'.rev.trans h.rev, h'.back.trans h.back, l ++ k, by rw [hk, hl, List.append_assoc]⟩

theorem rest_ready (S : Units U α) (seed : Nat → Nat) (h0 : Nat) (net : Net U α) : SameRest net (ready S seed h0 net) := by
  unfold ready
  split
  · exact SameRest.refl _
  · exact ⟨rfl, rfl, [], by simp [determineOrder]⟩

/-- **Specification**: the calls that change the unit of a node: `replace`, `reset` and a change of sample rate. -/
def Touches [DecidableEq α] (net : Net U α) : Edit U α → NodeId → Prop
  | .replace n _, id => id = n
  | .reset, _ => True
  | .setSampleRate r, _ => net.sampleRate ≠ r
  | _, _ => False

/-- Effect of a call: nodes either are new, or keep their stamp, or are touched and get the present revision. -/
structure Stamp (T : NodeId → Prop) (n m : NodeId) (a b : Net U α) : Prop extends SameRest a b where
  node : ∀ w ∈ b.vertex, (w.id = n ∧ n < m ∧ w.changed = 0) ∨
    ∃ v ∈ a.vertex, v.id = w.id ∧ ((T w.id ∧ w.changed = a.revision) ∨ (¬ T w.id ∧ w.changed = v.changed))

theorem stamp_keep {n m : NodeId} {a b : Net U α} {T : NodeId → Prop} (hT : ∀ id, ¬ T id) (hr : SameRest a b) (h : Keep a.vertex b.vertex) :
    Stamp T n m a b :=
  ⟨hr, fun w hw => Or.inr (by
    obtain ⟨v, hv, h1, h2⟩ := h w hw
    exact ⟨v, hv, h1, Or.inr ⟨hT _, h2.symm⟩⟩)⟩

theorem stamp_push (S : Units U α) {n : NodeId} {a : Net U α} (u : U) {b : Net U α} {T : NodeId → Prop} (hT : ∀ id, ¬ T id)
    (hr : SameRest (push S a n u) b) (h : Keep (push S a n u).vertex b.vertex) : Stamp T n (n + 1) a b := by
  refine ⟨SameRest.trans (b := push S a n u) ⟨rfl, rfl, [], by simp [push]⟩ hr, ?_⟩
  intro w hw
  obtain ⟨v, hv, h1, h2⟩ := h w hw
  simp only [push, List.mem_append, List.mem_singleton] at hv
  rcases hv with hv | rfl
  · exact Or.inr ⟨v, hv, h1, Or.inr ⟨hT _, h2.symm⟩⟩
  · exact Or.inl ⟨h1.symm, Nat.lt_succ_self _, h2.symm⟩

theorem rest_pipeOutput {a b : Net U α} {s : NodeId} (h : pipeOutput a s = some b) : SameRest a b ∧ Keep a.vertex b.vertex := by
  simp only [pipeOutput, Option.bind_eq_bind, Option.bind_eq_some_iff] at h
  obtain ⟨_, _, _, _, h⟩ := h
  cases h
  exact ⟨⟨rfl, rfl, [], by simp⟩, Keep.refl _⟩

theorem rest_pipeInput {a b : Net U α} {s : NodeId} (h : pipeInput a s = some b) : SameRest a b ∧ Keep a.vertex b.vertex := by
  simp only [pipeInput, Option.bind_eq_bind, Option.bind_eq_some_iff] at h
  obtain ⟨_, _, _, _, h⟩ := h
  cases h
  exact ⟨⟨rfl, rfl, [], by simp [wireAll]⟩, keep_modify _ _⟩

theorem rest_crossfade {S : Units U α} {a b : Net U α} {s : NodeId} {f : Fade} {t : α} {u : U} (h : crossfade S a s f t u = some b) :
    SameRest a b ∧ Keep a.vertex b.vertex := by
  simp only [crossfade, Option.bind_eq_bind, Option.bind_eq_some_iff] at h
  obtain ⟨i, _, v, hv, h⟩ := h
  split at h
  · split at h
    · cases h; exact ⟨⟨rfl, rfl, _, rfl⟩, Keep.refl _⟩
    · cases h
      refine ⟨⟨rfl, rfl, [], by simp⟩, ?_⟩
      intro w hw
      rcases List.mem_or_eq_of_mem_set hw with h | h
      · exact ⟨w, h, rfl, rfl⟩
      · exact ⟨v, List.mem_of_getElem? hv, by rw [h], by rw [h]⟩
  · cases h

theorem rest_remove2 {a : Net U α} {s : NodeId} {link : Bool} {p : Net U α × U} (h : remove2 a s link = some p) :
    SameRest a p.1 ∧ Keep a.vertex p.1.vertex := by
  simp only [remove2, Option.bind_eq_bind, Option.bind_eq_some_iff] at h
  obtain ⟨i, _, v, hv, h⟩ := h
  have hm : ∀ (f : Port → Port) (w : Vertex U α), (w.mapSource f).id = w.id ∧ (w.mapSource f).changed = w.changed := fun f w => ⟨rfl, rfl⟩
  split at h
  · split at h
    · cases h
      exact ⟨⟨rfl, rfl, [], by simp⟩, (keep_map (hm _) _).trans (keep_take _ _)⟩
    · obtain ⟨lv, hlv, h⟩ := Option.bind_eq_some_iff.1 h
      cases h
      refine ⟨⟨rfl, rfl, [], by simp⟩, ?_⟩
      exact ((((keep_map (hm _) _).trans (keep_set (List.mem_of_getElem? hlv) _)).trans (keep_take _ _)).trans (keep_map (hm _) _)).trans
        (keep_modify _ _)
  · cases h

theorem stamp_edit [DecidableEq α] {E : Env U α} {n m : NodeId} {net net' : Net U α} (hv : Valid E.S net) (e : Edit U α)
    (he : e.apply E n net = some (net', m)) : Stamp (Touches net e) n m net net' := by
  have km : ∀ (f : Vertex U α → List Edge) (vs : List (Vertex U α)) (i : Nat), Keep vs (vs.modify i (fun v => { v with source := f v })) :=
    fun f vs i => keep_modify vs i
  cases e <;> simp only [Edit.apply, Option.map_eq_some_iff, Prod.mk.injEq, Option.some.injEq] at he
  case push u =>
    obtain ⟨rfl, rfl⟩ := he
    exact stamp_push E.S u (fun _ h => h) (SameRest.refl _) (Keep.refl _)
  case fadeIn f t u =>
    obtain ⟨x, hx, rfl, rfl⟩ := he
    have := rest_crossfade hx
    exact stamp_push E.S _ (fun _ h => h) this.1 this.2
  case chain u =>
    obtain ⟨x, hx, rfl, rfl⟩ := he
    simp only [chain, Option.bind_eq_bind, Option.bind_eq_some_iff] at hx
    obtain ⟨i, hi, hx⟩ := hx
    have key : ∀ y : Net U α, SameRest (push E.S net n u) y ∧ Keep (push E.S net n u).vertex y.vertex → pipeOutput y n = some x →
        Stamp (Touches net (.chain u)) n (n + 1) net x := fun y h1 h2 =>
      stamp_push E.S _ (fun _ h => h) (h1.1.trans (rest_pipeOutput h2).1) (h1.2.trans (rest_pipeOutput h2).2)
    split at hx
    · split at hx
      · obtain ⟨y, hy, hx⟩ := Option.bind_eq_some_iff.1 hx
        exact key y (rest_pipeInput hy) hx
      · exact key _ ⟨SameRest.refl _, Keep.refl _⟩ hx
    · rw [Option.bind_some] at hx
      refine key _ ?_ hx
      exact ⟨⟨rfl, rfl, [], by simp⟩, km _ _ _⟩
  case setSource a b c =>
    obtain ⟨x, hx, rfl, rfl⟩ := he
    simp only [Net.setSource, Option.bind_eq_bind, Option.bind_eq_some_iff] at hx
    obtain ⟨i, hi, v, _, hx⟩ := hx
    split at hx
    · obtain ⟨hne, hx⟩ := ite_none_right hx
      rw [Option.bind_eq_some_iff] at hx
      obtain ⟨p, hp, hx⟩ := hx
      obtain ⟨_, hx⟩ := ite_none_right hx
      cases hx
      exact stamp_keep (fun _ h => h) ⟨rfl, rfl, [], by simp [setVertexSource]⟩ (km _ _ _)
    · cases hx
  case setOutputSource a b =>
    obtain ⟨x, hx, rfl, rfl⟩ := he
    simp only [setOutputSource] at hx
    split at hx
    · simp only [Option.bind_eq_bind, Option.bind_eq_some_iff] at hx
      obtain ⟨_, _, _, _, hx⟩ := hx
      cases hx
      exact stamp_keep (fun _ h => h) ⟨rfl, rfl, [], by simp [setOutputEdge]⟩ (Keep.refl _)
    · cases hx
  case remove s =>
    obtain ⟨x, hx, rfl, rfl⟩ := he
    have := rest_remove2 hx
    exact stamp_keep (fun _ h => h) this.1 this.2
  case removeLink s =>
    obtain ⟨x, hx, rfl, rfl⟩ := he
    have := rest_remove2 hx
    exact stamp_keep (fun _ h => h) this.1 this.2
  case replace s u =>
    obtain ⟨x, hx, rfl, rfl⟩ := he
    simp only [replace, Option.bind_eq_bind, Option.bind_eq_some_iff] at hx
    obtain ⟨i, hi, v, hvi, hx⟩ := hx
    split at hx
    · cases hx
      refine ⟨⟨rfl, rfl, [], by simp⟩, ?_⟩
      intro w hw
      obtain ⟨j, hj⟩ := List.mem_iff_getElem?.1 hw
      have hid : v.id = s := by
        obtain ⟨v', h1, h2⟩ := (hv.map s i).1 hi
        rw [hvi] at h1; cases h1; exact h2
      rw [List.getElem?_set] at hj
      split at hj
      · split at hj
        · cases hj
          exact Or.inr ⟨v, List.mem_of_getElem? hvi, rfl, Or.inl ⟨hid, rfl⟩⟩
        · cases hj
      · rename_i hne
        refine Or.inr ⟨w, List.mem_of_getElem? hj, rfl, Or.inr ⟨?_, rfl⟩⟩
        intro hc
        have : net.nodeIndex.get w.id = some j := (hv.map _ _).2 ⟨w, hj, rfl⟩
        have hc : w.id = s := hc
        rw [hc, hi] at this
        exact hne (Option.some.inj this)
    · cases hx
  case crossfade s f t u =>
    obtain ⟨x, hx, rfl, rfl⟩ := he
    have := rest_crossfade hx
    exact stamp_keep (fun _ h => h) this.1 this.2
  case connect s sp t tp =>
    obtain ⟨x, hx, rfl, rfl⟩ := he
    simp only [connect] at hx
    split at hx
    · cases hx
    · simp only [Option.bind_eq_bind, Option.bind_eq_some_iff] at hx
      obtain ⟨_, _, _, _, _, _, hx⟩ := hx
      split at hx
      · cases hx
        exact stamp_keep (fun _ h => h) ⟨rfl, rfl, [], by simp [setVertexEdge]⟩ (km _ _ _)
      · cases hx
  case disconnect s p =>
    obtain ⟨x, hx, rfl, rfl⟩ := he
    simp only [disconnect, Option.bind_eq_bind, Option.bind_eq_some_iff] at hx
    obtain ⟨_, _, _, _, hx⟩ := hx
    split at hx
    · cases hx
      exact stamp_keep (fun _ h => h) ⟨rfl, rfl, [], by simp [setVertexSource]⟩ (km _ _ _)
    · cases hx
  case connectInput i t tp =>
    obtain ⟨x, hx, rfl, rfl⟩ := he
    simp only [connectInput, Option.bind_eq_bind, Option.bind_eq_some_iff] at hx
    obtain ⟨_, _, _, _, hx⟩ := hx
    split at hx
    · cases hx
      exact stamp_keep (fun _ h => h) ⟨rfl, rfl, [], by simp [setVertexEdge]⟩ (km _ _ _)
    · cases hx
  case pipeInput t =>
    obtain ⟨x, hx, rfl, rfl⟩ := he
    have := rest_pipeInput hx
    exact stamp_keep (fun _ h => h) this.1 this.2
  case connectOutput s sp o =>
    obtain ⟨x, hx, rfl, rfl⟩ := he
    simp only [connectOutput, Option.bind_eq_bind, Option.bind_eq_some_iff] at hx
    obtain ⟨_, _, hx⟩ := hx
    split at hx
    · cases hx
      exact stamp_keep (fun _ h => h) ⟨rfl, rfl, [], by simp [setOutputEdge]⟩ (Keep.refl _)
    · cases hx
  case disconnectOutput o =>
    obtain ⟨x, hx, rfl, rfl⟩ := he
    simp only [disconnectOutput] at hx
    split at hx
    · cases hx
      exact stamp_keep (fun _ h => h) ⟨rfl, rfl, [], by simp [setOutputEdge]⟩ (Keep.refl _)
    · cases hx
  case pipeOutput s =>
    obtain ⟨x, hx, rfl, rfl⟩ := he
    have := rest_pipeOutput hx
    exact stamp_keep (fun _ h => h) this.1 this.2
  case passThrough i o =>
    obtain ⟨x, hx, rfl, rfl⟩ := he
    simp only [passThrough] at hx
    split at hx
    · cases hx
      exact stamp_keep (fun _ h => h) ⟨rfl, rfl, [], by simp [setOutputEdge]⟩ (Keep.refl _)
    · cases hx
  case pipeAll s t =>
    obtain ⟨x, hx, rfl, rfl⟩ := he
    simp only [pipeAll] at hx
    split at hx
    · cases hx; exact stamp_keep (fun _ h => h) (SameRest.refl _) (Keep.refl _)
    · simp only [Option.bind_eq_bind, Option.bind_eq_some_iff] at hx
      obtain ⟨_, _, _, _, _, _, _, _, hx⟩ := hx
      cases hx
      exact stamp_keep (fun _ h => h) ⟨rfl, rfl, [], by simp [wireAll]⟩ (km _ _ _)
  case thru =>
    obtain ⟨rfl, rfl⟩ := he
    exact stamp_keep (fun _ h => h) ⟨rfl, rfl, [], by simp [thru]⟩ (Keep.refl _)
  case error =>
    obtain ⟨rfl, rfl⟩ := he
    exact stamp_keep (fun _ h => h) (rest_ready _ _ _ _) (keep_ready _ _ _ _)
  case tick x =>
    obtain ⟨rfl, rfl⟩ := he
    refine stamp_keep (fun _ h => h) ?_ ?_
    · exact (rest_ready E.S E.seed E.hash0 net).trans (c := (tick E.S E.seed E.hash0 net x).1) ⟨rfl, rfl, [], by simp [tick, tickOrdered, ready]⟩
    · exact (keep_ready E.S E.seed E.hash0 net).trans (keep_tickNodes _ _ _ _ _)
  case reset =>
    obtain ⟨rfl, rfl⟩ := he
    have h := rest_ready E.S E.seed E.hash0 { net with vertex := net.vertex.map (fun v =>
      { v with eng := { v.eng with unit := E.S.reset v.eng.unit }, changed := net.revision }) }
    have k := keep_ready E.S E.seed E.hash0 { net with vertex := net.vertex.map (fun v =>
      { v with eng := { v.eng with unit := E.S.reset v.eng.unit }, changed := net.revision }) }
    refine ⟨⟨h.rev, h.back, h.queue⟩, ?_⟩
    intro w hw
    obtain ⟨v, hv1, h1, h2⟩ := k w hw
    obtain ⟨u, hu, rfl⟩ := List.mem_map.1 hv1
    exact Or.inr ⟨u, hu, h1, Or.inl ⟨trivial, h2.symm⟩⟩
  case setSampleRate r =>
    obtain ⟨rfl, rfl⟩ := he
    unfold setSampleRate
    split
    · rename_i hr
      exact stamp_keep (fun _ h => h hr) (SameRest.refl _) (Keep.refl _)
    · rename_i hr
      have h := rest_ready E.S E.seed E.hash0 { net with sampleRate := r, vertex := net.vertex.map (fun v =>
        { v with eng := { v.eng with unit := E.S.setSR r v.eng.unit }, changed := net.revision }) }
      have k := keep_ready E.S E.seed E.hash0 { net with sampleRate := r, vertex := net.vertex.map (fun v =>
        { v with eng := { v.eng with unit := E.S.setSR r v.eng.unit }, changed := net.revision }) }
      refine ⟨⟨h.rev, h.back, h.queue⟩, ?_⟩
      intro w hw
      obtain ⟨v, hv1, h1, h2⟩ := k w hw
      obtain ⟨u, hu, rfl⟩ := List.mem_map.1 hv1
      exact Or.inr ⟨u, hu, h1, Or.inl ⟨hr, h2.symm⟩⟩

end Fundsp.Net
