import Verif.Net.BackendProps

/-! # Sample rates of the units of a net: lemmas for `RateProps` -/
namespace Fundsp.Net
variable {U α : Type}

/-- `rate u` is the sample rate unit `u` was last told: only `set_sample_rate` changes it. -/
structure Tells (S : Units U α) (rate : U → α) : Prop where
  setSR : ∀ r u, rate (S.setSR r u) = r
  reset : ∀ u, rate (S.reset u) = rate u
  ping : ∀ p h u, rate (S.ping p h u).1 = rate u
  tick : ∀ u x, rate (S.utick u x).1 = rate u

/-- The unit of a node, and the units that are to be faded in there, are at rate `r`. -/
def EngAt (rate : U → α) (r : α) (e : Eng U α) : Prop :=
  rate e.unit = r ∧ (∀ u, e.next.unit = some u → rate u = r) ∧ ∀ u, e.latest.unit = some u → rate u = r

/-- All units of the net — running, being faded in, or queued for the backend — are at the sample rate of the net. -/
def AtRate (rate : U → α) (net : Net U α) : Prop :=
  (∀ v ∈ net.vertex, EngAt rate net.sampleRate v.eng) ∧ ∀ d ∈ net.editQueue, ∀ u, d.unit = some u → rate u = net.sampleRate

/-- No unit waits to be faded in. -/
def Settled (net : Net U α) : Prop :=
  (∀ v ∈ net.vertex, v.eng.next.unit = none ∧ v.eng.latest.unit = none) ∧ ∀ d ∈ net.editQueue, d.unit = none

/-- The two vertices are the same node with the same stamp and units. -/
structure SameNode (v w : Vertex U α) : Prop where
  eng : v.eng = w.eng
  id : v.id = w.id
  changed : v.changed = w.changed

theorem SameNode.refl (v : Vertex U α) : SameNode v v := ⟨rfl, rfl, rfl⟩
theorem SameNode.trans {u v w : Vertex U α} (h : SameNode u v) (h' : SameNode v w) : SameNode u w :=
  ⟨h.eng.trans h'.eng, h.id.trans h'.id, h.changed.trans h'.changed⟩

/-- The nodes and queued edits of `b` are among those of `a`. -/
structure Heard (a b : Net U α) : Prop where
  vertex : ∀ v ∈ b.vertex, ∃ w ∈ a.vertex, SameNode v w
  queue : ∀ d ∈ b.editQueue, d ∈ a.editQueue
  rate : b.sampleRate = a.sampleRate

theorem Heard.refl (a : Net U α) : Heard a a := ⟨fun v hv => ⟨v, hv, .refl v⟩, fun _ h => h, rfl⟩

theorem Heard.at {rate : U → α} {a b : Net U α} (h : Heard a b) (ha : AtRate rate a) : AtRate rate b := by
  refine ⟨fun v hv => ?_, fun d hd => ?_⟩
  · obtain ⟨w, hw, e⟩ := h.vertex v hv
    rw [h.rate, e.eng]; exact ha.1 w hw
  · rw [h.rate]; exact ha.2 d (h.queue d hd)

theorem mem_modify {T : Type} {l : List T} {i : Nat} {f : T → T} {x : T} (h : x ∈ l.modify i f) : x ∈ l ∨ ∃ y ∈ l, x = f y := by
  obtain ⟨k, hk, rfl⟩ := List.mem_iff_getElem.1 h
  rw [List.getElem_modify]
  split
  · exact Or.inr ⟨_, List.getElem_mem _, rfl⟩
  · exact Or.inl (List.getElem_mem _)

theorem heard_modify (net : Net U α) (i : Nat) (f : Vertex U α → Vertex U α) (hf : ∀ v, SameNode (f v) v) {b : Net U α}
    (hv : b.vertex = net.vertex.modify i f) (hq : b.editQueue = net.editQueue) (hr : b.sampleRate = net.sampleRate) : Heard net b := by
  refine ⟨fun v hm => ?_, fun d hd => hq ▸ hd, hr⟩
  rw [hv] at hm
  rcases mem_modify hm with h | ⟨y, hy, rfl⟩
  · exact ⟨v, h, .refl v⟩
  · exact ⟨y, hy, hf y⟩

theorem heard_same {a b : Net U α} (hv : b.vertex = a.vertex) (hq : b.editQueue = a.editQueue) (hr : b.sampleRate = a.sampleRate) : Heard a b :=
  ⟨fun v h => ⟨v, hv ▸ h, .refl v⟩, fun d hd => hq ▸ hd, hr⟩

theorem Heard.trans {a b c : Net U α} (h : Heard a b) (h' : Heard b c) : Heard a c := by
  refine ⟨fun v hv => ?_, fun d hd => h.queue d (h'.queue d hd), h'.rate.trans h.rate⟩
  obtain ⟨w, hw, e⟩ := h'.vertex v hv
  obtain ⟨x, hx, e'⟩ := h.vertex w hw
  exact ⟨x, hx, e.trans e'⟩

theorem heard_vertexSource (net : Net U α) (i c : Nat) (p : Port) : Heard net (setVertexSource net i c p) :=
  heard_modify net i (fun v => { v with source := v.source.modify c (·.setSource p) }) (fun _ => ⟨rfl, rfl, rfl⟩) rfl rfl rfl
theorem heard_vertexEdge (net : Net U α) (i c : Nat) (e : Edge) : Heard net (setVertexEdge net i c e) :=
  heard_modify net i (fun v => { v with source := v.source.set c e }) (fun _ => ⟨rfl, rfl, rfl⟩) rfl rfl rfl
theorem heard_wireAll (net : Net U α) (i : Nat) (f : Nat → Port) : Heard net (wireAll net i f) :=
  heard_modify net i (fun v => { v with source := v.source.mapIdx (fun c e => if c < v.ins then ⟨f c, .loc i c⟩ else e) }) (fun _ => ⟨rfl, rfl, rfl⟩) rfl rfl rfl

theorem heard_setSource {net net' : Net U α} {n : NodeId} {c : Nat} {s : Source} (h : setSource net n c s = some net') : Heard net net' := by
  simp only [setSource, Option.bind_eq_bind, Option.bind_eq_some_iff] at h
  obtain ⟨i, hi, v, hv, h⟩ := h
  have hgo : ∀ o : Option Port, (o.bind fun p => if c < v.source.length then some (setVertexSource net i c p) else none) = some net' →
      Heard net net' := by
    intro o h
    rw [Option.bind_eq_some_iff] at h
    obtain ⟨p, hp, h⟩ := h
    split at h
    · cases h; exact heard_vertexSource net i c p
    · cases h
  by_cases hc : c < v.ins
  · rw [if_pos hc] at h
    cases s with
    | loc id p =>
      by_cases hn : (id != n) = true
      · rw [if_pos hn] at h; exact hgo _ h
      · rw [if_neg hn] at h; cases h
    | glob p => exact hgo (resolveSource net (.glob p)) h
    | zero => exact hgo (resolveSource net .zero) h
  · rw [if_neg hc] at h; cases h

theorem heard_setOutputSource {net net' : Net U α} {c : Nat} {s : Source} (h : setOutputSource net c s = some net') : Heard net net' := by
  simp only [setOutputSource, Option.bind_eq_bind] at h
  split at h
  · simp only [Option.bind_eq_some_iff] at h
    obtain ⟨p, hp, e, he, h⟩ := h
    cases h; exact heard_same rfl rfl rfl
  · cases h

theorem heard_connect {net net' : Net U α} {s t : NodeId} {sp tp : Nat} (h : connect net s sp t tp = some net') : Heard net net' := by
  simp only [connect, Option.bind_eq_bind] at h
  split at h
  · cases h
  · simp only [Option.bind_eq_some_iff] at h
    obtain ⟨_, _, i, _, v, _, h⟩ := h
    split at h
    · cases h; exact heard_vertexEdge ..
    · cases h

theorem heard_disconnect {net net' : Net U α} {n : NodeId} {p : Nat} (h : disconnect net n p = some net') : Heard net net' := by
  simp only [disconnect, Option.bind_eq_bind, Option.bind_eq_some_iff] at h
  obtain ⟨i, _, v, _, h⟩ := h
  split at h
  · cases h; exact heard_vertexSource ..
  · cases h

theorem heard_connectInput {net net' : Net U α} {t : NodeId} {g tp : Nat} (h : connectInput net g t tp = some net') : Heard net net' := by
  simp only [connectInput, Option.bind_eq_bind, Option.bind_eq_some_iff] at h
  obtain ⟨i, _, v, _, h⟩ := h
  split at h
  · cases h; exact heard_vertexEdge ..
  · cases h

theorem heard_pipeInput {net net' : Net U α} {t : NodeId} (h : pipeInput net t = some net') : Heard net net' := by
  simp only [pipeInput, Option.bind_eq_bind, Option.bind_eq_some_iff] at h
  obtain ⟨i, _, v, _, h⟩ := h
  cases h; exact heard_wireAll ..

theorem heard_connectOutput {net net' : Net U α} {s : NodeId} {sp o : Nat} (h : connectOutput net s sp o = some net') : Heard net net' := by
  simp only [connectOutput, Option.bind_eq_bind, Option.bind_eq_some_iff] at h
  obtain ⟨i, _, h⟩ := h
  split at h
  · cases h; exact heard_same rfl rfl rfl
  · cases h

theorem heard_disconnectOutput {net net' : Net U α} {o : Nat} (h : disconnectOutput net o = some net') : Heard net net' := by
  simp only [disconnectOutput] at h
  split at h
  · cases h; exact heard_same rfl rfl rfl
  · cases h

theorem heard_pipeOutput {net net' : Net U α} {s : NodeId} (h : pipeOutput net s = some net') : Heard net net' := by
  simp only [pipeOutput, Option.bind_eq_bind, Option.bind_eq_some_iff] at h
  obtain ⟨i, _, v, _, h⟩ := h
  cases h; exact heard_same rfl rfl rfl

theorem heard_passThrough {net net' : Net U α} {i o : Nat} (h : passThrough net i o = some net') : Heard net net' := by
  simp only [passThrough] at h
  split at h
  · cases h; exact heard_same rfl rfl rfl
  · cases h

theorem heard_pipeAll {net net' : Net U α} {s t : NodeId} (h : pipeAll net s t = some net') : Heard net net' := by
  simp only [pipeAll, Option.bind_eq_bind] at h
  split at h
  · cases h; exact .refl _
  · simp only [Option.bind_eq_some_iff] at h
    obtain ⟨_, _, i, _, v, _, _, _, h⟩ := h
    cases h; exact heard_wireAll ..

theorem heard_remove {net net' : Net U α} {n : NodeId} {link : Bool} {u : U} (h : remove2 net n link = some (net', u)) : Heard net net' := by
  simp only [remove2, Option.bind_eq_bind, Option.bind_eq_some_iff] at h
  obtain ⟨i, _, v, _, h⟩ := h
  have hm : ∀ (f : Port → Port) (w : Vertex U α), w ∈ net.vertex.map (·.mapSource f) → ∃ x ∈ net.vertex, SameNode w x := by
    intro f w hw
    obtain ⟨x, hx, rfl⟩ := List.mem_map.1 hw
    exact ⟨x, hx, rfl, rfl, rfl⟩
  split at h
  · split at h
    · cases h
      exact ⟨fun w hw => hm _ w (List.mem_of_mem_take hw), fun _ h => h, rfl⟩
    · simp only [Option.bind_eq_some_iff] at h
      obtain ⟨lv, hlv, h⟩ := h
      cases h
      have hl := hm _ lv (List.mem_of_getElem? hlv)
      have hset : ∀ w ∈ (net.vertex.map (·.mapSource (unplugPort link v.source i))).set i lv, ∃ x ∈ net.vertex, SameNode w x := by
        intro w hw
        rcases List.mem_or_eq_of_mem_set hw with h | h
        · exact hm _ w h
        · exact h ▸ hl
      refine ⟨fun w hw => ?_, fun _ h => h, rfl⟩
      have hin : ∀ w ∈ ((((net.vertex.map (·.mapSource (unplugPort link v.source i))).set i lv).take (net.vertex.length - 1)).map
          (·.mapSource (movePort (net.vertex.length - 1) i))), ∃ x ∈ net.vertex, SameNode w x := by
        intro w hw
        obtain ⟨y, hy, rfl⟩ := List.mem_map.1 hw
        obtain ⟨x, hx, h⟩ := hset y (List.mem_of_mem_take hy)
        exact ⟨x, hx, h.eng, h.id, h.changed⟩
      rcases mem_modify hw with h | ⟨y, hy, rfl⟩
      · exact hin w h
      · obtain ⟨x, hx, h⟩ := hin y hy
        exact ⟨x, hx, h.eng, h.id, h.changed⟩
  · cases h

/-! ## Calls that change units -/

theorem at_push {S : Units U α} {rate : U → α} (hT : Tells S rate) {net : Net U α} (h : AtRate rate net) (id : NodeId) (u : U) :
    AtRate rate (push S net id u) := by
  refine ⟨fun v hv => ?_, h.2⟩
  rcases List.mem_append.1 hv with hv | hv
  · exact h.1 v hv
  · rw [List.mem_singleton] at hv
    subst hv
    exact ⟨hT.setSR _ _, fun u hu => (nomatch hu), fun u hu => (nomatch hu)⟩

theorem at_replace {S : Units U α} {rate : U → α} (hT : Tells S rate) {net net' : Net U α} (h : AtRate rate net) {n : NodeId} {u old : U}
    (he : replace S net n u = some (net', old)) : AtRate rate net' := by
  simp only [replace, Option.bind_eq_bind, Option.bind_eq_some_iff] at he
  obtain ⟨i, _, v, hv, he⟩ := he
  split at he
  · cases he
    refine ⟨fun w hw => ?_, h.2⟩
    rcases List.mem_or_eq_of_mem_set hw with hw | rfl
    · exact h.1 w hw
    · exact ⟨hT.setSR _ _, (h.1 v (List.mem_of_getElem? hv)).2⟩
  · cases he

theorem engAt_enqueue {S : Units U α} {rate : U → α} {r : α} {e : Eng U α} (h : EngAt rate r e) {d : NodeEdit U α}
    (hd : ∀ u, d.unit = some u → rate u = r) : EngAt rate r (e.enqueue S d) := by
  unfold Eng.enqueue
  split
  · exact ⟨h.1, h.2.1, hd⟩
  · exact ⟨h.1, hd, h.2.2⟩

theorem at_crossfade {S : Units U α} {rate : U → α} (hT : Tells S rate) {net net' : Net U α} (h : AtRate rate net) {n : NodeId} {f : Fade} {t : α}
    {u : U} (he : crossfade S net n f t u = some net') : AtRate rate net' := by
  simp only [crossfade, Option.bind_eq_bind, Option.bind_eq_some_iff] at he
  obtain ⟨i, _, v, hv, he⟩ := he
  split at he
  · split at he
    · cases he
      refine ⟨h.1, fun d hd => ?_⟩
      rcases List.mem_append.1 hd with hd | hd
      · exact h.2 d hd
      · rw [List.mem_singleton] at hd; subst hd
        intro u hu; cases hu; exact hT.setSR _ _
    · cases he
      refine ⟨fun w hw => ?_, h.2⟩
      rcases List.mem_or_eq_of_mem_set hw with hw | rfl
      · exact h.1 w hw
      · exact engAt_enqueue (h.1 v (List.mem_of_getElem? hv)) (fun u hu => by cases hu; exact hT.setSR _ _)
  · cases he

theorem at_chain {S : Units U α} {rate : U → α} (hT : Tells S rate) {net net' : Net U α} (h : AtRate rate net) {id : NodeId} {u : U}
    (he : chain S net id u = some net') : AtRate rate net' := by
  simp only [chain, Option.bind_eq_bind, Option.bind_eq_some_iff] at he
  obtain ⟨i, _, he⟩ := he
  have hp := at_push hT h id u
  by_cases h1 : (push S net id u).vertex.length = 1
  · rw [if_pos h1] at he
    by_cases h0 : (push S net id u).inputs > 0
    · rw [if_pos h0, Option.bind_eq_some_iff] at he
      obtain ⟨y, hy, he⟩ := he
      exact (heard_pipeOutput he).at ((heard_pipeInput hy).at hp)
    · rw [if_neg h0] at he
      exact (heard_pipeOutput he).at hp
  · rw [if_neg h1] at he
    refine (heard_pipeOutput he).at (Heard.at (heard_modify (push S net id u) i _ ?_ rfl rfl rfl) hp)
    intro v; exact ⟨rfl, rfl, rfl⟩

theorem at_pingAll {S : Units U α} {rate : U → α} (hT : Tells S rate) {r : α} (p : Bool) (hash : Nat) (vs : List (Vertex U α))
    (h : ∀ v ∈ vs, EngAt rate r v.eng) : ∀ v ∈ (pingAll S p hash vs).1, EngAt rate r v.eng := by
  induction vs generalizing hash with
  | nil => intro v hv; cases hv
  | cons w vs ih =>
    intro v hv
    simp only [pingAll] at hv
    rcases List.mem_cons.1 hv with rfl | hv
    · have := h w List.mem_cons_self
      exact ⟨(hT.ping _ _ _).trans this.1, this.2⟩
    · exact ih _ (fun x hx => h x (List.mem_cons_of_mem _ hx)) v hv

theorem at_determineOrder {S : Units U α} {rate : U → α} (hT : Tells S rate) (seed : Nat → Nat) (hash0 : Nat) {net : Net U α}
    (h : AtRate rate net) : AtRate rate (determineOrder S seed hash0 net) := by
  refine ⟨?_, h.2⟩
  refine at_pingAll hT _ _ _ (at_pingAll hT _ _ _ ?_)
  intro v hv
  obtain ⟨w, hw, rfl⟩ := List.mem_map.1 hv
  exact h.1 w hw

theorem at_ready {S : Units U α} {rate : U → α} (hT : Tells S rate) (seed : Nat → Nat) (hash0 : Nat) {net : Net U α}
    (h : AtRate rate net) : AtRate rate (if net.order.isSome then net else determineOrder S seed hash0 net) := by
  split
  · exact h
  · exact at_determineOrder hT seed hash0 h

theorem engAt_tick {S : Units U α} {rate : U → α} (hT : Tells S rate) {r sr : α} {e : Eng U α} (h : EngAt rate r e) (x : List α) :
    EngAt rate r (e.tick S sr x).1 := by
  obtain ⟨h1, h2, h3⟩ := h
  have hu : rate (S.utick e.unit x).1 = r := (hT.tick _ _).trans h1
  unfold Eng.tick
  cases hn : e.next.unit with
  | none => exact ⟨hu, h2, h3⟩
  | some n =>
    have hq : rate (S.utick n x).1 = r := (hT.tick _ _).trans (h2 n hn)
    simp only
    split
    · exact ⟨hq, h3, fun u hu => (nomatch hu)⟩
    · exact ⟨hu, fun u hu => by cases hu; exact hq, h3⟩

theorem at_tickNode {S : Units U α} {rate : U → α} (hT : Tells S rate) {r sr : α} (input : List α) (vs : List (Vertex U α)) (i : Nat)
    (h : ∀ v ∈ vs, EngAt rate r v.eng) : ∀ v ∈ tickNode S sr input vs i, EngAt rate r v.eng := by
  intro v hv
  rcases mem_modify hv with hv | ⟨y, hy, rfl⟩
  · exact h v hv
  · exact engAt_tick hT (h y hy) _

theorem at_foldTick {S : Units U α} {rate : U → α} (hT : Tells S rate) {r sr : α} (input : List α) (is : List Nat) (vs : List (Vertex U α))
    (h : ∀ v ∈ vs, EngAt rate r v.eng) : ∀ v ∈ is.foldl (tickNode S sr input) vs, EngAt rate r v.eng := by
  induction is generalizing vs with
  | nil => exact h
  | cons i is ih => exact ih _ (at_tickNode hT input vs i h)

theorem at_tick {S : Units U α} {rate : U → α} (hT : Tells S rate) (seed : Nat → Nat) (hash0 : Nat) {net : Net U α}
    (h : AtRate rate net) (x : List α) : AtRate rate (tick S seed hash0 net x).1 := by
  have := at_ready hT seed hash0 h
  exact ⟨at_foldTick hT _ _ _ this.1, this.2⟩

theorem at_reset {S : Units U α} {rate : U → α} (hT : Tells S rate) (seed : Nat → Nat) (hash0 : Nat) {net : Net U α}
    (h : AtRate rate net) : AtRate rate (reset S seed hash0 net) := by
  refine at_ready hT seed hash0 (net := { net with vertex := _ }) ⟨fun v hv => ?_, h.2⟩
  obtain ⟨w, hw, rfl⟩ := List.mem_map.1 hv
  have := h.1 w hw
  exact ⟨(hT.reset _).trans this.1, this.2⟩

theorem at_setSampleRate [DecidableEq α] {S : Units U α} {rate : U → α} (hT : Tells S rate) (seed : Nat → Nat) (hash0 : Nat) {net : Net U α}
    (h : AtRate rate net) (r : α) (hs : Settled net ∨ net.sampleRate = r) : AtRate rate (setSampleRate S seed hash0 net r) := by
  unfold setSampleRate
  split
  · exact h
  · have hs : Settled net := by rcases hs with hs | hs; exact hs; contradiction
    refine at_ready hT seed hash0 (net := { net with sampleRate := r, vertex := _ }) ⟨fun v hv => ?_, fun d hd u hu => ?_⟩
    · obtain ⟨w, hw, rfl⟩ := List.mem_map.1 hv
      have := hs.1 w hw
      exact ⟨hT.setSR _ _, fun u hu => by simp [this.1] at hu, fun u hu => by simp [this.2] at hu⟩
    · simp [hs.2 d hd] at hu

/-! ## Graph operators -/

theorem at_disambiguate {rate : U → α} {net other : Net U α} {next : NodeId} (h : AtRate rate net) : AtRate rate (disambiguate net other next).1 := by
  refine ⟨?_, h.2⟩
  have key : ∀ (vs : List (Vertex U α)) (i : Nat) (m : IdMap) (next : NodeId), (∀ v ∈ vs, EngAt rate net.sampleRate v.eng) →
      ∀ v ∈ (disambiguateFrom other.nodeIndex i vs m next).1, EngAt rate net.sampleRate v.eng := by
    intro vs
    induction vs with
    | nil => intro i m next h v hv; cases hv
    | cons w vs ih =>
      intro i m next h v hv
      simp only [disambiguateFrom] at hv
      split at hv
      · rcases List.mem_cons.1 hv with rfl | hv
        · exact h w List.mem_cons_self
        · exact ih _ _ _ (fun x hx => h x (List.mem_cons_of_mem _ hx)) v hv
      · rcases List.mem_cons.1 hv with rfl | hv
        · exact h v List.mem_cons_self
        · exact ih _ _ _ (fun x hx => h x (List.mem_cons_of_mem _ hx)) v hv
  exact key _ _ _ _ h.1

theorem disambiguate_rate (net other : Net U α) (next : NodeId) : (disambiguate net other next).1.sampleRate = net.sampleRate := rfl

theorem at_append {rate : U → α} {a b : Net U α} (ha : AtRate rate a) (hb : AtRate rate b) (hr : a.sampleRate = b.sampleRate) (g : Nat → Port) :
    AtRate rate (appendVertices a b g) := by
  refine ⟨fun v hv => ?_, ha.2⟩
  rcases List.mem_append.1 hv with hv | hv
  · exact ha.1 v hv
  · obtain ⟨k, hk, rfl⟩ := List.mem_mapIdx.1 hv
    have := hb.1 _ (List.getElem_mem hk)
    rw [← hr] at this
    exact this

theorem at_resolve {rate : U → α} {a b c : Net U α} (ha : AtRate rate a) (hb : AtRate rate b) (hr : a.sampleRate = b.sampleRate)
    (h : resolveFrontend a b = some c) : AtRate rate c := by
  unfold resolveFrontend at h
  split at h
  · cases h
  · split at h
    · cases h
      refine ⟨ha.1, fun d hd u hu => ?_⟩
      exact (hb.2 d hd u hu).trans hr.symm
    · cases h; exact ha

theorem at_pushOps {S : Units U α} {rate : U → α} (hT : Tells S rate) (op : Op) (k : Nat) (off i : Nat) (net : Net U α) (next : NodeId)
    (h : AtRate rate net) : AtRate rate (pushOps S op off i k net next).1 ∧ (pushOps S op off i k net next).1.sampleRate = net.sampleRate := by
  induction k generalizing i net next with
  | zero => exact ⟨h, rfl⟩
  | succ k ih => exact ih (i + 1) _ (next + 1) (Heard.at (heard_same (a := push S net next (S.binop op)) rfl rfl rfl) (at_push hT h _ _))

theorem heard_connectOps (off port : Nat) (f : Port → Port) (es : List Edge) (i : Nat) (net : Net U α) :
    Heard net (connectOps off port f i es net) := by
  induction es generalizing i net with
  | nil => exact .refl _
  | cons e es ih =>
    refine Heard.trans ?_ (ih (i + 1) _)
    cases hs : e.source with
    | zero => exact .refl _
    | glob p => exact heard_vertexEdge ..
    | loc a p => exact heard_vertexEdge ..

theorem heard_connectOps2 (off p q : Nat) (f g : Port → Port) (es es' : List Edge) (i j : Nat) (net : Net U α) :
    Heard net (connectOps off q g j es' (connectOps off p f i es net)) :=
  (heard_connectOps off p f es i net).trans (heard_connectOps off q g es' j _)

theorem at_op {E : Env U α} {rate : U → α} (hT : Tells E.S rate) {a b c : Net U α} {n m : NodeId} (ha : AtRate rate a) (hb : AtRate rate b)
    (hr : a.sampleRate = b.sampleRate) (o : Op2) (h : o.apply E a b n = some (c, m)) : AtRate rate c := by
  have hd := at_disambiguate (other := a) (next := n) hb
  have hrd : a.sampleRate = (disambiguate b a n).1.sampleRate := hr
  cases o with
  | pipe =>
    simp only [Op2.apply, pipe] at h
    split at h
    · cases h
    · obtain ⟨x, hx, hh⟩ := Option.map_eq_some_iff.1 h
      cases hh
      refine at_resolve ?_ hd ?_ hx
      · exact Heard.at (heard_same (a := appendVertices a (disambiguate b a n).1 _) rfl rfl rfl) (at_append ha hd hrd _)
      · exact hrd
  | stack =>
    simp only [Op2.apply, stack] at h
    obtain ⟨x, hx, hh⟩ := Option.map_eq_some_iff.1 h
    cases hh
    refine at_resolve ?_ hd ?_ hx
    · exact Heard.at (heard_same (a := appendVertices a (disambiguate b a n).1 _) rfl rfl rfl) (at_append ha hd hrd _)
    · exact hrd
  | branch =>
    simp only [Op2.apply, branch] at h
    split at h
    · cases h
    · obtain ⟨x, hx, hh⟩ := Option.map_eq_some_iff.1 h
      cases hh
      refine at_resolve ?_ hd ?_ hx
      · exact Heard.at (heard_same (a := appendVertices a (disambiguate b a n).1 _) rfl rfl rfl) (at_append ha hd hrd _)
      · exact hrd
  | bus =>
    simp only [Op2.apply, bus] at h
    split at h
    · cases h
    · split at h
      · cases h
      · obtain ⟨x, hx, hh⟩ := Option.map_eq_some_iff.1 h
        cases hh
        have hp := at_pushOps hT .add a.outputs (appendVertices a (disambiguate b a n).1 .glob).vertex.length 0 _ (disambiguate b a n).2
          (at_append ha hd hrd .glob)
        refine at_resolve ((heard_connectOps2 ..).at hp.1) hd ?_ hx
        exact ((heard_connectOps2 ..).rate.trans hp.2).trans hrd
  | binary op =>
    simp only [Op2.apply, binary] at h
    split at h
    · cases h
    · obtain ⟨x, hx, hh⟩ := Option.map_eq_some_iff.1 h
      cases hh
      have hp := at_pushOps hT op a.outputs (appendVertices a (disambiguate b a n).1 (fun p => Port.glob (p + a.inputs))).vertex.length 0 _
        (disambiguate b a n).2 ((heard_same (a := appendVertices a (disambiguate b a n).1 (fun p => Port.glob (p + a.inputs)))
          (b := { appendVertices a (disambiguate b a n).1 (fun p => Port.glob (p + a.inputs)) with
            inputs := a.inputs + (disambiguate b a n).1.inputs }) rfl rfl rfl).at
          (at_append ha hd hrd _))
      refine at_resolve ((heard_connectOps2 ..).at hp.1) hd ?_ hx
      exact ((heard_connectOps2 ..).rate.trans hp.2).trans hrd

/-! ## Backend -/

/-- The running units are at the sample rate of the net. -/
def UnitsAt (rate : U → α) (net : Net U α) : Prop := ∀ v ∈ net.vertex, rate v.eng.unit = net.sampleRate

theorem unitsAt_pingAll {S : Units U α} {rate : U → α} (hT : Tells S rate) {r : α} (p : Bool) (hash : Nat) (vs : List (Vertex U α))
    (h : ∀ v ∈ vs, rate v.eng.unit = r) : ∀ v ∈ (pingAll S p hash vs).1, rate v.eng.unit = r := by
  induction vs generalizing hash with
  | nil => intro v hv; cases hv
  | cons w vs ih =>
    intro v hv
    simp only [pingAll] at hv
    rcases List.mem_cons.1 hv with rfl | hv
    · exact (hT.ping _ _ _).trans (h w List.mem_cons_self)
    · exact ih _ (fun x hx => h x (List.mem_cons_of_mem _ hx)) v hv

theorem unitsAt_ready {S : Units U α} {rate : U → α} (hT : Tells S rate) (seed : Nat → Nat) (hash0 : Nat) {net : Net U α}
    (h : UnitsAt rate net) : UnitsAt rate (if net.order.isSome then net else determineOrder S seed hash0 net) := by
  split
  · exact h
  · refine unitsAt_pingAll hT _ _ _ (unitsAt_pingAll hT _ _ _ ?_)
    intro v hv
    obtain ⟨w, hw, rfl⟩ := List.mem_map.1 hv
    exact h w hw

theorem ready_rate {S : Units U α} (seed : Nat → Nat) (hash0 : Nat) (net : Net U α) :
    (if net.order.isSome then net else determineOrder S seed hash0 net).sampleRate = net.sampleRate := by
  split <;> rfl

theorem unitsAt_setSampleRate [DecidableEq α] {S : Units U α} {rate : U → α} (hT : Tells S rate) (seed : Nat → Nat) (hash0 : Nat)
    {net : Net U α} {r : α} (h : net.sampleRate ≠ r) : UnitsAt rate (setSampleRate S seed hash0 net r) := by
  unfold setSampleRate
  rw [if_neg h]
  refine unitsAt_ready hT seed hash0 (net := { net with sampleRate := r, vertex := _ }) ?_
  intro v hv
  obtain ⟨w, hw, rfl⟩ := List.mem_map.1 hv
  exact hT.setSR _ _

theorem setSampleRate_rate [DecidableEq α] (S : Units U α) (seed : Nat → Nat) (hash0 : Nat) (net : Net U α) (r : α) :
    (setSampleRate S seed hash0 net r).sampleRate = r := by
  unfold setSampleRate
  split
  · assumption
  · exact ready_rate seed hash0 { net with sampleRate := r, vertex := _ }

theorem engAt_enqueueAt {S : Units U α} {rate : U → α} {r : α} (l : List (Nat × NodeEdit U α)) (vs : List (Vertex U α))
    (h : ∀ v ∈ vs, EngAt rate r v.eng) (hl : ∀ p ∈ l, ∀ u, p.2.unit = some u → rate u = r) :
    ∀ v ∈ l.foldl (enqueueAt S) vs, EngAt rate r v.eng := by
  induction l generalizing vs with
  | nil => exact h
  | cons p l ih =>
    refine ih _ ?_ (fun q hq => hl q (List.mem_cons_of_mem _ hq))
    intro v hv
    rcases mem_modify hv with hv | ⟨y, hy, rfl⟩
    · exact h v hv
    · exact engAt_enqueue (h y hy) (hl p List.mem_cons_self)

theorem at_applyEdits {S : Units U α} {rate : U → α} {net : Net U α} (h : AtRate rate net) : AtRate rate (applyEdits S net) := by
  refine ⟨engAt_enqueueAt _ _ h.1 ?_, fun d hd => (nomatch hd)⟩
  intro p hp
  obtain ⟨d, hd, rfl⟩ := List.mem_map.1 hp
  exact h.2 d hd

theorem at_applyForeign {S : Units U α} {rate : U → α} {net src : Net U α} (h : AtRate rate net) (hs : AtRate rate src)
    (hr : src.sampleRate = net.sampleRate) : AtRate rate (applyForeign S net src) := by
  refine ⟨engAt_enqueueAt _ _ h.1 ?_, h.2⟩
  intro p hp
  obtain ⟨d, hd, hp⟩ := List.mem_filterMap.1 hp
  obtain ⟨i, _, rfl⟩ := Option.map_eq_some_iff.1 hp
  intro u hu
  exact (hs.2 d hd u hu).trans hr

theorem at_migrate {rate : U → α} {old new : Net U α} (ho : AtRate rate old) (hn : AtRate rate new) (hr : new.sampleRate = old.sampleRate) :
    AtRate rate (migrate old new) := by
  refine ⟨?_, hn.2⟩
  have key : ∀ (l : List (NodeId × Nat)) (vs : List (Vertex U α)), (∀ v ∈ vs, EngAt rate new.sampleRate v.eng) →
      ∀ v ∈ l.foldl (migrateStep old new) vs, EngAt rate new.sampleRate v.eng := by
    intro l
    induction l with
    | nil => intro vs h; exact h
    | cons p l ih =>
      intro vs h
      refine ih _ ?_
      unfold migrateStep
      split
      · rename_i j w _ hw
        intro v hv
        rcases mem_modify hv with hv | ⟨y, hy, rfl⟩
        · exact h v hv
        · split
          · rw [hr]; exact ho.1 w (List.mem_of_getElem? hw)
          · exact h y hy
      · exact h
  exact key _ _ hn.1

theorem at_set {rate : U → α} {net : Net U α} (h : AtRate rate net) (id : NodeId) {f : U → U} (hf : ∀ u, rate (f u) = rate u) :
    AtRate rate (set net id f) := by
  unfold set
  split
  · refine ⟨fun v hv => ?_, h.2⟩
    rcases mem_modify hv with hv | ⟨y, hy, rfl⟩
    · exact h.1 v hv
    · exact ⟨(hf _).trans (h.1 y hy).1, (h.1 y hy).2⟩
  · exact h

theorem set_rate (net : Net U α) (id : NodeId) (f : U → U) : (set net id f).sampleRate = net.sampleRate := by
  unfold set; split <;> rfl

end Fundsp.Net
