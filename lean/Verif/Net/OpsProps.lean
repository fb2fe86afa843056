import Verif.Net.Run

/-! # Graph operators: signals (C09) -/

namespace Fundsp.Net
variable {U α : Type}

/-! ## Specification -/

/-- Output frames of a net that is fed the input frames `xs`, one tick at a time. -/
def outs (E : Env U α) : Net U α → List (List α) → List (List α)
  | _, [] => []
  | net, x :: xs =>
    let r := tick E.S E.seed E.hash0 net x
    r.2 :: outs E r.1 xs

/-- `a'` is `a` after its evaluation order has been determined as part of some larger graph: same wiring; every unit
has been pinged. -/
structure Pinged (S : Units U α) (a a' : Net U α) : Prop where
  wiring : SameWiring a a'
  sr : a'.sampleRate = a.sampleRate
  ordered : ∃ order, a'.order = some order ∧ EvalOrder a' order
  eng : ∀ (i : Nat) (v w : Vertex U α), a.vertex[i]? = some v → a'.vertex[i]? = some w →
    ∃ h h', w.eng = { v.eng with unit := (S.ping false h' (S.ping true h v.eng.unit).1).1 }

/-! ## Acyclicity -/

theorem not_cyclic_of_rank {net : Net U α} (r : Nat → Nat) (h : ∀ i j, Wire net i j → r j < r i) : ¬ Cyclic net := by
  rintro ⟨i, hi⟩
  have : ∀ j, Relation.TransGen (Wire net) i j → r j < r i := by
    intro j hj
    induction hj with
    | single h1 => exact h _ _ h1
    | tail _ h1 ih => exact Nat.lt_trans (h _ _ h1) ih
  exact Nat.lt_irrefl _ (this i hi)

theorem rank_of_not_cyclic {S : Units U α} (hS : S.Lawful) {n : NodeId} {net : Net U α} (h : WF S n net)
    (hc : ¬ Cyclic net) : ∃ (order : List Nat) (r : Nat → Nat), EvalOrder net order ∧ (∀ i j, Wire net i j → r j < r i) ∧
      ∀ i, i < net.vertex.length → r i < net.vertex.length := by
  obtain ⟨o, _, h2, _, h4⟩ := C02_net_order hS id 0 h
  refine ⟨o, fun i => o.idxOf i, ⟨h2, h4 hc⟩, ?_, ?_⟩
  · intro i j hw
    have hi : i ∈ o := by
      obtain ⟨v, _, _, _, hv, _⟩ := hw
      exact h2.mem_iff.2 (List.mem_range.2 (List.getElem?_eq_some_iff.1 hv).1)
    obtain ⟨a, b, rfl⟩ := List.append_of_mem hi
    have hj := h4 hc a i b rfl j hw
    have hnd : (a ++ i :: b).Nodup := h2.nodup_iff.2 List.nodup_range
    have hia : i ∉ a := fun hia => (List.nodup_append.1 hnd).2.2 i hia i (by simp) rfl
    simp only [List.idxOf_append, hj, hia, if_true, if_false, List.idxOf_cons_self]
    have := List.idxOf_lt_length_iff.2 hj
    omega
  · intro i hi
    have : i ∈ o := h2.mem_iff.2 (List.mem_range.2 hi)
    have := List.idxOf_lt_length_iff.2 this
    rw [h2.length_eq, List.length_range] at this
    exact this

/-! ## Running nets -/

/-- A net ready to run. -/
structure Live (S : Units U α) (net : Net U α) : Prop where
  wf : ∃ n, WF S n net
  eval : ∃ order, net.order = some order ∧ EvalOrder net order

/-- Outcome of one tick. -/
structure Ticked (S : Units U α) (net : Net U α) (x : List α) (net' : Net U α) (y : List α) (eng : Nat → Eng U α)
    (out : Nat → List α) : Prop where
  solves : Solves S net x eng out
  shell : net' = { net with vertex := net'.vertex }
  len : net'.vertex.length = net.vertex.length
  get : ∀ (i : Nat) (v : Vertex U α), net.vertex[i]? = some v → net'.vertex[i]? = some { v with eng := eng i, tickOut := out i }
  output : y = (net.outputEdge.take net.outputs).map (fun e => portVal S x out e.source)

theorem EvalOrder.kept {a b : Net U α} {o : List Nat} (h : EvalOrder a o) (hs : SameWiring a b) : EvalOrder b o :=
  ⟨by rw [hs.len]; exact h.perm, fun x i y hxy j hj => h.topo x i y hxy j ((wire_sameWiring hs i j).1 hj)⟩

theorem Ticked.sameWiring {S : Units U α} {net : Net U α} {x : List α} {net' : Net U α} {y : List α} {eng : Nat → Eng U α}
    {out : Nat → List α} (h : Ticked S net x net' y eng out) : SameWiring net net' := by
  refine ⟨by rw [h.shell], by rw [h.shell], by rw [h.shell], by rw [h.shell], h.len, ?_⟩
  intro i v w hv hw
  rw [h.get i v hv] at hw
  cases hw; exact ⟨rfl, rfl, rfl, rfl⟩

theorem Live.ticked {S : Units U α} (hS : S.Lawful) (seed : Nat → Nat) (h0 : Nat) {net : Net U α} (h : Live S net) (x : List α) :
    ∃ eng out, Ticked S net x (tick S seed h0 net x).1 (tick S seed h0 net x).2 eng out ∧ Live S (tick S seed h0 net x).1 := by
  obtain ⟨o, ho, hev⟩ := h.eval
  obtain ⟨n, hw⟩ := h.wf
  have ht : tick S seed h0 net x = tickOrdered S net x := by simp [tick, ho]
  obtain ⟨eng, out, h1, h2, h3, h4, h5⟩ := tickOrdered_solves (S := S) net x ho hev
  have hT : Ticked S net x (tick S seed h0 net x).1 (tick S seed h0 net x).2 eng out := by
    rw [ht]; exact ⟨h1, h2, h3, h4, h5⟩
  refine ⟨eng, out, hT, ⟨n, wf_tick hS seed h0 hw x⟩, o, ?_, hev.kept hT.sameWiring⟩
  rw [hT.shell]; exact ho

theorem Ticked.unique {S : Units U α} {net : Net U α} (hl : Live S net) {x : List α} {net' : Net U α} {y : List α}
    {eng eng2 : Nat → Eng U α} {out out2 : Nat → List α} (h : Ticked S net x net' y eng out) (hs : Solves S net x eng2 out2) :
    ∀ i, i < net.vertex.length → eng i = eng2 i ∧ out i = out2 i := by
  obtain ⟨o, ho, hev⟩ := hl.eval
  obtain ⟨n, hw⟩ := hl.wf
  exact solves_unique hw.valid hev h.solves hs

/-- Output of a tick computed from any solution. -/
theorem Ticked.output_of {S : Units U α} {net : Net U α} (hl : Live S net) {x : List α} {net' : Net U α} {y : List α}
    {eng eng2 : Nat → Eng U α} {out out2 : Nat → List α} (h : Ticked S net x net' y eng out) (hs : Solves S net x eng2 out2) :
    y = net.outputEdge.map (fun e => portVal S x out2 e.source) := by
  obtain ⟨n, hw⟩ := hl.wf
  rw [h.output, List.take_of_length_le (by rw [hw.valid.oeLen])]
  apply List.map_congr_left
  intro e he
  apply portVal_congr
  intro j q hp
  obtain ⟨c, hc⟩ := List.getElem?_of_mem he
  have := (hw.valid.oe c e hc).2
  rw [hp] at this
  obtain ⟨w, hw, _⟩ := this
  exact (h.unique hl hs j (List.getElem?_eq_some_iff.1 hw).1).2

/-! ## Parts of a net -/

/-- The nodes of `a` are the nodes `off, off + 1, ..` of `c`, with global inputs replaced by `g`. -/
structure Part (off : Nat) (g : Nat → Port) (a c : Net U α) : Prop where
  sr : c.sampleRate = a.sampleRate
  node : ∀ (k : Nat) (v : Vertex U α), a.vertex[k]? = some v → ∃ w, c.vertex[off + k]? = some w ∧ w.eng = v.eng ∧
    (w.source.take w.ins).map Edge.source = (v.source.take v.ins).map (fun e => shiftPort off g e.source)

theorem portVal_shift {S : Units U α} {a : Net U α} {off : Nat} {g : Nat → Port} {x x' : List α} {out : Nat → List α}
    (hx : ∀ p, p < a.inputs → portVal S x out (g p) = x'.getD p S.zero) {p : Port} (hp : PortOK a p) :
    portVal S x out (shiftPort off g p) = portVal S x' (fun i => out (off + i)) p := by
  cases p with
  | zero => rfl
  | glob q => exact hx q hp
  | loc j q => simp only [shiftPort, portVal, Nat.add_comm]

theorem Part.solves {S : Units U α} {off : Nat} {g : Nat → Port} {a c : Net U α} (h : Part off g a c) (hv : Valid S a)
    {x x' : List α} {eng : Nat → Eng U α} {out : Nat → List α} (hs : Solves S c x eng out)
    (hx : ∀ p, p < a.inputs → portVal S x out (g p) = x'.getD p S.zero) :
    Solves S a x' (fun i => eng (off + i)) (fun i => out (off + i)) := by
  intro k v hk
  obtain ⟨w, hw, he, hsrc⟩ := h.node k v hk
  have := hs (off + k) w hw
  rw [he, h.sr] at this
  rw [← this]
  congr 1
  have e1 : (w.source.take w.ins).map (fun e => portVal S x out e.source) =
      ((w.source.take w.ins).map Edge.source).map (portVal S x out) := by rw [List.map_map]; rfl
  rw [e1, hsrc, List.map_map]
  apply List.map_congr_left
  intro e he
  obtain ⟨ch, hc⟩ := List.getElem?_of_mem (List.mem_of_mem_take he)
  exact (portVal_shift hx (hv.edge k v ch e hk hc).2).symm

/-- A tick of the whole is a tick of the part. -/
theorem Part.step {S : Units U α} {off : Nat} {g : Nat → Port} {a c : Net U α} (h : Part off g a c) (hl : Live S a)
    {x xa ya y : List α} {a' c' : Net U α} {eng enga : Nat → Eng U α} {out outa : Nat → List α}
    (hc : Ticked S c x c' y eng out) (ha : Ticked S a xa a' ya enga outa)
    (hx : ∀ p, p < a.inputs → portVal S x out (g p) = xa.getD p S.zero) :
    Part off g a' c' ∧ ya = a.outputEdge.map (fun e => portVal S x out (shiftPort off g e.source)) := by
  obtain ⟨n, hw⟩ := hl.wf
  have hs := h.solves hw.valid hc.solves hx
  refine ⟨⟨by rw [hc.shell, ha.shell]; exact h.sr, ?_⟩, ?_⟩
  · intro k v hk
    obtain ⟨v0, hv0⟩ := ha.sameWiring.find hk
    rw [ha.get k v0 hv0] at hk
    cases hk
    obtain ⟨w, hw, he, hsrc⟩ := h.node k v0 hv0
    refine ⟨_, hc.get _ w hw, ?_, hsrc⟩
    exact ((ha.unique hl hs k (List.getElem?_eq_some_iff.1 hv0).1).1).symm
  · rw [ha.output_of hl hs]
    apply List.map_congr_left
    intro e he
    obtain ⟨ch, hch⟩ := List.getElem?_of_mem he
    exact (portVal_shift hx (hw.valid.oe ch e hch).2).symm

theorem shiftPort_zero (p : Port) : shiftPort 0 .glob p = p := by cases p <;> rfl

/-! ## Taking parts out of a combined net -/

/-- Part of `c1` as a net of its own. -/
def partOf (a c1 : Net U α) (off : Nat) (order : List Nat) : Net U α :=
  { a with
    order := some order
    vertex := a.vertex.mapIdx (fun k v => { v with eng := ((c1.vertex[off + k]?).map Vertex.eng).getD v.eng }) }

theorem pingAll_units {S : Units U α} (probe : Bool) (h : Nat) (vs : List (Vertex U α)) :
    ∀ (i : Nat) (v : Vertex U α), vs[i]? = some v → ∃ h',
      (pingAll S probe h vs).1[i]? = some { v with eng := { v.eng with unit := (S.ping probe h' v.eng.unit).1 } } := by
  induction vs generalizing h with
  | nil => intro i v hv; simp at hv
  | cons x vs ih =>
    intro i v hv
    cases i with
    | zero =>
      simp only [List.getElem?_cons_zero, Option.some.injEq] at hv
      subst hv
      exact ⟨h, rfl⟩
    | succ i => exact ih _ i v (by simpa using hv)

theorem determineOrder_units {S : Units U α} (seed : Nat → Nat) (h0 : Nat) (net : Net U α) :
    ∀ (i : Nat) (v : Vertex U α), net.vertex[i]? = some v → ∃ h h',
      (determineOrder S seed h0 net).vertex[i]? = some { v.updateSourceVertex with
        eng := { v.eng with unit := (S.ping false h' (S.ping true h v.eng.unit).1).1 } } := by
  intro i v hv
  obtain ⟨h1, e1⟩ := pingAll_units (S := S) true (seed h0) (net.vertex.map Vertex.updateSourceVertex) i _ (by
    rw [List.getElem?_map, hv]; rfl)
  obtain ⟨h2, e2⟩ := pingAll_units (S := S) false (seed (pingAll S true (seed h0) (net.vertex.map Vertex.updateSourceVertex)).2) _ i _ e1
  exact ⟨h1, h2, e2⟩

/-- The part of the ordered combined net that comes from `a`. -/
theorem part_of {S : Units U α} (hS : S.Lawful) (seed : Nat → Nat) (h0 : Nat) {n : NodeId} {a c : Net U α} (ha : WF S n a)
    {order : List Nat} (hord : EvalOrder a order) {off : Nat} {g : Nat → Port} (hp : Part off g a c) :
    Pinged S a (partOf a (determineOrder S seed h0 c) off order) ∧
    Live S (partOf a (determineOrder S seed h0 c) off order) ∧
    Part off g (partOf a (determineOrder S seed h0 c) off order) (determineOrder S seed h0 c) := by
  have key : ∀ (k : Nat) (v : Vertex U α), a.vertex[k]? = some v → ∃ w h h', c.vertex[off + k]? = some w ∧ w.eng = v.eng ∧
      (w.source.take w.ins).map Edge.source = (v.source.take v.ins).map (fun e => shiftPort off g e.source) ∧
      (determineOrder S seed h0 c).vertex[off + k]? = some { w.updateSourceVertex with
        eng := { v.eng with unit := (S.ping false h' (S.ping true h v.eng.unit).1).1 } } ∧
      (partOf a (determineOrder S seed h0 c) off order).vertex[k]? = some { v with
        eng := { v.eng with unit := (S.ping false h' (S.ping true h v.eng.unit).1).1 } } := by
    intro k v hv
    obtain ⟨w, hw, he, hs⟩ := hp.node k v hv
    obtain ⟨h1, h2, hd⟩ := determineOrder_units (S := S) seed h0 c _ w hw
    rw [he] at hd
    refine ⟨w, h1, h2, hw, he, hs, hd, ?_⟩
    simp [partOf, List.getElem?_mapIdx, hv, hd]
  have hs : SameWiring a (partOf a (determineOrder S seed h0 c) off order) := by
    refine ⟨rfl, rfl, rfl, rfl, by simp [partOf], ?_⟩
    intro i v w hv hw
    obtain ⟨_, _, _, _, _, _, _, hk⟩ := key i v hv
    rw [hk] at hw; cases hw
    exact ⟨rfl, rfl, rfl, rfl⟩
  have hord' := hord.kept hs
  refine ⟨⟨hs, rfl, ⟨order, rfl, hord'⟩, ?_⟩, ⟨⟨n, ha.of_sameWiring hs ?_⟩, ⟨order, rfl, hord'⟩⟩, ⟨hp.sr, ?_⟩⟩
  · intro i v w hv hw
    obtain ⟨_, h1, h2, _, _, _, _, hk⟩ := key i v hv
    rw [hk] at hw; cases hw
    exact ⟨h1, h2, rfl⟩
  · intro i w hw
    obtain ⟨v, hv⟩ := hs.find hw
    obtain ⟨_, h1, h2, _, _, _, _, hk⟩ := key i v hv
    rw [hk] at hw; cases hw
    have := ha.engFits hv
    exact ⟨by simpa [hS.ins_ping, hS.outs_ping] using this.1, this.2⟩
  · intro k w hw
    obtain ⟨v, hv⟩ := hs.find hw
    obtain ⟨w0, h1, h2, _, _, hsrc, hd, hk⟩ := key k v hv
    rw [hk] at hw; cases hw
    exact ⟨_, hd, rfl, hsrc⟩

/-- Two parts of a combined net: `a` in front, then `b`. -/
structure Glue (S : Units U α) (a b c : Net U α) (g : Nat → Port) : Prop where
  la : Live S a
  lb : Live S b
  lc : Live S c
  left : Part 0 .glob a c
  right : Part a.vertex.length g b c

theorem Joined.parts {S : Units U α} {n : NodeId} {a b c : Net U α} {g : Nat → Port} (ha : WF S n a) (hb : WF S n b) (h : Joined S a b c g)
    (hsr : a.sampleRate = b.sampleRate) : Part 0 .glob a c ∧ Part a.vertex.length g b c := by
  refine ⟨⟨h.sr, ?_⟩, ⟨h.sr.trans hsr, ?_⟩⟩
  · intro k v hv
    refine ⟨v, by rw [Nat.zero_add]; exact h.left k v hv, rfl, ?_⟩
    apply List.map_congr_left
    intro e _
    exact (shiftPort_zero _).symm
  · intro k v hv
    obtain ⟨id', h1, _⟩ := h.right k v hv
    have hl := (hb.valid.arity k v hv).1
    refine ⟨_, h1, rfl, ?_⟩
    rw [shift_source (v := { v with id := id' }) hl]
    rw [List.take_of_length_le (by rw [List.length_mapIdx]; show v.source.length ≤ v.ins; omega), List.take_of_length_le (by omega)]
    apply List.ext_getElem?
    intro i
    simp only [List.getElem?_map, List.getElem?_mapIdx, Option.map_map]
    rfl

/-- Wires of a joined net. -/
theorem Joined.wire {S : Units U α} {n : NodeId} {a b c : Net U α} {g : Nat → Port} (ha : WF S n a) (hb : WF S n b)
    (h : Joined S a b c g) (hsr : a.sampleRate = b.sampleRate)
    (hg : ∀ p, p < b.inputs → ∀ j q, g p = .loc j q → j < a.vertex.length) {i j : Nat} (hw : Wire c i j)
    (hi : i < a.vertex.length + b.vertex.length) :
    (i < a.vertex.length ∧ Wire a i j) ∨
    (∃ k, i = a.vertex.length + k ∧ k < b.vertex.length ∧ (j < a.vertex.length ∨ ∃ j', j = a.vertex.length + j' ∧ Wire b k j')) := by
  obtain ⟨w, ch, e, q, hw1, hw2, hw3⟩ := hw
  by_cases hia : i < a.vertex.length
  · left
    have := h.left i _ (List.getElem?_eq_getElem hia)
    rw [hw1] at this; cases this
    exact ⟨hia, _, ch, e, q, List.getElem?_eq_getElem hia, hw2, hw3⟩
  · right
    obtain ⟨k, rfl⟩ : ∃ k, i = a.vertex.length + k := ⟨i - a.vertex.length, by omega⟩
    have hk : k < b.vertex.length := by omega
    obtain ⟨id', h1, _⟩ := h.right k _ (List.getElem?_eq_getElem hk)
    rw [hw1] at h1; cases h1
    have hl := (hb.valid.arity k _ (List.getElem?_eq_getElem hk)).1
    rw [shift_source (v := { b.vertex[k] with id := id' }) hl, List.getElem?_mapIdx, Option.map_eq_some_iff] at hw2
    obtain ⟨e0, he0, rfl⟩ := hw2
    refine ⟨k, rfl, hk, ?_⟩
    have hpo := (hb.valid.edge k _ ch e0 (List.getElem?_eq_getElem hk) he0).2
    change shiftPort a.vertex.length g e0.source = .loc j q at hw3
    cases hs : e0.source with
    | zero => rw [hs] at hw3; cases hw3
    | glob p => rw [hs] at hw3 hpo; exact Or.inl (hg p hpo j q hw3)
    | loc j' q' =>
      rw [hs] at hw3
      simp only [shiftPort, Port.loc.injEq] at hw3
      exact Or.inr ⟨j', by omega, _, ch, e0, q', List.getElem?_eq_getElem hk, he0, hs⟩

/-- Combining acyclic nets gives an acyclic net, if the added nodes only read nodes of the operands. -/
theorem Joined.acyclic {S : Units U α} (hS : S.Lawful) {n : NodeId} {a b c : Net U α} {g : Nat → Port} (ha : WF S n a) (hb : WF S n b)
    (h : Joined S a b c g) (hsr : a.sampleRate = b.sampleRate)
    (hg : ∀ p, p < b.inputs → ∀ j q, g p = .loc j q → j < a.vertex.length)
    (hops : ∀ i j, a.vertex.length + b.vertex.length ≤ i → Wire c i j → j < a.vertex.length + b.vertex.length)
    (hca : ¬ Cyclic a) (hcb : ¬ Cyclic b) : ¬ Cyclic c := by
  obtain ⟨_, ra, _, ra1, ra2⟩ := rank_of_not_cyclic hS ha hca
  obtain ⟨_, rb, _, rb1, rb2⟩ := rank_of_not_cyclic hS hb hcb
  apply not_cyclic_of_rank (fun i => if i < a.vertex.length then ra i else
    if i < a.vertex.length + b.vertex.length then a.vertex.length + rb (i - a.vertex.length) else a.vertex.length + b.vertex.length)
  intro i j hw
  by_cases hi : i < a.vertex.length + b.vertex.length
  · rcases h.wire ha hb hsr hg hw hi with ⟨h1, h2⟩ | ⟨k, rfl, hk, h3⟩
    · have hj : j < a.vertex.length := by
        obtain ⟨v, ch, e, q, hv, he, hs⟩ := h2
        have := (ha.valid.edge i v ch e hv he).2
        rw [hs] at this
        obtain ⟨w, hw, _⟩ := this
        exact (List.getElem?_eq_some_iff.1 hw).1
      simp only [hj, h1, if_true]
      exact ra1 i j h2
    · rcases h3 with h3 | ⟨j', rfl, h3⟩
      · simp only [h3, if_true, show ¬ (a.vertex.length + k < a.vertex.length) by omega, if_false, hi]
        have := ra2 j h3
        omega
      · have hj : j' < b.vertex.length := by
          obtain ⟨v, ch, e, q, hv, he, hs⟩ := h3
          have := (hb.valid.edge k v ch e hv he).2
          rw [hs] at this
          obtain ⟨w, hw, _⟩ := this
          exact (List.getElem?_eq_some_iff.1 hw).1
        simp only [show ¬ (a.vertex.length + k < a.vertex.length) by omega, show ¬ (a.vertex.length + j' < a.vertex.length) by omega,
          if_false, hi, if_true, show a.vertex.length + j' < a.vertex.length + b.vertex.length by omega, Nat.add_sub_cancel_left]
        have := rb1 k j' h3
        omega
  · have hj := hops i j (by omega) hw
    simp only [hi, show ¬ i < a.vertex.length by omega, if_false]
    split
    · rename_i hja
      have := ra2 j hja
      omega
    · have := rb2 (j - a.vertex.length) (by omega)
      omega

/-- The combined net, once ordered, is glued from pinged copies of the operands. -/
theorem Joined.glue {S : Units U α} (hS : S.Lawful) (seed : Nat → Nat) (h0 : Nat) {n m : NodeId} {a b c : Net U α} {g : Nat → Port}
    (ha : WF S n a) (hb : WF S n b) (hc : WF S m c) (h : Joined S a b c g) (hsr : a.sampleRate = b.sampleRate)
    (hca : ¬ Cyclic a) (hcb : ¬ Cyclic b) (hcc : ¬ Cyclic c) :
    ∃ a1 b1, Pinged S a a1 ∧ Pinged S b b1 ∧ Glue S a1 b1 (determineOrder S seed h0 c) g := by
  obtain ⟨hpa, hpb⟩ := h.parts ha hb hsr
  obtain ⟨oa, _, ea, _⟩ := rank_of_not_cyclic hS ha hca
  obtain ⟨ob, _, eb, _⟩ := rank_of_not_cyclic hS hb hcb
  obtain ⟨pa1, pa2, pa3⟩ := part_of hS seed h0 ha ea hpa
  obtain ⟨pb1, pb2, pb3⟩ := part_of hS seed h0 hb eb hpb
  have hdo := ordered_determineOrder hS seed h0 hc
  obtain ⟨o, h1, _⟩ := C02_net_order hS seed h0 hc
  refine ⟨_, _, pa1, pb1, pa2, pb2, ⟨⟨m, wf_determineOrder hS seed h0 hc⟩, o, h1, (hdo o h1).eval ?_⟩, pa3, ?_⟩
  · intro hcy
    exact hcc ((cyclic_sameWiring (determineOrder_spec hS seed h0 c).1).1 hcy)
  · rw [pa1.wiring.len]; exact pb3

/-- One tick of glued nets. -/
theorem Glue.step {E : Env U α} (hS : E.S.Lawful) {a b c : Net U α} {g : Nat → Port} (h : Glue E.S a b c g) (x xa xb : List α)
    (hxa : ∀ p, p < a.inputs → x.getD p E.S.zero = xa.getD p E.S.zero)
    (hxb : ∀ out, (tick E.S E.seed E.hash0 a xa).2 = a.outputEdge.map (fun e => portVal E.S x out e.source) →
      ∀ p, p < b.inputs → portVal E.S x out (g p) = xb.getD p E.S.zero) :
    Glue E.S (tick E.S E.seed E.hash0 a xa).1 (tick E.S E.seed E.hash0 b xb).1 (tick E.S E.seed E.hash0 c x).1 g ∧
    ∃ eng out, Ticked E.S c x (tick E.S E.seed E.hash0 c x).1 (tick E.S E.seed E.hash0 c x).2 eng out ∧
      (tick E.S E.seed E.hash0 a xa).2 = a.outputEdge.map (fun e => portVal E.S x out e.source) ∧
      (tick E.S E.seed E.hash0 b xb).2 = b.outputEdge.map (fun e => portVal E.S x out (shiftPort a.vertex.length g e.source)) := by
  obtain ⟨eng, out, tc, lc⟩ := h.lc.ticked hS E.seed E.hash0 x
  obtain ⟨enga, outa, ta, la⟩ := h.la.ticked hS E.seed E.hash0 xa
  obtain ⟨engb, outb, tb, lb⟩ := h.lb.ticked hS E.seed E.hash0 xb
  obtain ⟨a1, a2⟩ := h.left.step h.la tc ta hxa
  simp only [shiftPort_zero] at a2
  obtain ⟨b1, b2⟩ := h.right.step h.lb tc tb (hxb out a2)
  exact ⟨⟨la, lb, lc, a1, by rw [ta.len]; exact b1⟩, eng, out, tc, a2, b2⟩

/-- Ticking keeps everything but the nodes. -/
theorem Live.tick_fields {S : Units U α} (hS : S.Lawful) (seed : Nat → Nat) (h0 : Nat) {net : Net U α} (h : Live S net) (x : List α) :
    (tick S seed h0 net x).1.outputEdge = net.outputEdge ∧ (tick S seed h0 net x).1.inputs = net.inputs ∧
    (tick S seed h0 net x).1.outputs = net.outputs ∧ (tick S seed h0 net x).1.vertex.length = net.vertex.length := by
  obtain ⟨_, _, t, _⟩ := h.ticked hS seed h0 x
  have := t.sameWiring
  exact ⟨this.oe, this.inputs, this.outputs, this.len⟩

theorem outs_ready (E : Env U α) (net : Net U α) (xs : List (List α)) : outs E net xs = outs E (ready E.S E.seed E.hash0 net) xs := by
  cases xs with
  | nil => rfl
  | cons x xs =>
    have : tick E.S E.seed E.hash0 net x = tick E.S E.seed E.hash0 (ready E.S E.seed E.hash0 net) x := by
      unfold tick ready
      split
      · rfl
      · rfl
    simp only [outs, this]

theorem map_source_portVal (S : Units U α) (x : List α) (out : Nat → List α) (es : List Edge) :
    es.map (fun e => portVal S x out e.source) = (es.map Edge.source).map (portVal S x out) := by
  rw [List.map_map]; rfl

/-! ## `>>` -/

theorem outs_pipe {E : Env U α} (hS : E.S.Lawful) {g : Nat → Port} {L : Nat} (xs : List (List α)) : ∀ {a b c : Net U α},
    Glue E.S a b c g → a.vertex.length = L → (∀ p, p < b.inputs → (a.outputEdge[p]?).map Edge.source = some (g p)) →
    c.outputEdge.map Edge.source = b.outputEdge.map (fun e => shiftPort L g e.source) →
    outs E c xs = outs E b (outs E a xs) := by
  induction xs with
  | nil => intros; rfl
  | cons x xs ih =>
    intro a b c h hL hg hoe
    obtain ⟨h', eng, out, tc, ya, yb⟩ := h.step hS x x (tick E.S E.seed E.hash0 a x).2 (fun _ _ => rfl) (by
      intro out hya p hp
      rw [hya, List.getD_eq_getElem?_getD, List.getElem?_map]
      have := hg p hp
      rw [Option.map_eq_some_iff] at this
      obtain ⟨e, he, hgp⟩ := this
      rw [he, ← hgp]; rfl)
    obtain ⟨fa1, fa2, fa3, fa4⟩ := h.la.tick_fields hS E.seed E.hash0 x
    obtain ⟨fb1, fb2, fb3, fb4⟩ := h.lb.tick_fields hS E.seed E.hash0 (tick E.S E.seed E.hash0 a x).2
    obtain ⟨fc1, fc2, fc3, fc4⟩ := h.lc.tick_fields hS E.seed E.hash0 x
    simp only [outs]
    rw [ih h' (fa4.trans hL) (by rw [fb2, fa1]; exact hg) (by rw [fc1, fb1]; exact hoe)]
    congr 1
    rw [tc.output_of h.lc tc.solves, yb, map_source_portVal, hoe, List.map_map, hL]
    rfl

/-! ## `|` and `^` -/

theorem outs_join {E : Env U α} (hS : E.S.Lawful) {g : Nat → Port} {L k : Nat} (pa pb : List α → List α) (xs : List (List α))
    (hpa : ∀ (x : List α) (p : Nat), p < k → x.getD p E.S.zero = (pa x).getD p E.S.zero) : ∀ {a b c : Net U α},
    Glue E.S a b c g → a.vertex.length = L → a.inputs = k →
    (∀ (x : List α) (out : Nat → List α) (p : Nat), p < b.inputs → portVal E.S x out (g p) = (pb x).getD p E.S.zero) →
    c.outputEdge.map Edge.source = a.outputEdge.map Edge.source ++ b.outputEdge.map (fun e => shiftPort L g e.source) →
    outs E c xs = List.zipWith (· ++ ·) (outs E a (xs.map pa)) (outs E b (xs.map pb)) := by
  induction xs with
  | nil => intros; rfl
  | cons x xs ih =>
    intro a b c h hL hk hg hoe
    obtain ⟨h', eng, out, tc, ya, yb⟩ := h.step hS x (pa x) (pb x) (by intro p hp; exact hpa x p (hk ▸ hp)) (by
      intro out _ p hp; exact hg x out p hp)
    obtain ⟨fa1, fa2, fa3, fa4⟩ := h.la.tick_fields hS E.seed E.hash0 (pa x)
    obtain ⟨fb1, fb2, fb3, fb4⟩ := h.lb.tick_fields hS E.seed E.hash0 (pb x)
    obtain ⟨fc1, fc2, fc3, fc4⟩ := h.lc.tick_fields hS E.seed E.hash0 x
    simp only [outs, List.map_cons, List.zipWith_cons_cons]
    rw [ih h' (fa4.trans hL) (fa2.trans hk) (by rw [fb2]; exact hg) (by rw [fc1, fb1, fa1]; exact hoe)]
    congr 1
    rw [tc.output_of h.lc tc.solves, ya, yb, map_source_portVal, hoe, List.map_append, hL, map_source_portVal]
    congr 1
    rw [List.map_map]; rfl

/-! ## `+`, `-`, `*`, `&` -/

/-- The nodes `base, base + 1, ..` of `c` are operator units, with sources `p i` and `q i`. -/
structure OpNodes (S : Units U α) (o : Op) (base k : Nat) (p q : Nat → Port) (c : Net U α) : Prop where
  node : ∀ i, i < k → ∃ v, c.vertex[base + i]? = some v ∧ v.eng.next.unit = none ∧ Evolves S (S.binop o) v.eng.unit ∧
    (v.source.take v.ins).map Edge.source = [p i, q i]
  output : c.outputEdge.map Edge.source = (List.range k).map (fun i => .loc (base + i) 0)

/-- The operator units compute `f`. -/
def OpsCompute (S : Units U α) (f : Op → α → α → α) : Prop :=
  ∀ o u, Evolves S (S.binop o) u → ∀ x y, (S.utick u [x, y]).2 = [f o x y]

theorem OpNodes.step {S : Units U α} {f : Op → α → α → α} (hf : OpsCompute S f) {o : Op} {base k : Nat} {p q : Nat → Port} {c c' : Net U α}
    (h : OpNodes S o base k p q c) (hl : Live S c) {x y : List α} {eng : Nat → Eng U α} {out : Nat → List α}
    (t : Ticked S c x c' y eng out) : OpNodes S o base k p q c' ∧
      y = (List.range k).map (fun i => f o (portVal S x out (p i)) (portVal S x out (q i))) := by
  have key : ∀ i, i < k → ∃ v, c.vertex[base + i]? = some v ∧ (v.source.take v.ins).map Edge.source = [p i, q i] ∧
      (eng (base + i)).next.unit = none ∧ Evolves S (S.binop o) (eng (base + i)).unit ∧
      out (base + i) = [f o (portVal S x out (p i)) (portVal S x out (q i))] := by
    intro i hi
    obtain ⟨v, hv, h1, h2, h3⟩ := h.node i hi
    have := t.solves _ v hv
    rw [Eng.tick_plain _ _ _ h1, map_source_portVal, h3] at this
    have e1 : eng (base + i) = _ := (congrArg Prod.fst this).symm
    have e2 : out (base + i) = _ := (congrArg Prod.snd this).symm
    refine ⟨v, hv, h3, by rw [e1]; exact h1, by rw [e1]; exact .tick h2 _, ?_⟩
    rw [e2]
    exact hf o _ h2 _ _
  refine ⟨⟨?_, by rw [t.shell]; exact h.output⟩, ?_⟩
  · intro i hi
    obtain ⟨v, hv, h3, h4, h5, h6⟩ := key i hi
    exact ⟨_, t.get _ v hv, h4, h5, h3⟩
  · rw [t.output_of hl t.solves, map_source_portVal, h.output, List.map_map]
    apply List.map_congr_left
    intro i hi
    obtain ⟨v, hv, h3, h4, h5, h6⟩ := key i (List.mem_range.1 hi)
    simp [portVal, h6]

theorem outs_binary {E : Env U α} (hS : E.S.Lawful) {f : Op → α → α → α} (hf : OpsCompute E.S f) {o : Op} {g : Nat → Port} {L k n base : Nat}
    (pa pb : List α → List α) (p q : Nat → Port) (xs : List (List α))
    (hpa : ∀ (x : List α) (p : Nat), p < k → x.getD p E.S.zero = (pa x).getD p E.S.zero) : ∀ {a b c : Net U α},
    Glue E.S a b c g → OpNodes E.S o base n p q c → a.vertex.length = L → a.inputs = k →
    (∀ (x : List α) (out : Nat → List α) (p : Nat), p < b.inputs → portVal E.S x out (g p) = (pb x).getD p E.S.zero) →
    a.outputEdge.map Edge.source = (List.range n).map p →
    b.outputEdge.map (fun e => shiftPort L g e.source) = (List.range n).map q →
    outs E c xs = List.zipWith (List.zipWith (f o)) (outs E a (xs.map pa)) (outs E b (xs.map pb)) := by
  induction xs with
  | nil => intros; rfl
  | cons x xs ih =>
    intro a b c h ho hL hk hg hp hq
    obtain ⟨h', eng, out, tc, ya, yb⟩ := h.step hS x (pa x) (pb x) (by intro p hp; exact hpa x p (hk ▸ hp)) (by
      intro out _ p hp; exact hg x out p hp)
    obtain ⟨fa1, fa2, fa3, fa4⟩ := h.la.tick_fields hS E.seed E.hash0 (pa x)
    obtain ⟨fb1, fb2, fb3, fb4⟩ := h.lb.tick_fields hS E.seed E.hash0 (pb x)
    obtain ⟨ho', yc⟩ := ho.step hf h.lc tc
    simp only [outs, List.map_cons, List.zipWith_cons_cons]
    rw [ih h' ho' (fa4.trans hL) (fa2.trans hk) (by rw [fb2]; exact hg) (by rw [fa1]; exact hp) (by rw [fb1]; exact hq)]
    congr 1
    have yb' : (tick E.S E.seed E.hash0 b (pb x)).2 = ((List.range n).map q).map (portVal E.S x out) := by
      rw [yb, ← hq, List.map_map, hL]; rfl
    rw [yc, ya, yb', map_source_portVal, hp]
    simp only [List.map_map, List.zipWith_map_left, List.zipWith_map_right, List.zipWith_self]
    rfl

/-! ## `!` -/

theorem outs_thru {E : Env U α} (hS : E.S.Lawful) (xs : List (List α)) (k m : Nat) : ∀ {a c : Net U α},
    Live E.S a → Live E.S c → Part 0 .glob a c → m = a.outputs →
    c.outputEdge.map Edge.source = (a.outputEdge.map Edge.source).take k ++ (List.range (k - m)).map (fun i => .glob (m + i)) →
    (∀ x ∈ xs, x.length = k) →
    outs E c xs = List.zipWith (fun x y => y.take k ++ x.drop m) xs (outs E a xs) := by
  induction xs with
  | nil => intros; rfl
  | cons x xs ih =>
    intro a c la lc h hm hoe hx
    obtain ⟨eng, out, tc, lc'⟩ := lc.ticked hS E.seed E.hash0 x
    obtain ⟨enga, outa, ta, la'⟩ := la.ticked hS E.seed E.hash0 x
    obtain ⟨a1, a2⟩ := h.step la tc ta (fun p _ => rfl)
    simp only [shiftPort_zero] at a2
    obtain ⟨fa1, fa2, fa3, fa4⟩ := la.tick_fields hS E.seed E.hash0 x
    obtain ⟨fc1, fc2, fc3, fc4⟩ := lc.tick_fields hS E.seed E.hash0 x
    simp only [outs, List.zipWith_cons_cons]
    rw [ih la' lc' a1 (hm.trans fa3.symm) (by rw [fc1, fa1]; exact hoe) (fun y hy => hx y (List.mem_cons_of_mem _ hy))]
    congr 1
    rw [tc.output_of lc tc.solves, map_source_portVal, hoe, List.map_append, List.map_take, ← map_source_portVal, ← a2]
    congr 1
    have hxl := hx x (by simp)
    apply List.ext_getElem?
    intro i
    rw [List.getElem?_drop, List.map_map, List.getElem?_map]
    by_cases hi : i < k - m
    · rw [List.getElem?_range hi, List.getElem?_eq_getElem (by omega)]
      simp [portVal, List.getD_eq_getElem?_getD, List.getElem?_eq_getElem (show m + i < x.length by omega)]
    · rw [List.getElem?_eq_none (by simp; omega), List.getElem?_eq_none (by omega)]
      rfl

/-! ## The theorems -/

/-- Gluing, starting from an operator. -/
theorem Joined.run [DecidableEq α] {E : Env U α} (hS : E.S.Lawful) {n m : NodeId} {a b c : Net U α} {g : Nat → Port}
    (ha : Reach E InRange n a) (hb : Reach E InRange n b) (hc : WF E.S m c) (h : Joined E.S a b c g) (hsr : a.sampleRate = b.sampleRate)
    (hca : ¬ Cyclic a) (hcb : ¬ Cyclic b) (hcc : ¬ Cyclic c) :
    ∃ a1 b1, Pinged E.S a a1 ∧ Pinged E.S b b1 ∧ Glue E.S a1 b1 (determineOrder E.S E.seed E.hash0 c) g ∧
      SameWiring c (determineOrder E.S E.seed E.hash0 c) ∧ ∀ xs, outs E c xs = outs E (determineOrder E.S E.seed E.hash0 c) xs := by
  obtain ⟨a1, b1, p1, p2, hg⟩ := h.glue hS E.seed E.hash0 (ha.wf hS) (hb.wf hS) hc hsr hca hcb hcc
  refine ⟨a1, b1, p1, p2, hg, (determineOrder_spec hS _ _ c).1, fun xs => ?_⟩
  rw [outs_ready]
  simp [ready, h.order]

/-- **C09** `a >> b`: the output of `a` is the input of `b`. -/
theorem C09_pipe [DecidableEq α] (E : Env U α) (hS : E.S.Lawful) {n m : NodeId} {a b c : Net U α} (ha : Reach E InRange n a)
    (hb : Reach E InRange n b) (hca : ¬ Cyclic a) (hcb : ¬ Cyclic b) (hsr : a.sampleRate = b.sampleRate)
    (he : Net.pipe a b n = some (c, m)) :
    c.inputs = a.inputs ∧ c.outputs = b.outputs ∧ ¬ Cyclic c ∧
    ∃ a1 b1, Pinged E.S a a1 ∧ Pinged E.S b b1 ∧ ∀ xs, outs E c xs = outs E b1 (outs E a1 xs) := by
  obtain ⟨s1, s2, s3, s4, s5, s6⟩ := pipe_struct (ha.wf hS) (hb.wf hS) he
  have hwc := (wf_op2 hS (ha.wf hS) (hb.wf hS) .pipe he).1
  have hg : ∀ p, p < b.inputs → (a.outputEdge[p]?).map Edge.source =
      some (((a.outputEdge[p]?).map (·.source)).getD .zero) := by
    intro p hp
    have : p < a.outputEdge.length := by rw [(ha.wf hS).valid.oeLen, s1]; exact hp
    simp [List.getElem?_eq_getElem this]
  have hcc := s2.acyclic hS (ha.wf hS) (hb.wf hS) hsr (by
    intro p hp j q hgp
    have h1 := hg p hp
    rw [hgp, Option.map_eq_some_iff] at h1
    obtain ⟨e, he1, he2⟩ := h1
    have := ((ha.wf hS).valid.oe p e he1).2
    rw [he2] at this
    obtain ⟨w, hw, _⟩ := this
    exact (List.getElem?_eq_some_iff.1 hw).1) (by
    intro i j hi hw
    obtain ⟨v, _, _, _, hv, _⟩ := hw
    have := (List.getElem?_eq_some_iff.1 hv).1
    omega) hca hcb
  obtain ⟨a1, b1, p1, p2, hgl, hsw, hrun⟩ := s2.run hS ha hb hwc hsr hca hcb hcc
  refine ⟨s4, s5, hcc, a1, b1, p1, p2, fun xs => ?_⟩
  rw [hrun]
  exact outs_pipe hS xs hgl p1.wiring.len (by rw [p2.wiring.inputs, p1.wiring.oe]; exact hg) (by
    rw [hsw.oe, p2.wiring.oe]; exact s6)

/-- **C09** `a | b`: side by side. -/
theorem C09_stack [DecidableEq α] (E : Env U α) (hS : E.S.Lawful) {n m : NodeId} {a b c : Net U α} (ha : Reach E InRange n a)
    (hb : Reach E InRange n b) (hca : ¬ Cyclic a) (hcb : ¬ Cyclic b) (hsr : a.sampleRate = b.sampleRate)
    (he : Net.stack a b n = some (c, m)) :
    c.inputs = a.inputs + b.inputs ∧ c.outputs = a.outputs + b.outputs ∧ ¬ Cyclic c ∧
    ∃ a1 b1, Pinged E.S a a1 ∧ Pinged E.S b b1 ∧ ∀ xs, outs E c xs =
      List.zipWith (· ++ ·) (outs E a1 (xs.map (List.take a.inputs))) (outs E b1 (xs.map (List.drop a.inputs))) := by
  obtain ⟨s2, s3, s4, s5, s6⟩ := stack_struct (ha.wf hS) (hb.wf hS) he
  have hwc := (wf_op2 hS (ha.wf hS) (hb.wf hS) .stack he).1
  have hcc := s2.acyclic hS (ha.wf hS) (hb.wf hS) hsr (by intro p hp j q hgp; cases hgp) (by
    intro i j hi hw
    obtain ⟨v, _, _, _, hv, _⟩ := hw
    have := (List.getElem?_eq_some_iff.1 hv).1
    omega) hca hcb
  obtain ⟨a1, b1, p1, p2, hgl, hsw, hrun⟩ := s2.run hS ha hb hwc hsr hca hcb hcc
  refine ⟨s4, s5, hcc, a1, b1, p1, p2, fun xs => ?_⟩
  rw [hrun]
  refine outs_join hS (List.take a.inputs) (List.drop a.inputs) xs ?_ hgl p1.wiring.len p1.wiring.inputs ?_ ?_
  · intro x p hp
    simp [List.getD_eq_getElem?_getD, List.getElem?_take, hp]
  · intro x out p hp
    simp [portVal, List.getD_eq_getElem?_getD, Nat.add_comm]
  · rw [hsw.oe, p1.wiring.oe, p2.wiring.oe, s6, List.map_append]
    congr 1
    apply List.ext_getElem?; intro i
    simp only [List.getElem?_map, List.getElem?_mapIdx, Option.map_map]; rfl

/-- **C09** `a ^ b`: the same input for both, outputs side by side. -/
theorem C09_branch [DecidableEq α] (E : Env U α) (hS : E.S.Lawful) {n m : NodeId} {a b c : Net U α} (ha : Reach E InRange n a)
    (hb : Reach E InRange n b) (hca : ¬ Cyclic a) (hcb : ¬ Cyclic b) (hsr : a.sampleRate = b.sampleRate)
    (he : Net.branch a b n = some (c, m)) :
    c.inputs = a.inputs ∧ c.inputs = b.inputs ∧ c.outputs = a.outputs + b.outputs ∧ ¬ Cyclic c ∧
    ∃ a1 b1, Pinged E.S a a1 ∧ Pinged E.S b b1 ∧ ∀ xs, outs E c xs =
      List.zipWith (· ++ ·) (outs E a1 xs) (outs E b1 xs) := by
  obtain ⟨s1, s2, s3, s4, s5, s6⟩ := branch_struct (ha.wf hS) (hb.wf hS) he
  have hwc := (wf_op2 hS (ha.wf hS) (hb.wf hS) .branch he).1
  have hcc := s2.acyclic hS (ha.wf hS) (hb.wf hS) hsr (by intro p hp j q hgp; cases hgp) (by
    intro i j hi hw
    obtain ⟨v, _, _, _, hv, _⟩ := hw
    have := (List.getElem?_eq_some_iff.1 hv).1
    omega) hca hcb
  obtain ⟨a1, b1, p1, p2, hgl, hsw, hrun⟩ := s2.run hS ha hb hwc hsr hca hcb hcc
  refine ⟨s4, s4.trans s1, s5, hcc, a1, b1, p1, p2, fun xs => ?_⟩
  rw [hrun]
  have := outs_join hS id id xs (fun _ _ _ => rfl) hgl p1.wiring.len p1.wiring.inputs (fun _ _ _ _ => rfl) (by
    rw [hsw.oe, p1.wiring.oe, p2.wiring.oe, s6, List.map_append]
    congr 1
    apply List.ext_getElem?; intro i
    simp only [List.getElem?_map, List.getElem?_mapIdx, Option.map_map]; rfl)
  simpa using this

/-- The operator nodes of a combined net once it has been ordered. -/
theorem opNodes_of {S : Units U α} (hS : S.Lawful) (seed : Nat → Nat) (h0 : Nat) {m : NodeId} {c : Net U α} (hc : WF S m c) {o : Op}
    {base k : Nat} {p q : Nat → Port} {r : α} (hk : c.outputs = k)
    (h1 : ∀ i, i < k → ∃ v, c.vertex[base + i]? = some v ∧ v.ins = 2 ∧ v.outs = 1 ∧
      v.eng = (Vertex.new S 0 0 (S.setSR r (S.binop o))).eng ∧ v.source.map Edge.source = [p i, q i])
    (h2 : ∀ i, i < k → (c.outputEdge[i]?).map Edge.source = some (.loc (base + i) 0)) :
    OpNodes S o base k p q (determineOrder S seed h0 c) := by
  refine ⟨?_, ?_⟩
  · intro i hi
    obtain ⟨v, hv, e1, e2, e3, e4⟩ := h1 i hi
    obtain ⟨x1, x2, hd⟩ := determineOrder_units (S := S) seed h0 c _ v hv
    refine ⟨_, hd, ?_, ?_, ?_⟩
    · show v.eng.next.unit = none
      rw [e3]; rfl
    · show Evolves S _ (S.ping false x2 (S.ping true x1 v.eng.unit).1).1
      rw [e3]
      exact .ping (.ping (.setSR (.refl _) r) _ _) _ _
    · show (v.source.take v.ins).map Edge.source = _
      rw [List.take_of_length_le, e4]
      rw [e1, ← List.length_map (f := Edge.source), e4]; simp
  · rw [(determineOrder_spec hS seed h0 c).1.oe]
    apply List.ext_getElem?
    intro i
    by_cases hi : i < k
    · rw [List.getElem?_map, h2 i hi, List.getElem?_map, List.getElem?_range hi]; rfl
    · rw [List.getElem?_eq_none (by rw [List.length_map, hc.valid.oeLen]; omega), List.getElem?_eq_none (by simp; omega)]

theorem map_getD_range (l : List Port) (k : Nat) (h : l.length = k) : l = (List.range k).map (fun i => (l[i]?).getD .zero) := by
  apply List.ext_getElem?
  intro i
  by_cases hi : i < k
  · have : l[i]? = some l[i] := List.getElem?_eq_getElem (by omega)
    rw [List.getElem?_map, List.getElem?_range hi, this]; simp [this]
  · rw [List.getElem?_eq_none (by omega), List.getElem?_eq_none (by simp; omega)]

theorem ops_wires {S : Units U α} {n : NodeId} {a b c : Net U α} (ha : WF S n a) (hb : WF S n b) {g : Nat → Port}
    (hg : ∀ p j q, g p ≠ .loc j q) {k : Nat} (hlen : c.vertex.length = a.vertex.length + b.vertex.length + k) {r : α} {o : Op}
    (h1 : ∀ i, i < k → ∃ v, c.vertex[a.vertex.length + b.vertex.length + i]? = some v ∧ v.ins = 2 ∧ v.outs = 1 ∧
      v.eng = (Vertex.new S 0 0 (S.setSR r (S.binop o))).eng ∧ v.source.map Edge.source = [((a.outputEdge[i]?).map Edge.source).getD .zero,
        ((b.outputEdge[i]?).map (fun e => shiftPort a.vertex.length g e.source)).getD .zero]) :
    ∀ i j, a.vertex.length + b.vertex.length ≤ i → Wire c i j → j < a.vertex.length + b.vertex.length := by
  intro i j hi hw
  obtain ⟨v, ch, e, q, hv, hs, he⟩ := hw
  have hil := (List.getElem?_eq_some_iff.1 hv).1
  obtain ⟨x, rfl⟩ : ∃ x, i = a.vertex.length + b.vertex.length + x := ⟨i - (a.vertex.length + b.vertex.length), by omega⟩
  obtain ⟨w, hw, _, _, _, hsrc⟩ := h1 x (by omega)
  rw [hv] at hw; cases hw
  have hm : Port.loc j q ∈ v.source.map Edge.source := by
    rw [← he]; exact List.mem_map_of_mem (List.mem_of_getElem? hs)
  rw [hsrc] at hm
  simp only [List.mem_cons, List.not_mem_nil, or_false] at hm
  rcases hm with hm | hm
  · cases hx : a.outputEdge[x]? with
    | none => rw [hx] at hm; cases hm
    | some e' =>
      rw [hx] at hm
      have := (ha.valid.oe x e' hx).2
      rw [show e'.source = .loc j q from hm.symm] at this
      obtain ⟨w, hw, _⟩ := this
      have := (List.getElem?_eq_some_iff.1 hw).1
      omega
  · cases hx : b.outputEdge[x]? with
    | none => rw [hx] at hm; cases hm
    | some e' =>
      rw [hx] at hm
      have hm' : Port.loc j q = shiftPort a.vertex.length g e'.source := hm
      have := (hb.valid.oe x e' hx).2
      cases hp : e'.source with
      | zero => rw [hp] at hm'; cases hm'
      | glob p => rw [hp] at hm'; exact absurd hm'.symm (hg p j q)
      | loc j' q' =>
        rw [hp] at hm' this
        obtain ⟨w, hw, _⟩ := this
        have := (List.getElem?_eq_some_iff.1 hw).1
        simp only [shiftPort, Port.loc.injEq] at hm'
        omega

/-- **C09** `a + b`, `a - b`, `a * b`: inputs side by side, outputs combined channel by channel. -/
theorem C09_binary [DecidableEq α] (E : Env U α) (hS : E.S.Lawful) {f : Op → α → α → α} (hf : OpsCompute E.S f) (o : Op)
    {n m : NodeId} {a b c : Net U α} (ha : Reach E InRange n a)
    (hb : Reach E InRange n b) (hca : ¬ Cyclic a) (hcb : ¬ Cyclic b) (hsr : a.sampleRate = b.sampleRate)
    (he : Net.binary E.S o a b n = some (c, m)) :
    c.inputs = a.inputs + b.inputs ∧ c.outputs = a.outputs ∧ c.outputs = b.outputs ∧ ¬ Cyclic c ∧
    ∃ a1 b1, Pinged E.S a a1 ∧ Pinged E.S b b1 ∧ ∀ xs, outs E c xs =
      List.zipWith (List.zipWith (f o)) (outs E a1 (xs.map (List.take a.inputs))) (outs E b1 (xs.map (List.drop a.inputs))) := by
  obtain ⟨s1, s2, s3, s4, s5, s6, s7⟩ := binary_struct hS (ha.wf hS) (hb.wf hS) he
  have hwc := (wf_op2 hS (ha.wf hS) (hb.wf hS) (.binary o) he).1
  have hcc := s2.acyclic hS (ha.wf hS) (hb.wf hS) hsr (by intro p hp j q hgp; cases hgp)
    (ops_wires (ha.wf hS) (hb.wf hS) (by intro p j q h; cases h) s5 s6) hca hcb
  obtain ⟨a1, b1, p1, p2, hgl, hsw, hrun⟩ := s2.run hS ha hb hwc hsr hca hcb hcc
  refine ⟨s3, s4, s4.trans s1, hcc, a1, b1, p1, p2, fun xs => ?_⟩
  rw [hrun]
  refine outs_binary hS hf (List.take a.inputs) (List.drop a.inputs) _ _ xs ?_ hgl (opNodes_of hS E.seed E.hash0 hwc s4 s6 s7)
    p1.wiring.len p1.wiring.inputs ?_ ?_ ?_
  · intro x p hp
    simp [List.getD_eq_getElem?_getD, List.getElem?_take, hp]
  · intro x out p hp
    simp [portVal, List.getD_eq_getElem?_getD, Nat.add_comm]
  · rw [p1.wiring.oe]
    have := map_getD_range (a.outputEdge.map Edge.source) a.outputs (by rw [List.length_map, (ha.wf hS).valid.oeLen])
    simpa only [List.getElem?_map] using this
  · rw [p2.wiring.oe]
    have := map_getD_range (b.outputEdge.map (fun e => shiftPort a.vertex.length (fun p => .glob (p + a.inputs)) e.source)) a.outputs (by
      rw [List.length_map, (hb.wf hS).valid.oeLen, s1])
    simpa only [List.getElem?_map] using this

/-- **C09** `a & b`: the same input for both, outputs added channel by channel. -/
theorem C09_bus [DecidableEq α] (E : Env U α) (hS : E.S.Lawful) {f : Op → α → α → α} (hf : OpsCompute E.S f)
    {n m : NodeId} {a b c : Net U α} (ha : Reach E InRange n a)
    (hb : Reach E InRange n b) (hca : ¬ Cyclic a) (hcb : ¬ Cyclic b) (hsr : a.sampleRate = b.sampleRate)
    (he : Net.bus E.S a b n = some (c, m)) :
    c.inputs = a.inputs ∧ c.inputs = b.inputs ∧ c.outputs = a.outputs ∧ c.outputs = b.outputs ∧ ¬ Cyclic c ∧
    ∃ a1 b1, Pinged E.S a a1 ∧ Pinged E.S b b1 ∧ ∀ xs, outs E c xs =
      List.zipWith (List.zipWith (f .add)) (outs E a1 xs) (outs E b1 xs) := by
  obtain ⟨s0, s1, s2, s3, s4, s5, s6, s7⟩ := bus_struct hS (ha.wf hS) (hb.wf hS) he
  have hwc := (wf_op2 hS (ha.wf hS) (hb.wf hS) .bus he).1
  have hcc := s2.acyclic hS (ha.wf hS) (hb.wf hS) hsr (by intro p hp j q hgp; cases hgp)
    (ops_wires (ha.wf hS) (hb.wf hS) (by intro p j q h; cases h) s5 s6) hca hcb
  obtain ⟨a1, b1, p1, p2, hgl, hsw, hrun⟩ := s2.run hS ha hb hwc hsr hca hcb hcc
  refine ⟨s3, s3.trans s0, s4, s4.trans s1, hcc, a1, b1, p1, p2, fun xs => ?_⟩
  rw [hrun]
  have := outs_binary hS hf id id _ _ xs (fun _ _ _ => rfl) hgl (opNodes_of hS E.seed E.hash0 hwc s4 s6 s7)
    p1.wiring.len p1.wiring.inputs (fun _ _ _ _ => rfl) (by
      rw [p1.wiring.oe]
      have := map_getD_range (a.outputEdge.map Edge.source) a.outputs (by rw [List.length_map, (ha.wf hS).valid.oeLen])
      simpa only [List.getElem?_map] using this) (by
      rw [p2.wiring.oe]
      have := map_getD_range (b.outputEdge.map (fun e => shiftPort a.vertex.length .glob e.source)) a.outputs (by
        rw [List.length_map, (hb.wf hS).valid.oeLen, s1])
      simpa only [List.getElem?_map] using this)
  simpa using this

theorem outs_same {E : Env U α} (hS : E.S.Lawful) (xs : List (List α)) : ∀ {a c : Net U α},
    Live E.S a → Live E.S c → Part 0 .glob a c → c.outputEdge = a.outputEdge → outs E c xs = outs E a xs := by
  induction xs with
  | nil => intros; rfl
  | cons x xs ih =>
    intro a c la lc h hoe
    obtain ⟨eng, out, tc, lc'⟩ := lc.ticked hS E.seed E.hash0 x
    obtain ⟨enga, outa, ta, la'⟩ := la.ticked hS E.seed E.hash0 x
    obtain ⟨a1, a2⟩ := h.step la tc ta (fun p _ => rfl)
    simp only [shiftPort_zero] at a2
    obtain ⟨fa1, fa2, fa3, fa4⟩ := la.tick_fields hS E.seed E.hash0 x
    obtain ⟨fc1, fc2, fc3, fc4⟩ := lc.tick_fields hS E.seed E.hash0 x
    simp only [outs]
    rw [ih la' lc' a1 (by rw [fc1, fa1]; exact hoe), tc.output_of lc tc.solves, hoe, a2]

theorem part_self {a c : Net U α} (h : SameWiring a c) (hsr : c.sampleRate = a.sampleRate)
    (he : ∀ (i : Nat) (v w : Vertex U α), a.vertex[i]? = some v → c.vertex[i]? = some w → w.eng = v.eng) : Part 0 .glob a c := by
  refine ⟨hsr, ?_⟩
  intro k v hv
  have hk := (List.getElem?_eq_some_iff.1 hv).1
  rw [← h.len] at hk
  obtain ⟨h1, h2, h3, h4⟩ := h.node k v _ hv (List.getElem?_eq_getElem hk)
  refine ⟨_, by rw [Nat.zero_add]; exact List.getElem?_eq_getElem hk, he k v _ hv (List.getElem?_eq_getElem hk), ?_⟩
  rw [h2, h4]
  apply List.map_congr_left
  intro e _
  exact (shiftPort_zero _).symm

/-- If pings do not change units (they only set the phases or seeds of pseudorandom units), then the operands run inside
the combined net exactly as they would on their own. -/
theorem C09_exact [DecidableEq α] (E : Env U α) (hS : E.S.Lawful) (hping : ∀ p h u, (E.S.ping p h u).1 = u) {n : NodeId}
    {a a1 : Net U α} (ha : Reach E InRange n a) (hca : ¬ Cyclic a) (h : Pinged E.S a a1) (xs : List (List α)) :
    outs E a1 xs = outs E a xs := by
  rw [outs_ready E a]
  have hs := ready_sameWiring hS E.seed E.hash0 a
  have hw := wf_ready hS E.seed E.hash0 (ha.wf hS)
  have hsr : (ready E.S E.seed E.hash0 a).sampleRate = a.sampleRate := by unfold ready; split <;> rfl
  have heng : ∀ (i : Nat) (v w : Vertex U α), a.vertex[i]? = some v → (ready E.S E.seed E.hash0 a).vertex[i]? = some w → w.eng = v.eng := by
    intro i v w hv hw
    unfold ready at hw
    split at hw
    · rw [hv] at hw; cases hw; rfl
    · obtain ⟨h1, h2, hd⟩ := determineOrder_units (S := E.S) E.seed E.hash0 a i v hv
      rw [hd] at hw; cases hw
      simp [hping]
  have heng1 : ∀ (i : Nat) (v w : Vertex U α), a.vertex[i]? = some v → a1.vertex[i]? = some w → w.eng = v.eng := by
    intro i v w hv hw
    obtain ⟨h1, h2, hd⟩ := h.eng i v w hv hw
    simp [hd, hping]
  have hs1 : SameWiring (ready E.S E.seed E.hash0 a) a1 := by
    refine ⟨h.wiring.inputs.trans hs.inputs.symm, h.wiring.outputs.trans hs.outputs.symm, h.wiring.oe.trans hs.oe.symm,
      h.wiring.index.trans hs.index.symm, h.wiring.len.trans hs.len.symm, ?_⟩
    intro i v w hv hw
    obtain ⟨u, hu⟩ := hs.find hv
    obtain ⟨x1, x2, x3, x4⟩ := hs.node i u v hu hv
    obtain ⟨y1, y2, y3, y4⟩ := h.wiring.node i u w hu hw
    exact ⟨y1.trans x1.symm, y2.trans x2.symm, y3.trans x3.symm, y4.trans x4.symm⟩
  have hp : Part 0 .glob (ready E.S E.seed E.hash0 a) a1 := part_self hs1 (h.sr.trans hsr.symm) (by
    intro i v w hv hw
    obtain ⟨u, hu⟩ := hs.find hv
    rw [heng1 i u w hu hw, heng i u v hu hv])
  obtain ⟨o, ho, hev⟩ := ha.eval hS hca
  have hl1 : Live E.S a1 := by
    refine ⟨⟨n, hw.of_sameWiring hs1 ?_⟩, h.ordered⟩
    intro i w hw1
    obtain ⟨v, hv⟩ := hs1.find hw1
    obtain ⟨x1, x2, x3, x4⟩ := hs1.node i v w hv hw1
    obtain ⟨u, hu⟩ := hs.find hv
    rw [x2, x3, heng1 i u w hu hw1, ← heng i u v hu hv]
    exact hw.engFits hv
  exact outs_same hS xs ⟨⟨n, hw⟩, o, ho, hev⟩ hl1 hp hs1.oe

/-- Ordering a net by itself is one way of pinging it. -/
theorem pinged_self {S : Units U α} (hS : S.Lawful) (seed : Nat → Nat) (h0 : Nat) {n : NodeId} {a : Net U α} (ha : WF S n a)
    (hca : ¬ Cyclic a) : Pinged S a (determineOrder S seed h0 a) := by
  obtain ⟨o, h1, _⟩ := C02_net_order hS seed h0 ha
  have hsw := (determineOrder_spec hS seed h0 a).1
  refine ⟨hsw, rfl, ⟨o, h1, (ordered_determineOrder hS seed h0 ha o h1).eval (fun h => hca ((cyclic_sameWiring hsw).1 h))⟩, ?_⟩
  intro i v w hv hw
  obtain ⟨x1, x2, hd⟩ := determineOrder_units (S := S) seed h0 a i v hv
  rw [hd] at hw; cases hw
  exact ⟨x1, x2, rfl⟩

/-- **C09** `!a`: the outputs of `a`, then the inputs beyond the number of outputs; as many channels as inputs. -/
theorem C09_thru [DecidableEq α] (E : Env U α) (hS : E.S.Lawful) {n : NodeId} {a : Net U α} (ha : Reach E InRange n a)
    (hca : ¬ Cyclic a) : (Net.thru a).inputs = a.inputs ∧ (Net.thru a).outputs = a.inputs ∧ ¬ Cyclic (Net.thru a) ∧
    ∃ a1, Pinged E.S a a1 ∧ ∀ xs, (∀ x ∈ xs, x.length = a.inputs) → outs E (Net.thru a) xs =
      List.zipWith (fun x y => y.take a.inputs ++ x.drop a.outputs) xs (outs E a1 xs) := by
  have hw := ha.wf hS
  have hwc : WF E.S n (Net.thru a) := (wf_edit hS hw .thru trivial rfl).1
  have hwire : ∀ i j, Wire (Net.thru a) i j ↔ Wire a i j := fun i j => Iff.rfl
  have hcc : ¬ Cyclic (Net.thru a) := fun h => hca h
  obtain ⟨oa, _, ea, _⟩ := rank_of_not_cyclic hS hw hca
  have hp : Part 0 .glob a (Net.thru a) := by
    refine ⟨rfl, ?_⟩
    intro k v hv
    refine ⟨v, by rw [Nat.zero_add]; exact hv, rfl, ?_⟩
    apply List.map_congr_left
    intro e _
    exact (shiftPort_zero _).symm
  obtain ⟨q1, q2, q3⟩ := part_of hS E.seed E.hash0 hw ea hp
  have hdo := ordered_determineOrder hS E.seed E.hash0 hwc
  obtain ⟨o, h1, _⟩ := C02_net_order hS E.seed E.hash0 hwc
  have hsw := (determineOrder_spec hS E.seed E.hash0 (Net.thru a)).1
  have hlc : Live E.S (determineOrder E.S E.seed E.hash0 (Net.thru a)) :=
    ⟨⟨n, wf_determineOrder hS _ _ hwc⟩, o, h1, (hdo o h1).eval (fun h => hcc ((cyclic_sameWiring hsw).1 h))⟩
  refine ⟨rfl, rfl, hcc, _, q1, fun xs hx => ?_⟩
  rw [outs_ready]
  have : ready E.S E.seed E.hash0 (Net.thru a) = determineOrder E.S E.seed E.hash0 (Net.thru a) := by simp [ready, Net.thru]
  rw [this]
  refine outs_thru hS xs a.inputs a.outputs q2 hlc q3 rfl ?_ hx
  rw [hsw.oe]
  show ((a.outputEdge.take a.inputs ++ (List.range (a.inputs - a.outputEdge.length)).map
        (fun k => (⟨.glob (a.outputEdge.length + k), .glob (a.outputEdge.length + k)⟩ : Edge)))).map Edge.source = _
  rw [List.map_append, List.map_take, List.map_map, hw.valid.oeLen]
  rfl

/-! ### `-a` -/

theorem scalar_struct {S : Units U α} {sr : α} {n : NodeId} {k : Nat} {x : α} {z : Net U α} (h : Net.scalar S sr n k x = some z) :
    z.vertex = [Vertex.new S n 0 (S.setSR sr (S.const x))] ∧ z.inputs = 0 ∧ z.outputs = k ∧ z.sampleRate = sr ∧
    ∀ i, i < k → (z.outputEdge[i]?).map Edge.source = some (.loc 0 0) := by
  have key : ∀ (m : Nat), m ≤ k → ∀ z', (List.range m).foldlM (fun net i => connectOutput net n 0 i)
      (push S (new sr 0 k) n (S.const x)) = some z' →
      z'.vertex = [Vertex.new S n 0 (S.setSR sr (S.const x))] ∧ z'.inputs = 0 ∧ z'.outputs = k ∧ z'.sampleRate = sr ∧
      z'.nodeIndex.get n = some 0 ∧ z'.outputEdge.length = k ∧ ∀ i, i < m → (z'.outputEdge[i]?).map Edge.source = some (.loc 0 0) := by
    intro m
    induction m with
    | zero =>
      intro _ z' hz
      simp only [List.range_zero, List.foldlM_nil, Option.pure_def, Option.some.injEq] at hz
      subst hz
      exact ⟨rfl, rfl, rfl, rfl, by simp [push, new, IdMap.get, IdMap.insert], by simp [push, new], fun i hi => by omega⟩
    | succ m ih =>
      intro hm z' hz
      rw [List.range_succ, List.foldlM_append] at hz
      simp only [Option.bind_eq_bind, Option.bind_eq_some_iff, List.foldlM_cons, List.foldlM_nil, Option.pure_def] at hz
      obtain ⟨y, hy, w, hw, hz⟩ := hz
      cases hz
      obtain ⟨a1, a2, a3, a4, a5, a6, a7⟩ := ih (by omega) y hy
      simp only [connectOutput, a5, Option.bind_eq_bind, Option.bind_some, a6, show m < k by omega, if_true, Option.some.injEq] at hw
      subst hw
      refine ⟨a1, a2, a3, a4, a5, by simp [setOutputEdge, a6], ?_⟩
      intro i hi
      simp only [setOutputEdge, List.getElem?_set]
      by_cases him : m = i
      · simp [him, a6, show i < k by omega]
      · simp only [him, if_false]; exact a7 i (by omega)
  obtain ⟨a1, a2, a3, a4, a5, a6, a7⟩ := key k (Nat.le_refl k) z h
  exact ⟨a1, a2, a3, a4, a7⟩

/-- The constant unit. -/
def ConstComputes (S : Units U α) : Prop := ∀ x u, Evolves S (S.const x) u → (S.utick u []).2 = [x]

theorem outs_const {E : Env U α} (hS : E.S.Lawful) (hK : ConstComputes E.S) {x : α} {k : Nat} (xs : List (List α)) : ∀ {z : Net U α},
    Live E.S z → (∃ v, z.vertex[0]? = some v ∧ v.eng.next.unit = none ∧ Evolves E.S (E.S.const x) v.eng.unit ∧ v.ins = 0) →
    z.outputEdge.map Edge.source = List.replicate k (.loc 0 0) → outs E z xs = xs.map (fun _ => List.replicate k x) := by
  induction xs with
  | nil => intros; rfl
  | cons y xs ih =>
    intro z hl hv hoe
    obtain ⟨v, hv, h1, h2, h3⟩ := hv
    obtain ⟨eng, out, t, l'⟩ := hl.ticked hS E.seed E.hash0 y
    have hs := t.solves 0 v hv
    rw [Eng.tick_plain _ _ _ h1, h3] at hs
    have e1 : eng 0 = _ := (congrArg Prod.fst hs).symm
    have e2 : out 0 = _ := (congrArg Prod.snd hs).symm
    simp only [List.take_zero, List.map_nil] at e2 e1
    rw [hK x _ h2] at e2
    simp only [outs, List.map_cons]
    rw [ih l' ⟨_, t.get 0 v hv, by simp [e1, h1], by simp only [e1]; exact .tick h2 _, h3⟩ (by rw [t.sameWiring.oe]; exact hoe)]
    congr 1
    rw [t.output_of hl t.solves, map_source_portVal, hoe, List.map_replicate]
    simp [portVal, e2]

theorem outs_shape {E : Env U α} (hS : E.S.Lawful) (xs : List (List α)) : ∀ {a : Net U α}, Live E.S a →
    (outs E a xs).length = xs.length ∧ ∀ y ∈ outs E a xs, y.length = a.outputs := by
  induction xs with
  | nil => intro a _; exact ⟨rfl, by simp [outs]⟩
  | cons x xs ih =>
    intro a hl
    obtain ⟨eng, out, t, l'⟩ := hl.ticked hS E.seed E.hash0 x
    obtain ⟨f1, f2, f3, f4⟩ := hl.tick_fields hS E.seed E.hash0 x
    obtain ⟨i1, i2⟩ := ih l'
    refine ⟨by simp [outs, i1], ?_⟩
    intro y hy
    simp only [outs, List.mem_cons] at hy
    rcases hy with rfl | hy
    · obtain ⟨n, hw⟩ := hl.wf
      rw [t.output_of hl t.solves, List.length_map, hw.valid.oeLen]
    · rw [i2 y hy, f3]

theorem zipWith_const {β : Type} (f : α → α → α) (z : α) (k : Nat) (ys : List (List α)) : ∀ (xs : List β), ys.length = xs.length →
    (∀ y ∈ ys, y.length = k) → List.zipWith (List.zipWith f) (xs.map (fun _ => List.replicate k z)) ys = ys.map (List.map (f z)) := by
  induction ys with
  | nil => intro xs _ _; simp
  | cons y ys ih =>
    intro xs hl hy
    cases xs with
    | nil => simp at hl
    | cons x xs =>
      simp only [List.map_cons, List.zipWith_cons_cons]
      rw [ih xs (by simpa using hl) (fun w hw => hy w (List.mem_cons_of_mem _ hw))]
      congr 1
      have : y.length = k := hy y (by simp)
      subst this
      clear hl hy ih
      induction y with
      | nil => rfl
      | cons a y ih => simp only [List.length_cons, List.replicate_succ, List.zipWith_cons_cons, List.map_cons, ih]

/-- **C09** `-a`: every output is subtracted from zero. -/
theorem C09_neg [DecidableEq α] (E : Env U α) (hS : E.S.Lawful) {f : Op → α → α → α} (hf : OpsCompute E.S f) (hK : ConstComputes E.S)
    {n m : NodeId} {sr : α} {a c : Net U α} (ha : Reach E InRange n a) (hca : ¬ Cyclic a) (hsr : a.sampleRate = sr)
    (he : Net.neg E.S sr a n = some (c, m)) : c.inputs = a.inputs ∧ c.outputs = a.outputs ∧ ¬ Cyclic c ∧
    ∃ a1, Pinged E.S a a1 ∧ ∀ xs, outs E c xs = (outs E a1 xs).map (List.map (f .sub E.S.zero)) := by
  simp only [Net.neg, Option.bind_eq_bind, Option.bind_eq_some_iff] at he
  obtain ⟨z, hz, he⟩ := he
  obtain ⟨z1, z2, z3, z4, z5⟩ := scalar_struct hz
  have rz : Reach E InRange (n + 1) z := .scalar hz
  have hcz : ¬ Cyclic z := by
    apply not_cyclic_of_rank (fun _ => 0)
    intro i j hw
    obtain ⟨v, ch, e, q, hv, hs, _⟩ := hw
    rw [z1] at hv
    have hi : i = 0 := by
      have := (List.getElem?_eq_some_iff.1 hv).1
      simpa using this
    subst hi
    cases hv
    simp [Vertex.new, hS.ins_setSR, hS.ins_const] at hs
  obtain ⟨b1, b2, b3, b4, y1, a1, py, pa, hrun⟩ := C09_binary E hS hf .sub rz (ha.later (Nat.le_succ n)) hcz hca (z4.trans hsr.symm) he
  refine ⟨by rw [b1, z2]; omega, b3, b4, a1, pa, fun xs => ?_⟩
  have la : Live E.S a1 := by
    refine ⟨⟨n, (ha.wf hS).of_sameWiring pa.wiring ?_⟩, pa.ordered⟩
    intro i w hw
    obtain ⟨v, hv⟩ := pa.wiring.find hw
    obtain ⟨x1, x2, x3, x4⟩ := pa.wiring.node i v w hv hw
    obtain ⟨u1, u2, hd⟩ := pa.eng i v w hv hw
    have := (ha.wf hS).engFits hv
    rw [x2, x3, hd]
    exact ⟨by simpa [hS.ins_ping, hS.outs_ping] using this.1, this.2⟩
  have ly : Live E.S y1 := by
    refine ⟨⟨n + 1, (rz.wf hS).of_sameWiring py.wiring ?_⟩, py.ordered⟩
    intro i w hw
    obtain ⟨v, hv⟩ := py.wiring.find hw
    obtain ⟨x1, x2, x3, x4⟩ := py.wiring.node i v w hv hw
    obtain ⟨u1, u2, hd⟩ := py.eng i v w hv hw
    have := (rz.wf hS).engFits hv
    rw [x2, x3, hd]
    exact ⟨by simpa [hS.ins_ping, hS.outs_ping] using this.1, this.2⟩
  have hzv : z.vertex[0]? = some (Vertex.new E.S n 0 (E.S.setSR sr (E.S.const E.S.zero))) := by rw [z1]; rfl
  have hconst := outs_const (x := E.S.zero) (k := a.outputs) hS hK (xs.map (List.take z.inputs)) ly (by
    have hl : 0 < y1.vertex.length := by rw [py.wiring.len, z1]; simp
    obtain ⟨x1, x2, x3, x4⟩ := py.wiring.node 0 _ _ hzv (List.getElem?_eq_getElem hl)
    obtain ⟨u1, u2, hd⟩ := py.eng 0 _ _ hzv (List.getElem?_eq_getElem hl)
    refine ⟨_, List.getElem?_eq_getElem hl, by rw [hd]; rfl, ?_, ?_⟩
    · rw [hd]
      exact .ping (.ping (.setSR (.refl _) sr) _ _) _ _
    · rw [x2]; simp [Vertex.new, hS.ins_setSR, hS.ins_const]) (by
    rw [py.wiring.oe]
    apply List.ext_getElem?
    intro i
    by_cases hi : i < a.outputs
    · rw [List.getElem?_map, z5 i hi, List.getElem?_replicate, if_pos hi]
    · rw [List.getElem?_eq_none (by rw [List.length_map, (rz.wf hS).valid.oeLen, z3]; omega), List.getElem?_eq_none (by simp; omega)])
  rw [hrun xs, hconst, z2, List.map_map]
  have hdrop : xs.map (List.drop 0) = xs := List.map_id xs
  rw [hdrop]
  obtain ⟨l1, l2⟩ := outs_shape hS xs la
  exact zipWith_const (f .sub) E.S.zero a.outputs (outs E a1 xs) xs l1 (fun y hy => by rw [l2 y hy, pa.wiring.outputs])

/-- The demo operator and constant units compute what they should. -/
theorem demo_evolves {u v : DU} (h : Evolves demo u v) : v.ins = u.ins ∧ v.outs = u.outs ∧ v.op = u.op ∧ v.step = u.step ∧
    (u.step = 0 → v.k = u.k) := by
  induction h with
  | refl => exact ⟨rfl, rfl, rfl, rfl, fun _ => rfl⟩
  | tick _ x ih =>
    obtain ⟨i1, i2, i3, i4, i5⟩ := ih
    simp only [demo]
    split
    · rename_i hn
      refine ⟨i1, i2, i3, i4, ?_⟩
      intro h
      simp only [i4, h]
      simpa using i5 h
    · exact ⟨i1, i2, i3, i4, i5⟩
  | reset _ ih => exact ⟨ih.1, ih.2.1, ih.2.2.1, ih.2.2.2.1, fun h => by simp [demo, ih.2.2.2.1, h, ih.2.2.2.2 h]⟩
  | setSR _ r ih => exact ih
  | ping _ p k ih => exact ih

example : OpsCompute demo opFn := by
  intro o u h x y
  obtain ⟨h1, h2, h3, _⟩ := demo_evolves h
  simp only [demo] at h1 h2 h3
  simp [demo, h3, h2]

example : ConstComputes demo := by
  intro x u h
  obtain ⟨h1, h2, h3, _, h5⟩ := demo_evolves h
  simp only [demo] at h1 h2 h3 h5
  simp [demo, h3, h2, h5]

/-! ### When the operators are accepted

The theorems above describe the result of an operator. These say when there is one: the channel counts must agree, and at most one of the
operands may have a backend. -/

theorem resolveFrontend_isSome (net other : Net U α) :
    (resolveFrontend net other).isSome ↔ ¬ (net.hasBackend = true ∧ other.hasBackend = true) := by
  unfold resolveFrontend
  cases net.hasBackend <;> cases other.hasBackend <;> simp

theorem pushOps_hasBackend (S : Units U α) (op : Op) (addOffset : Nat) (k : Nat) : ∀ (i : Nat) (net : Net U α) (n : NodeId),
    (pushOps S op addOffset i k net n).1.hasBackend = net.hasBackend := by
  induction k with
  | zero => intro i net n; rfl
  | succ k ih => intro i net n; rw [pushOps]; exact (ih _ _ _).trans rfl

theorem connectOps_hasBackend (addOffset port : Nat) (f : Port → Port) (es : List Edge) : ∀ (i : Nat) (net : Net U α),
    (connectOps addOffset port f i es net).hasBackend = net.hasBackend := by
  induction es with
  | nil => intro i net; rfl
  | cons e es ih =>
    intro i net
    rw [connectOps]
    refine (ih _ _).trans ?_
    split
    · rfl
    · rfl

/-- **C09** (acceptance): `a >> b` is defined exactly when the outputs of `a` match the inputs of `b`. -/
theorem C09_pipe_accepts (a b : Net U α) (n : NodeId) : (Net.pipe a b n).isSome ↔
    a.outputs = b.inputs ∧ ¬ (a.hasBackend = true ∧ b.hasBackend = true) := by
  unfold Net.pipe
  split
  · rename_i h; simp [h]
  · rename_i h
    simp only [Option.isSome_map, resolveFrontend_isSome]
    simp only [ne_eq, Classical.not_not] at h
    simp [h, appendVertices, disambiguate]

/-- **C09** (acceptance): `a | b` is always defined. -/
theorem C09_stack_accepts (a b : Net U α) (n : NodeId) : (Net.stack a b n).isSome ↔
    ¬ (a.hasBackend = true ∧ b.hasBackend = true) := by
  unfold Net.stack
  simp only [Option.isSome_map, resolveFrontend_isSome]
  simp [appendVertices, disambiguate]

/-- **C09** (acceptance): `a ^ b` is defined exactly when the inputs agree. -/
theorem C09_branch_accepts (a b : Net U α) (n : NodeId) : (Net.branch a b n).isSome ↔
    a.inputs = b.inputs ∧ ¬ (a.hasBackend = true ∧ b.hasBackend = true) := by
  unfold Net.branch
  split
  · rename_i h; simp [h]
  · rename_i h
    simp only [Option.isSome_map, resolveFrontend_isSome]
    simp only [ne_eq, Classical.not_not] at h
    simp [h, appendVertices, disambiguate]

/-- **C09** (acceptance): `a + b`, `a - b` and `a * b` are defined exactly when the outputs agree. -/
theorem C09_binary_accepts (S : Units U α) (o : Op) (a b : Net U α) (n : NodeId) : (Net.binary S o a b n).isSome ↔
    a.outputs = b.outputs ∧ ¬ (a.hasBackend = true ∧ b.hasBackend = true) := by
  unfold Net.binary
  split
  · rename_i h; simp [h]
  · rename_i h
    simp only [Option.isSome_map, resolveFrontend_isSome, connectOps_hasBackend, pushOps_hasBackend]
    simp only [ne_eq, Classical.not_not] at h
    simp [h, appendVertices, disambiguate]

/-- **C09** (acceptance): `a & b` is defined exactly when inputs and outputs agree. -/
theorem C09_bus_accepts (S : Units U α) (a b : Net U α) (n : NodeId) : (Net.bus S a b n).isSome ↔
    a.inputs = b.inputs ∧ a.outputs = b.outputs ∧ ¬ (a.hasBackend = true ∧ b.hasBackend = true) := by
  unfold Net.bus
  split
  · rename_i h; simp [h]
  · rename_i h
    split
    · rename_i h2; simp [h2]
    · rename_i h2
      simp only [Option.isSome_map, resolveFrontend_isSome, connectOps_hasBackend, pushOps_hasBackend]
      simp only [ne_eq, Classical.not_not] at h h2
      simp [h, h2, appendVertices, disambiguate]

/-- C09: two operands with matching channels. -/
example : (Net.pipe (new 44100 1 2 : Net DU Int) (new 44100 2 3) 0).isSome := by decide

/-- `generator >> filter` in the demo system. -/
example : ∃ a b c m, Reach demoEnv InRange 2 a ∧ Reach demoEnv InRange 2 b ∧ ¬ Cyclic a ∧ ¬ Cyclic b ∧
    a.sampleRate = b.sampleRate ∧ Net.pipe a b 2 = some (c, m) ∧ outs demoEnv c [[], [], []] = [[1], [2], [3]] := by
  have h1 : Reach demoEnv InRange 1 _ := .wrap (n := 0) (sr := 44100) (u := gen1) rfl
  have h2 : Reach demoEnv InRange 2 _ := .wrap (n := 1) (sr := 44100) (u := fil1) rfl
  refine ⟨_, _, _, _, h1.later (by decide), h2, ?_, ?_, rfl, rfl, rfl⟩
  · rw [← C02_error demoEnv demo_lawful h1]; decide
  · rw [← C02_error demoEnv demo_lawful h2]; decide

end Fundsp.Net
