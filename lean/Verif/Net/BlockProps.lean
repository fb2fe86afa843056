import Verif.Net.Block
import Verif.Net.Demo
import Verif.Math.Props
import Mathlib.Data.Real.Archimedean

/-! # C08: processing a net in blocks is ticking it -/

namespace Fundsp.Net
variable {U α : Type}

/-- Calls to a net. A block comes with the previous contents of the output buffer and of the internal `output_tmp` buffers. -/
inductive NCall (α : Type)
  | tick (x : List α)
  | block (size : Nat) (input old : CBuf α) (tmp : Nat → CBuf α)
  | reset

/-- Runs a sequence of calls; collects all output frames. -/
def run (E : Env U α) (P : Proc U α) : Net U α → List (NCall α) → Net U α × List (List α)
  | net, [] => (net, [])
  | net, .tick x :: cs =>
    let r := tick E.S E.seed E.hash0 net x
    let q := run E P r.1 cs
    (q.1, r.2 :: q.2)
  | net, .block size input old tmp :: cs =>
    let r := process E.S P E.seed E.hash0 net size input old tmp
    let q := run E P r.1 cs
    (q.1, (List.range size).map (frames net.outputs r.2) ++ q.2)
  | net, .reset :: cs => run E P (reset E.S E.seed E.hash0 net) cs

/-- The same calls with every block replaced by single ticks. -/
def asTicks (inputs : Nat) : List (NCall α) → List (NCall α)
  | [] => []
  | .tick x :: cs => .tick x :: asTicks inputs cs
  | .block size input _ _ :: cs => (List.range size).map (fun k => NCall.tick (frames inputs input k)) ++ asTicks inputs cs
  | .reset :: cs => .reset :: asTicks inputs cs

/-- Blocks have at most `MAX_BUFFER_SIZE` samples. -/
def SizesOK (cs : List (NCall α)) : Prop := ∀ size input old tmp, NCall.block size input old tmp ∈ cs → size ≤ 64

theorem ready_of_runs {S : Units U α} {net : Net U α} {o : List Nat} (h : Runs S net o) (seed : Nat → Nat) (h0 : Nat) :
    ready S seed h0 net = net := by simp [ready, h.order]

theorem good_engSt {S : Units U α} {P : Proc U α} {R : U → U → Prop} {sr : α} {Good : Eng U α → Prop} (B : EngBlock S P R sr Good)
    {e : Eng U α} (hR : EngRel R e e) (h : Good e) (X : Nat → List α) (k : Nat) : EngRel R (engSt S sr e X k) (engSt S sr e X k) ∧ Good (engSt S sr e X k) := by
  induction k with
  | zero => exact ⟨hR, h⟩
  | succ k ih =>
    have := B.tick _ _ (X k) ih.1 ih.2
    exact ⟨this.1.1, this.2⟩

/-- The units of a node, audible or waiting, are related to themselves, that is, obey the law of blocks. -/
def Eng.Obeys (R : U → U → Prop) (e : Eng U α) : Prop := ∀ u, (u = e.unit ∨ e.next.unit = some u ∨ e.latest.unit = some u) → R u u

theorem engRel_refl {R : U → U → Prop} {e : Eng U α} (h : e.Obeys R) : EngRel R e e := by
  refine ⟨h _ (Or.inl rfl), rfl, ⟨?_, rfl, rfl, rfl, rfl⟩, ⟨?_, rfl, rfl, rfl, rfl⟩⟩
  · cases hu : e.next.unit with
    | none => exact .none
    | some u => exact .some (h u (Or.inr (Or.inl hu)))
  · cases hu : e.latest.unit with
    | none => exact .none
    | some u => exact .some (h u (Or.inr (Or.inr hu)))

theorem netRel_refl {R : U → U → Prop} (net : Net U α) (hR : ∀ v ∈ net.vertex, v.eng.Obeys R) : NetRel R net net := by
  refine ⟨rfl, rfl, rfl, rfl, rfl, rfl, rfl, ?_⟩
  intro i v u hv hu
  rw [hv] at hu; cases hu
  exact ⟨engRel_refl (hR v (List.mem_of_getElem? hv)), rfl, rfl, rfl, rfl, rfl⟩

/-- Ticking on the processing side, by viewing one tick as a run. -/
theorem tickOrdered_rel {S : Units U α} {P : Proc U α} {R : U → U → Prop} {Good : Eng U α → Prop} {m p : Net U α} {o : List Nat}
    (B : EngBlock S P R m.sampleRate Good) (hr : Runs S m o) (hp : NetRel R p m)
    (hg : ∀ (i : Nat) (u : Vertex U α), m.vertex[i]? = some u → Good u.eng) (x : List α) :
    NetRel R (tickOrdered S p x).1 (tickOrdered S m x).1 ∧ (tickOrdered S p x).2 = (tickOrdered S m x).2 := by
  have hpw : EvalOrder p o := by
    refine ⟨by rw [hp.len]; exact hr.eval.perm, fun a i b hab j hj => hr.eval.topo a i b hab j ?_⟩
    obtain ⟨v, c, e, q, hv, hc, he⟩ := hj
    have hu := List.getElem?_eq_getElem (show i < m.vertex.length by rw [← hp.len]; exact (List.getElem?_eq_some_iff.1 hv).1)
    exact ⟨_, c, e, q, hu, by rw [← (hp.node i v _ hv hu).source]; exact hc, he⟩
  obtain ⟨e1, o1, a1, a2, a3, a4, a5⟩ := tickOrdered_solves (S := S) p x (by rw [hp.order, hr.order]) hpw
  obtain ⟨e2, o2, b1, b2, b3, b4, b5⟩ := tickOrdered_solves (S := S) m x hr.order hr.eval
  -- both solutions agree, along the order
  have key : ∀ (b a : List Nat), o = a ++ b → ∀ i ∈ a, i < m.vertex.length → EngRel R (e1 i) (e2 i) ∧ o1 i = o2 i := by
    intro b a
    induction a using List.reverseRecOn generalizing b with
    | nil => intro _ i hi; simp at hi
    | append_singleton a n ih =>
      intro hab i hi hil
      have IH := ih (n :: b) (by rw [hab]; simp)
      rw [List.mem_append, List.mem_singleton] at hi
      rcases hi with hi | rfl
      · exact IH i hi hil
      · obtain ⟨u, hu⟩ : ∃ u, m.vertex[i]? = some u := ⟨_, List.getElem?_eq_getElem hil⟩
        obtain ⟨v, hv⟩ : ∃ v, p.vertex[i]? = some v := ⟨_, List.getElem?_eq_getElem (by rw [hp.len]; exact hil)⟩
        have hrel := hp.node i _ _ hv hu
        have s1 := a1 i _ hv
        have s2 := b1 i _ hu
        have hx : (v.source.take v.ins).map (fun e => portVal S x o1 e.source)
            = (u.source.take u.ins).map (fun e => portVal S x o2 e.source) := by
          rw [hrel.source, hrel.ins]
          apply List.map_congr_left
          intro e he
          obtain ⟨c, hc⟩ := List.getElem?_of_mem (List.mem_of_mem_take he)
          apply portVal_congr
          intro j q hjq
          have hok := (hr.valid.edge i _ c e hu hc).2
          rw [hjq] at hok
          obtain ⟨uj, huj, _⟩ := hok
          have hj : j ∈ a := hr.eval.topo a i b (by rw [hab]; simp) j ⟨_, c, e, q, hu, hc, hjq⟩
          exact (IH j hj (List.getElem?_eq_some_iff.1 huj).1).2
        have := (B.tick _ _ ((u.source.take u.ins).map (fun e => portVal S x o2 e.source)) hrel.eng (hg i _ hu)).1
        rw [hx, hp.sr] at s1
        rw [s1, s2] at this
        exact this
  have key' : ∀ i, i < m.vertex.length → EngRel R (e1 i) (e2 i) ∧ o1 i = o2 i := fun i hi =>
    key [] o (by simp) i (hr.eval.perm.mem_iff.2 (List.mem_range.2 hi)) hi
  refine ⟨⟨?_, ?_, ?_, ?_, ?_, ?_, ?_, ?_⟩, ?_⟩
  · rw [a2, b2]; exact hp.inputs
  · rw [a2, b2]; exact hp.outputs
  · rw [a2, b2]; exact hp.oe
  · rw [a2, b2]; exact hp.order
  · rw [a2, b2]; exact hp.sr
  · rw [a2, b2]; exact hp.index
  · rw [a3, b3]; exact hp.len
  · intro i v u hv hu
    have hil : i < m.vertex.length := by rw [← b3]; exact (List.getElem?_eq_some_iff.1 hu).1
    have hu0 := List.getElem?_eq_getElem hil
    have hv0 := List.getElem?_eq_getElem (show i < p.vertex.length by rw [hp.len]; exact hil)
    rw [a4 i _ hv0] at hv; cases hv
    rw [b4 i _ hu0] at hu; cases hu
    have hrel := hp.node i _ _ hv0 hu0
    exact ⟨(key' i hil).1, hrel.source, hrel.ins, hrel.outs, hrel.src, hrel.id⟩
  · rw [a5, b5, hp.oe, hp.outputs]
    apply List.map_congr_left
    intro e he
    obtain ⟨c, hc⟩ := List.getElem?_of_mem (List.mem_of_mem_take he)
    apply portVal_congr
    intro j q hjq
    have hok := (hr.valid.oe c e hc).2
    rw [hjq] at hok
    obtain ⟨uj, huj, _⟩ := hok
    exact (key' j (List.getElem?_eq_some_iff.1 huj).1).2

/-- Resetting keeps everything that is needed. -/
theorem reset_rel {S : Units U α} (hS : S.Lawful) {P : Proc U α} {R : U → U → Prop} (L : BlockLaw S P R) (seed : Nat → Nat) (h0 : Nat)
    {m p : Net U α} {o : List Nat} (hr : Runs S m o) (hp : NetRel R p m) :
    NetRel R (reset S seed h0 p) (reset S seed h0 m) ∧ Runs S (reset S seed h0 m) o ∧
    (reset S seed h0 m).sampleRate = m.sampleRate ∧ (reset S seed h0 m).inputs = m.inputs ∧ (reset S seed h0 m).outputs = m.outputs ∧
    ∀ (i : Nat) (u : Vertex U α), (reset S seed h0 m).vertex[i]? = some u →
      ∃ u0, m.vertex[i]? = some u0 ∧ u.eng = { u0.eng with unit := S.reset u0.eng.unit } := by
  have em : reset S seed h0 m = { m with vertex := m.vertex.map (fun v =>
      { v with eng := { v.eng with unit := S.reset v.eng.unit }, changed := m.revision }) } := by simp [reset, hr.order]
  have ep : reset S seed h0 p = { p with vertex := p.vertex.map (fun v =>
      { v with eng := { v.eng with unit := S.reset v.eng.unit }, changed := p.revision }) } := by simp [reset, hp.order, hr.order]
  have hget : ∀ (i : Nat) (u : Vertex U α), (reset S seed h0 m).vertex[i]? = some u →
      ∃ u0, m.vertex[i]? = some u0 ∧ u = { u0 with eng := { u0.eng with unit := S.reset u0.eng.unit }, changed := m.revision } := by
    intro i u hu
    rw [em, List.getElem?_map, Option.map_eq_some_iff] at hu
    obtain ⟨u0, h1, h2⟩ := hu
    exact ⟨u0, h1, h2.symm⟩
  have hsw : SameWiring m (reset S seed h0 m) := by
    refine ⟨by rw [em], by rw [em], by rw [em], by rw [em], by rw [em]; simp, ?_⟩
    intro i v w hv hw
    obtain ⟨u0, h1, h2⟩ := hget i w hw
    rw [hv] at h1; cases h1; subst h2; exact ⟨rfl, rfl, rfl, rfl⟩
  have har : ∀ (i : Nat) (v : Vertex U α), (reset S seed h0 m).vertex[i]? = some v → EngArity S v.ins v.outs v.eng := by
    intro i v hv
    obtain ⟨u0, h1, rfl⟩ := hget i v hv
    have := hr.arity i u0 h1
    exact ⟨⟨(hS.ins_reset _).trans this.1.1, (hS.outs_reset _).trans this.1.2⟩, this.2⟩
  refine ⟨?_, ⟨by rw [em]; exact hr.order, evalOrder_congr hr.eval hsw, valid_sameWiring hsw hr.valid har, har, ?_⟩,
    by rw [em], by rw [em], by rw [em], ?_⟩
  · rw [em, ep]
    refine ⟨hp.inputs, hp.outputs, hp.oe, hp.order, hp.sr, hp.index, by simp [hp.len], ?_⟩
    intro i v u hv hu
    simp only [List.getElem?_map, Option.map_eq_some_iff] at hv hu
    obtain ⟨v0, h1, rfl⟩ := hv
    obtain ⟨u0, h2, rfl⟩ := hu
    have := hp.node i v0 u0 h1 h2
    exact ⟨⟨L.reset _ _ this.eng.unit, this.eng.phase, this.eng.next, this.eng.latest⟩, this.source, this.ins, this.outs, this.src, this.id⟩
  · intro i v hv
    obtain ⟨u0, h1, rfl⟩ := hget i v hv
    exact (hr.src i u0 h1).trans (updateSourceVertex_congr rfl rfl).symm
  · intro i u hu
    obtain ⟨u0, h1, rfl⟩ := hget i u hu
    exact ⟨u0, h1, rfl⟩

theorem run_append (E : Env U α) (P : Proc U α) (net : Net U α) (a b : List (NCall α)) :
    run E P net (a ++ b) = ((run E P (run E P net a).1 b).1, (run E P net a).2 ++ (run E P (run E P net a).1 b).2) := by
  induction a generalizing net with
  | nil => rfl
  | cons c a ih =>
    cases c with
    | tick x => simp only [List.cons_append, run, ih]
    | block s i o t => simp only [List.cons_append, run, ih, List.append_assoc]
    | reset => simp only [List.cons_append, run, ih]

theorem run_ticks {E : Env U α} (hS : E.S.Lawful) (P : Proc U α) {m : Net U α} {o : List Nat} (hr : Runs E.S m o) (w : Nat → List α) (k : Nat) :
    run E P m ((List.range k).map (fun j => NCall.tick (w j))) =
      (netSt E.S m w k, (List.range k).map (fun j => (tickOrdered E.S (netSt E.S m w j) (w j)).2)) := by
  induction k with
  | zero => rfl
  | succ k ih =>
    have e : ∀ n : Net U α, n.order = some o → tick E.S E.seed E.hash0 n (w k) = tickOrdered E.S n (w k) := by
      intro n hn; simp [tick, hn]
    rw [List.range_succ, List.map_append, run_append, ih]
    simp only [List.map_cons, List.map_nil, run, List.map_append]
    rw [e _ (runs_netSt hS hr w k).order]
    rfl

theorem netSt_rel {S : Units U α} (hS : S.Lawful) {P : Proc U α} {R : U → U → Prop} {Good : Eng U α → Prop} {m : Net U α} {o : List Nat}
    (B : EngBlock S P R m.sampleRate Good) (hr : Runs S m o) (hm : NetRel R m m)
    (hg : ∀ (i : Nat) (u : Vertex U α), m.vertex[i]? = some u → Good u.eng) (w : Nat → List α) (k : Nat) :
    NetRel R (netSt S m w k) (netSt S m w k) := by
  induction k with
  | zero => exact hm
  | succ k ih =>
    have hN := netAt hr w k
    have hsr : (netSt S m w k).sampleRate = m.sampleRate := by rw [hN.shell]
    refine (tickOrdered_rel (P := P) (Good := Good) (by rw [hsr]; exact B) (runs_netSt hS hr w k) ih ?_ (w k)).1
    intro i u hu
    obtain ⟨u0, hu0⟩ := hN.sameWiring.find hu
    obtain ⟨t, ht⟩ := hN.get i u0 hu0
    rw [hu] at ht; cases ht
    exact (good_engSt B (hm.node i u0 u0 hu0 hu0).eng (hg i u0 hu0) _ k).2

/-- Runs of related nets. -/
theorem run_rel {E : Env U α} (hS : E.S.Lawful) {P : Proc U α} {R : U → U → Prop} (L : BlockLaw E.S P R)
    {Good : Eng U α → Prop} {sr : α} (B : EngBlock E.S P R sr Good) (cs : List (NCall α)) : ∀ {m p : Net U α} {o : List Nat},
    m.sampleRate = sr → Runs E.S m o → NetRel R m m → NetRel R p m →
    (∀ (i : Nat) (u : Vertex U α), m.vertex[i]? = some u → Good u.eng) → SizesOK cs →
    (run E P p cs).2 = (run E P m (asTicks m.inputs cs)).2 ∧ NetRel R (run E P p cs).1 (run E P m (asTicks m.inputs cs)).1 := by
  induction cs with
  | nil => intro m p o _ _ _ hp _ _; exact ⟨rfl, hp⟩
  | cons c cs ih =>
    intro m p o hsr hr hm hp hg hs
    have hs' : SizesOK cs := fun a b c d h => hs a b c d (List.mem_cons_of_mem _ h)
    subst hsr
    cases c with
    | tick x =>
      have em : tick E.S E.seed E.hash0 m x = tickOrdered E.S m x := by simp [tick, hr.order]
      have ep : tick E.S E.seed E.hash0 p x = tickOrdered E.S p x := by simp [tick, hp.order, hr.order]
      obtain ⟨h1, h2⟩ := tickOrdered_rel B hr hp hg x
      have hN := netAt hr (fun _ => x) 1
      have hrun := runs_netSt hS hr (fun _ => x) 1
      have e1 : netSt E.S m (fun _ => x) 1 = (tickOrdered E.S m x).1 := rfl
      have hg' : ∀ (i : Nat) (u : Vertex U α), (tickOrdered E.S m x).1.vertex[i]? = some u → Good u.eng := by
        intro i u hu
        obtain ⟨u0, hu0⟩ := hN.sameWiring.find (by rw [e1]; exact hu)
        obtain ⟨t, ht⟩ := hN.get i u0 hu0
        rw [e1, hu] at ht; cases ht
        exact (good_engSt B (hm.node i u0 u0 hu0 hu0).eng (hg i u0 hu0) _ 1).2
      have hi : (tickOrdered E.S m x).1.inputs = m.inputs := rfl
      have := ih (m := (tickOrdered E.S m x).1) (p := (tickOrdered E.S p x).1) (o := o) rfl hrun (tickOrdered_rel B hr hm hg x).1 h1 hg' hs'
      simp only [run, asTicks, em, ep]
      rw [hi] at this
      exact ⟨by rw [h2, this.1], this.2⟩
    | block size input old tmp =>
      have hsz := hs size input old tmp (by simp)
      have ep : process E.S P E.seed E.hash0 p size input old tmp = processOrdered E.S P p size input old tmp := by
        simp [process, ready, hp.order, hr.order]
      obtain ⟨h1, h2⟩ := processOrdered_spec B hr hp hg size hsz input old tmp
      have hN := netAt hr (frames m.inputs input) size
      have hrun := runs_netSt hS hr (frames m.inputs input) size
      have hg' : ∀ (i : Nat) (u : Vertex U α), (netSt E.S m (frames m.inputs input) size).vertex[i]? = some u → Good u.eng := by
        intro i u hu
        obtain ⟨u0, hu0⟩ := hN.sameWiring.find hu
        obtain ⟨t, ht⟩ := hN.get i u0 hu0
        rw [hu] at ht; cases ht
        exact (good_engSt B (hm.node i u0 u0 hu0 hu0).eng (hg i u0 hu0) _ size).2
      have hi : (netSt E.S m (frames m.inputs input) size).inputs = m.inputs := by rw [hN.shell]
      have hsr' : (netSt E.S m (frames m.inputs input) size).sampleRate = m.sampleRate := by rw [hN.shell]
      have := ih hsr' hrun (netSt_rel hS B hr hm hg _ size) h1 hg' hs'
      rw [hi] at this
      simp only [run, asTicks, ep, run_append, run_ticks hS P hr]
      refine ⟨?_, this.2⟩
      rw [this.1, hp.outputs]
      congr 1
      apply List.map_congr_left
      intro k hk
      exact h2 k (List.mem_range.1 hk)
    | reset =>
      obtain ⟨h1, h2, h3, h4, h5, h6⟩ := reset_rel hS L E.seed E.hash0 hr hp
      have hg' : ∀ (i : Nat) (u : Vertex U α), (reset E.S E.seed E.hash0 m).vertex[i]? = some u → Good u.eng := by
        intro i u hu
        obtain ⟨u0, a, b⟩ := h6 i u hu
        rw [b]; exact B.reset _ (hg i u0 a)
      have := ih h3 h2 (reset_rel hS L E.seed E.hash0 hr hm).1 h1 hg' hs'
      rw [h4] at this
      exact this

/-! ## Properties -/

theorem Reach.runs [DecidableEq α] {E : Env U α} (hS : E.S.Lawful) {n : NodeId} {net : Net U α} (h : Reach E InRange n net)
    (hc : ¬ Cyclic net) : ∃ o, Runs E.S (ready E.S E.seed E.hash0 net) o := by
  obtain ⟨o, ho, hev⟩ := h.eval hS hc
  have hw := wf_ready hS E.seed E.hash0 (h.wf hS)
  have hor := (ordered_ready hS E.seed E.hash0 (h.wf hS) (h.ordered hS)).1 o ho
  refine ⟨o, ho, hev, hw.valid, ?_, hor.src⟩
  intro i v hv
  obtain ⟨_, a, b⟩ := hw.valid.arity i v hv
  exact ⟨⟨a.symm, b.symm⟩, fun u hu => hw.fades i v hv u hu⟩

/-- The crossfade state of the nodes is not affected by ordering the net. -/
theorem ready_fade {S : Units U α} (hS : S.Lawful) (seed : Nat → Nat) (h0 : Nat) (net : Net U α) (i : Nat) (w : Vertex U α)
    (hw : (ready S seed h0 net).vertex[i]? = some w) :
    ∃ v, net.vertex[i]? = some v ∧ w.eng.next = v.eng.next ∧ w.eng.latest = v.eng.latest ∧ w.eng.phase = v.eng.phase := by
  obtain ⟨v, hv⟩ := (ready_sameWiring hS seed h0 net).find hw
  refine ⟨v, hv, ?_⟩
  unfold ready at hw
  split at hw
  · rw [hv] at hw; cases hw; exact ⟨rfl, rfl, rfl⟩
  · have := (determineOrder_spec hS seed h0 net).2 i v w hv hw
    exact ⟨this.2.1, this.2.2.1, this.2.2.2.1⟩

theorem not_fading {S : Units U α} {net : Net U α} (hv : Valid S net) (hf : ∀ id, fading net id = false) (i : Nat) (v : Vertex U α)
    (h : net.vertex[i]? = some v) : v.eng.next.unit = none := by
  have := hf v.id
  simp only [fading, hv.get_of h, Option.bind_some, h, Option.map_some, Option.getD_some] at this
  cases hu : v.eng.next.unit with
  | none => rfl
  | some _ => rw [hu] at this; cases this

theorem NetRel.unitOf {R : U → U → Prop} {p m : Net U α} (h : NetRel R p m) (id : NodeId) : Option.Rel R (Net.unitOf p id) (Net.unitOf m id) := by
  unfold Net.unitOf
  rw [h.index]
  cases m.nodeIndex.get id with
  | none => exact .none
  | some i =>
    simp only [Option.bind_some]
    cases hv : p.vertex[i]? with
    | none =>
      rw [List.getElem?_eq_none (by rw [← h.len]; exact List.getElem?_eq_none_iff.1 hv)]
      exact .none
    | some v =>
      obtain ⟨u, hu⟩ : ∃ u, m.vertex[i]? = some u := ⟨_, List.getElem?_eq_getElem (by rw [← h.len]; exact (List.getElem?_eq_some_iff.1 hv).1)⟩
      rw [hu]
      exact .some (h.node i v u hv hu).eng.unit

/-- **C08**, nets whose nodes are not being crossfaded: any net built with the API and free of cycles, run through any sequence of ticks,
blocks of up to 64 samples and resets, gives the same samples as when every block is replaced by single ticks, and leaves the units in the same
states (up to `R`, which may be equality). Buffer contents left over from earlier calls, and the contents of the output buffer passed in, do
not matter. The net is taken after its evaluation order has been determined, which its first call does. Its units obey the law of blocks, which the dummy
unit of `fade_in` does not (`C116_violation_loud`); `R` need not hold of units that are not in the net.

The full statement also covers nodes that are being crossfaded; see `C08_crossfade_partial` and `C08_violation`. -/
theorem C08_block_equals_tick_partial [DecidableEq α] (E : Env U α) (hS : E.S.Lawful) {P : Proc U α} {R : U → U → Prop} (L : BlockLaw E.S P R)
    {n : NodeId} {net : Net U α} (h : Reach E InRange n net) (hR : ∀ v ∈ (ready E.S E.seed E.hash0 net).vertex, v.eng.Obeys R)
    (hc : ¬ Cyclic net) (hf : ∀ id, fading net id = false)
    (cs : List (NCall α)) (hs : SizesOK cs) :
    (run E P (ready E.S E.seed E.hash0 net) cs).2 = (run E P (ready E.S E.seed E.hash0 net) (asTicks net.inputs cs)).2 ∧
    ∀ id, Option.Rel R (unitOf (run E P (ready E.S E.seed E.hash0 net) cs).1 id)
      (unitOf (run E P (ready E.S E.seed E.hash0 net) (asTicks net.inputs cs)).1 id) := by
  obtain ⟨o, hr⟩ := h.runs hS hc
  have hi : (ready E.S E.seed E.hash0 net).inputs = net.inputs := (ready_sameWiring hS E.seed E.hash0 net).inputs
  have := run_rel hS L (engBlock_plain L (ready E.S E.seed E.hash0 net).sampleRate) cs rfl hr (netRel_refl _ hR) (netRel_refl _ hR) (fun i u hu => by
    obtain ⟨v, hv, h1, _⟩ := ready_fade hS E.seed E.hash0 net i u hu
    rw [h1]; exact not_fading (h.wf hS).valid hf i v hv) hs
  rw [hi] at this
  exact ⟨this.1, fun id => this.2.unitOf id⟩

/-- **C08** (first call): a net that has not been ordered yet determines its order on the first tick or block, so that the runs of
`C08_block_equals_tick_partial` are the runs of the net itself. -/
theorem C08_first_call (E : Env U α) (hS : E.S.Lawful) (P : Proc U α) (net : Net U α) (c : NCall α) (cs : List (NCall α)) (hc : c ≠ .reset) :
    run E P net (c :: cs) = run E P (ready E.S E.seed E.hash0 net) (c :: cs) := by
  have hid : ready E.S E.seed E.hash0 (ready E.S E.seed E.hash0 net) = ready E.S E.seed E.hash0 net := by
    unfold ready
    split
    · rfl
    · rw [if_pos]; rfl
  have ho := (ready_sameWiring hS E.seed E.hash0 net).outputs
  cases c with
  | tick x =>
    have : tick E.S E.seed E.hash0 net x = tick E.S E.seed E.hash0 (ready E.S E.seed E.hash0 net) x := by
      show tickOrdered E.S (ready E.S E.seed E.hash0 net) x = tickOrdered E.S (ready E.S E.seed E.hash0 (ready E.S E.seed E.hash0 net)) x
      rw [hid]
    simp only [run, this]
  | block s i o t =>
    simp only [run, process, hid, ho]
  | reset => exact absurd rfl hc

/-! ## Crossfades -/

/-- Arithmetic over the reals. `as usize` rounds down. -/
noncomputable def realArith : Arith ℝ where
  zero := 0
  one := 1
  add := (· + ·)
  sub := (· - ·)
  mul := (· * ·)
  div := (· / ·)
  ge := fun a b => @decide (b ≤ a) (Classical.dec _)
  ofNat := fun n => n
  toNat := fun x => ⌊x⌋₊
  fadeAt := fun f x => match f with | .power => Math.sineEase x | .smooth => Math.smooth5 x

/-- A node that is not crossfading, or has a whole number of samples left of its crossfade and no further edit waiting. -/
def EvenFade (sr : ℝ) (e : Eng U ℝ) : Prop :=
  e.next.unit = none ∨ e.latest.unit = none ∧ 0 < e.next.time * sr ∧ ∃ m : ℕ, 1 ≤ m ∧ (1 - e.phase) * (e.next.time * sr) = m

theorem fadeSeq_real (phase d : ℝ) (k : Nat) : fadeSeq realArith phase d k = phase + k * d := by
  induction k with
  | zero => simp [fadeSeq]
  | succ k ih => rw [fadeSeq, ih]; simp only [realArith]; push_cast; ring

/-- A crossfade with `m` samples left ends after `m` samples. -/
theorem fade_end {phase T : ℝ} (hT : 0 < T) {m : ℕ} (hm : (1 - phase) * T = m) (j : ℕ) : 1 ≤ phase + (j : ℝ) / T ↔ m ≤ j := by
  rw [← sub_le_iff_le_add', le_div_iff₀ hT, hm, Nat.cast_le]

section
variable {S : Units U ℝ} (hA : S.toArith = realArith)
include hA

open Classical in
theorem tick_fade (sr : ℝ) (e : Eng U ℝ) {nx : U} (hn : e.next.unit = some nx) (x : List ℝ) :
    e.tick S sr x = (
      let e' : Eng U ℝ := { e with unit := (S.utick e.unit x).1, next := { e.next with unit := some (S.utick nx x).1 }, phase := e.phase + 1 / (e.next.time * sr) }
      if 1 ≤ e.phase + 1 / (e.next.time * sr) then e'.nextPhase S else e',
      List.zipWith (fun a b => a * realArith.fadeAt e.next.fade (1 - e.phase) + b * realArith.fadeAt e.next.fade e.phase)
        (S.utick e.unit x).2 (S.utick nx x).2) := by
  simp only [Eng.tick, hn, hA]
  simp only [realArith, decide_eq_true_eq]

open Classical in
/-- The first `k` ticks of a crossfade with `m` samples left. -/
theorem engSt_fade (sr : ℝ) (e : Eng U ℝ) {nx : U} (hn : e.next.unit = some nx) (hl : e.latest.unit = none)
    {m : ℕ} (hp : ∀ j : ℕ, 1 ≤ e.phase + (j : ℝ) / (e.next.time * sr) ↔ m ≤ j) (X : Nat → List ℝ) (k : Nat) :
    (k < m → engSt S sr e X k = { e with unit := uSt S e.unit X k, next := { e.next with unit := some (uSt S nx X k) }, phase := e.phase + k / (e.next.time * sr) }) ∧
    (1 ≤ m → m ≤ k → engSt S sr e X k =
      { unit := uSt S nx X k, phase := 0, next := { e.next with unit := none, fade := e.latest.fade, time := e.latest.time },
        latest := { e.latest with unit := none } }) := by
  induction k with
  | zero => exact ⟨fun _ => by simp [engSt, uSt, ← hn], fun h1 h2 => by omega⟩
  | succ k ih =>
    have step : k < m → engSt S sr e X (k + 1) =
        (let e' : Eng U ℝ := { e with unit := uSt S e.unit X (k + 1), next := { e.next with unit := some (uSt S nx X (k + 1)) }, phase := e.phase + (k + 1 : ℕ) / (e.next.time * sr) }
         if m ≤ k + 1 then e'.nextPhase S else e') := by
      intro hk
      rw [engSt, ih.1 hk, tick_fade hA sr _ (nx := uSt S nx X k) rfl]
      simp only
      have e1 : e.phase + (k : ℝ) / (e.next.time * sr) + 1 / (e.next.time * sr) = e.phase + ((k + 1 : ℕ) : ℝ) / (e.next.time * sr) := by
        push_cast; ring
      rw [e1]
      have := hp (k + 1)
      by_cases hmk : m ≤ k + 1
      · rw [if_pos (this.2 hmk), if_pos hmk]; rfl
      · rw [if_neg (fun c => hmk (this.1 c)), if_neg hmk]; rfl
    constructor
    · intro hk
      rw [step (by omega)]
      simp only
      rw [if_neg (by omega)]
    · intro h1 h2
      by_cases hk : m ≤ k
      · rw [engSt, ih.2 h1 hk, Eng.tick_plain S sr _ rfl]; rfl
      · rw [step (by omega)]
        simp only
        rw [if_pos h2]
        simp [Eng.nextPhase, hl, hA, realArith]

theorem engOut_fade (sr : ℝ) (e : Eng U ℝ) {nx : U} (hn : e.next.unit = some nx) (hl : e.latest.unit = none)
    {m : ℕ} (hp : ∀ j : ℕ, 1 ≤ e.phase + (j : ℝ) / (e.next.time * sr) ↔ m ≤ j) (X : Nat → List ℝ) (k : Nat) :
    (k < m → engOut S sr e X k = List.zipWith (fun a b => a * realArith.fadeAt e.next.fade (1 - (e.phase + k / (e.next.time * sr)))
      + b * realArith.fadeAt e.next.fade (e.phase + k / (e.next.time * sr))) (uOut S e.unit X k) (uOut S nx X k)) ∧
    (1 ≤ m → m ≤ k → engOut S sr e X k = uOut S nx X k) := by
  constructor
  · intro hk
    rw [engOut, (engSt_fade hA sr e hn hl hp X k).1 hk, tick_fade hA sr _ (nx := uSt S nx X k) rfl]; rfl
  · intro h1 hk
    rw [engOut, (engSt_fade hA sr e hn hl hp X k).2 h1 hk, Eng.tick_plain S sr _ rfl]; rfl

/-- Nodes with an even crossfade. -/
theorem engBlock_fade (hS : S.Lawful) {P : Proc U ℝ} {R : U → U → Prop} (L : BlockLaw S P R) (sr : ℝ) : EngBlock S P R sr (EvenFade sr) where
  reset := fun e h => h
  tick := by
    intro e f x h hf
    by_cases hn : f.next.unit = none
    · obtain ⟨a, b⟩ := (engBlock_plain L sr).tick e f x h hn
      exact ⟨a, Or.inl b⟩
    · obtain ⟨hl, hT, m, hm1, hm⟩ := hf.resolve_left hn
      obtain ⟨ny, hny⟩ := Option.ne_none_iff_exists'.1 hn
      obtain ⟨nx, hnx, hxy⟩ : ∃ nx, e.next.unit = some nx ∧ R nx ny := by
        have := h.next.unit
        rw [hny] at this
        cases hu : e.next.unit with
        | none => rw [hu] at this; cases this
        | some nx => rw [hu] at this; cases this with | some r => exact ⟨nx, rfl, r⟩
      obtain ⟨u1, u2⟩ := L.tick _ _ x h.unit
      obtain ⟨n1, n2⟩ := L.tick _ _ x hxy
      have hTe : e.next.time * sr = f.next.time * sr := by rw [h.next.time]
      have hel : e.latest.unit = none := by
        have := h.latest.unit
        rw [hl] at this
        cases hu : e.latest.unit with
        | none => rfl
        | some _ => rw [hu] at this; cases this
      refine ⟨⟨?_, ?_⟩, ?_⟩
      · rw [tick_fade hA sr e hnx, tick_fade hA sr f hny]
        simp only [hTe, h.phase]
        split
        · simp only [Eng.nextPhase]
          refine ⟨n1, rfl, ⟨?_, h.next.id, h.next.index, h.latest.fade, h.latest.time⟩, ⟨.none, h.latest.id, h.latest.index, h.latest.fade, h.latest.time⟩⟩
          rw [hel, hl]; exact .none
        · exact ⟨u1, rfl, ⟨.some n1, h.next.id, h.next.index, h.next.fade, h.next.time⟩, h.latest⟩
      · rw [tick_fade hA sr e hnx, tick_fade hA sr f hny]
        simp only [h.phase, h.next.fade, u2, n2]
      · have h1 := engSt_fade hA sr f hny hl (fade_end hT hm) (fun _ => x) 1
        have e1 : engSt S sr f (fun _ => x) 1 = (f.tick S sr x).1 := rfl
        rw [e1] at h1
        by_cases hm2 : 1 < m
        · rw [h1.1 hm2]
          refine Or.inr ⟨hl, hT, m - 1, by omega, ?_⟩
          simp only
          rw [Nat.cast_sub hm1, ← hm]
          have := div_mul_cancel₀ (1 : ℝ) hT.ne'
          push_cast
          linear_combination (-1 : ℝ) * this
        · rw [h1.2 hm1 (by omega)]
          exact Or.inl rfl
  proc := by
    intro e f ins outs size x old tmp h hf ha hs
    by_cases hn : f.next.unit = none
    · exact (engBlock_plain L sr).proc e f ins outs size x old tmp h hn ha hs
    · obtain ⟨hl, hT, m, hm1, hm⟩ := hf.resolve_left hn
      obtain ⟨ny, hny⟩ := Option.ne_none_iff_exists'.1 hn
      obtain ⟨nx, hnx, hxy⟩ : ∃ nx, e.next.unit = some nx ∧ R nx ny := by
        have := h.next.unit
        rw [hny] at this
        cases hu : e.next.unit with
        | none => rw [hu] at this; cases this
        | some nx => rw [hu] at this; cases this with | some r => exact ⟨nx, rfl, r⟩
      have hel : e.latest.unit = none := by
        have := h.latest.unit
        rw [hl] at this
        cases hu : e.latest.unit with
        | none => rfl
        | some _ => rw [hu] at this; cases this
      obtain ⟨u1, u2⟩ := L.proc _ _ size x old h.unit hs
      obtain ⟨n1, n2⟩ := L.proc _ _ size x tmp hxy hs
      have hny' := ha.2 ny (Or.inl hny)
      rw [ha.1.1] at u1 u2
      rw [ha.1.2] at u2
      rw [hny'.1] at n1 n2
      rw [hny'.2] at n2
      have hleft : ⌊(1 - f.phase) * f.next.time * sr⌋₊ = m := by
        rw [mul_assoc, hm, Nat.floor_natCast]
      have hst := engSt_fade hA sr f hny hl (fade_end hT hm) (frames ins x)
      have hout := engOut_fade hA sr f hny hl (fade_end hT hm) (frames ins x)
      have hfs : ∀ k, fadeSeq realArith f.phase (1 / (f.next.time * sr)) k = f.phase + k / (f.next.time * sr) := by
        intro k; rw [fadeSeq_real]; ring
      unfold Eng.process
      simp only [hnx, h.phase, h.next.time, h.next.fade, hA]
      have ge1 : realArith.one = (1 : ℝ) := rfl
      have ge2 : ∀ a b : ℝ, realArith.mul a b = a * b := fun _ _ => rfl
      have ge3 : ∀ a b : ℝ, realArith.sub a b = a - b := fun _ _ => rfl
      have ge4 : ∀ a b : ℝ, realArith.div a b = a / b := fun _ _ => rfl
      have ge5 : ∀ a b : ℝ, realArith.add a b = a + b := fun _ _ => rfl
      have ge6 : ∀ a : ℝ, realArith.toNat a = ⌊a⌋₊ := fun _ => rfl
      have ge7 : ∀ a : ℕ, realArith.ofNat a = (a : ℝ) := fun _ => rfl
      simp only [ge1, ge2, ge3, ge4, ge5, ge6, ge7, hleft, hfs]
      constructor
      · by_cases hms : m ≤ size
        · rw [if_pos hms, (hst size).2 hm1 hms]
          simp only [Eng.nextPhase]
          refine ⟨n1, by rw [hA]; rfl, ⟨?_, h.next.id, h.next.index, h.latest.fade, h.latest.time⟩,
            ⟨.none, h.latest.id, h.latest.index, h.latest.fade, h.latest.time⟩⟩
          rw [hel]; exact .none
        · rw [if_neg hms, (hst size).1 (by omega)]
          refine ⟨u1, ?_, ⟨.some n1, h.next.id, h.next.index, rfl, rfl⟩, h.latest⟩
          simp only
          rw [Nat.min_eq_left (by omega)]
      · intro c k hc hk
        by_cases hkm : k < m
        · have hk' : k < min size m := by omega
          have lx : (uOut S f.unit (frames ins x) k).length = outs := by
            rw [uOut, hS.tick_length]
            have : ∀ j, S.outs (uSt S f.unit (frames ins x) j) = outs := by
              intro j
              induction j with
              | zero => exact ha.1.2
              | succ j ih => rw [uSt, hS.outs_tick, ih]
            exact this k
          have ly : (uOut S ny (frames ins x) k).length = outs := by
            rw [uOut, hS.tick_length]
            have : ∀ j, S.outs (uSt S ny (frames ins x) j) = outs := by
              intro j
              induction j with
              | zero => exact hny'.2
              | succ j ih => rw [uSt, hS.outs_tick, ih]
            exact this k
          rw [if_pos ⟨hc, hk'⟩, if_pos ⟨hc, hk'⟩, (hout k).1 hkm, u2 c k hc hk, n2 c k hc hk]
          rw [List.getD_eq_getElem?_getD, List.getD_eq_getElem?_getD, List.getD_eq_getElem?_getD, List.getElem?_zipWith,
            List.getElem?_eq_getElem (by rw [lx]; exact hc), List.getElem?_eq_getElem (by rw [ly]; exact hc)]
          simp
        · have hk' : ¬ (c < outs ∧ k < min size m) := by omega
          rw [if_neg hk', if_pos ⟨hc, hk⟩, (hout k).2 hm1 (by omega), n2 c k hc hk, hA]

end

/-- **C08**, crossfading nodes, samples as real numbers: as `C08_block_equals_tick_partial`, where nodes may be in the middle of a crossfade
that has a whole number of samples left and no further edit waiting behind it.

Missing: crossfades lasting a fractional number of samples, and edits waiting for an earlier crossfade to end. There the statement is false of
the code (`C08_violation`, `C08_violation_queued`): blocks round the fade length down and start a waiting crossfade at the next block only. -/
theorem C08_crossfade_partial [DecidableEq ℝ] (E : Env U ℝ) (hA : E.S.toArith = realArith) (hS : E.S.Lawful) {P : Proc U ℝ} {R : U → U → Prop}
    (L : BlockLaw E.S P R) {n : NodeId} {net : Net U ℝ} (h : Reach E InRange n net)
    (hR : ∀ v ∈ (ready E.S E.seed E.hash0 net).vertex, v.eng.Obeys R) (hc : ¬ Cyclic net)
    (hf : ∀ (i : Nat) (v : Vertex U ℝ), net.vertex[i]? = some v → EvenFade net.sampleRate v.eng) (cs : List (NCall ℝ)) (hs : SizesOK cs) :
    (run E P (ready E.S E.seed E.hash0 net) cs).2 = (run E P (ready E.S E.seed E.hash0 net) (asTicks net.inputs cs)).2 ∧
    ∀ id, Option.Rel R (unitOf (run E P (ready E.S E.seed E.hash0 net) cs).1 id)
      (unitOf (run E P (ready E.S E.seed E.hash0 net) (asTicks net.inputs cs)).1 id) := by
  obtain ⟨o, hr⟩ := h.runs hS hc
  have hi : (ready E.S E.seed E.hash0 net).inputs = net.inputs := (ready_sameWiring hS E.seed E.hash0 net).inputs
  have hsr : (ready E.S E.seed E.hash0 net).sampleRate = net.sampleRate := by unfold ready; split <;> rfl
  have := run_rel hS L (engBlock_fade hA hS L (ready E.S E.seed E.hash0 net).sampleRate) cs rfl hr (netRel_refl _ hR) (netRel_refl _ hR) (fun i u hu => by
    obtain ⟨v, hv, h1, h2, h3⟩ := ready_fade hS E.seed E.hash0 net i u hu
    have := hf i v hv
    unfold EvenFade at this ⊢
    rw [h1, h2, h3, hsr]; exact this) hs
  rw [hi] at this
  exact ⟨this.1, fun id => this.2.unitOf id⟩

/-! ## Counterexamples -/

/-- Units whose `process` is literally repeated `tick`. -/
def procOf (S : Units U α) : Proc U α := fun u size x old =>
  (uSt S u (frames (S.ins u) x) size, fun c k => if c < S.outs u ∧ k < size then (uOut S u (frames (S.ins u) x) k).getD c S.zero else old c k)

theorem blockLaw_procOf (S : Units U α) : BlockLaw S (procOf S) Eq := by
  refine ⟨?_, ?_, ?_, ?_⟩
  · rintro u _ rfl; exact ⟨rfl, rfl⟩
  · rintro u _ rfl; rfl
  · rintro u _ x rfl; exact ⟨rfl, rfl⟩
  · rintro u _ size x old rfl hs
    refine ⟨rfl, fun c k hc hk => ?_⟩
    simp [procOf, hc, hk]

/-- Constant units over the reals. -/
structure RU where
  ins : Nat
  outs : Nat
  val : ℝ

noncomputable def rdemo : Units RU ℝ where
  toArith := realArith
  ins := RU.ins
  outs := RU.outs
  setSR := fun _ u => u
  reset := fun u => u
  ping := fun _ h u => (u, h)
  utick := fun u _ => (u, List.replicate u.outs u.val)
  binop := fun _ => ⟨2, 1, 0⟩
  const := fun x => ⟨0, 1, x⟩
  dummy := fun i o => ⟨i, o, 0⟩

theorem rdemo_lawful : rdemo.Lawful := by
  constructor <;> intros <;> simp [rdemo]

noncomputable def rEnv : Env RU ℝ := ⟨rdemo, id, 0⟩

/-- `net.push(dc(1.0)); net.pipe_output(..)`, sample rate 1. -/
noncomputable def rNet (edits : List (NodeEdit RU ℝ)) : Net RU ℝ :=
  { (Net.new 1 0 1 : Net RU ℝ) with
    vertex := (push rdemo (Net.new 1 0 1) 0 ⟨0, 1, 1⟩).vertex.map (fun v => { v with eng := edits.foldl (Eng.enqueue rdemo) v.eng })
    outputEdge := [⟨.loc 0 0, .glob 0⟩]
    nodeIndex := [(0, 0)]
    order := none }

theorem rNet_reach [DecidableEq ℝ] (l : List (Fade × ℝ × ℝ)) :
    Reach rEnv InRange 1 (rNet (l.map (fun x => ⟨some ⟨0, 1, x.2.2⟩, 0, 0, x.1, x.2.1⟩))) := by
  have h0 : Reach rEnv InRange 0 (Net.new 1 0 1 : Net RU ℝ) := .new 0 _ 0 1
  have h1 := h0.edit (.push ⟨0, 1, 1⟩) trivial rfl
  have h2 := h1.edit (.pipeOutput 0) trivial rfl
  induction l using List.reverseRecOn with
  | nil => exact h2
  | append_singleton l a ih =>
    have h3 := ih.edit (.crossfade 0 a.1 a.2.1 ⟨0, 1, a.2.2⟩) trivial rfl
    convert h3 using 1
    simp only [rNet, List.map_append, List.map_cons, List.map_nil, List.foldl_append, List.foldl_cons, List.foldl_nil]
    rfl

theorem rNet_acyclic (l : List (NodeEdit RU ℝ)) : ¬ Cyclic (rNet l) := by
  have hw : ∀ i j, ¬ Wire (rNet l) i j := by
    rintro i j ⟨v, c, e, p, hv, hc, he⟩
    simp only [rNet, push, Net.new, List.map_append, List.map_cons, List.map_nil, List.nil_append] at hv
    cases i with
    | zero => cases hv; simp [rdemo, Vertex.new] at hc
    | succ i => simp at hv
  rintro ⟨i, h⟩
  cases h with
  | single h => exact hw _ _ h
  | tail _ h => exact hw _ _ h

/-- The net after ordering. -/
theorem rNet_ready (l : List (NodeEdit RU ℝ)) :
    ready rEnv.S rEnv.seed rEnv.hash0 (rNet l) = { rNet l with order := some [0] } := rfl

theorem rNet_vertex (l : List (NodeEdit RU ℝ)) : (rNet l).vertex =
    [{ Vertex.new rdemo 0 0 ⟨0, 1, 1⟩ with eng := l.foldl (Eng.enqueue rdemo) (Vertex.new rdemo 0 0 ⟨0, 1, 1⟩).eng }] := rfl

/-- Output of the net, processing one block. -/
theorem rNet_block (l : List (NodeEdit RU ℝ)) (input old : CBuf ℝ) (tmp : Nat → CBuf ℝ) :
    (run rEnv (procOf rdemo) (ready rEnv.S rEnv.seed rEnv.hash0 (rNet l)) [.block 3 input old tmp]).2 =
      (List.range 3).map (fun k => [((l.foldl (Eng.enqueue rdemo) (Vertex.new rdemo 0 0 ⟨0, 1, 1⟩).eng).process rdemo (procOf rdemo) 1 1 3
        (fun _ _ => 0) (fun _ _ => 0) (tmp 0)).2 0 k]) := by
  rw [rNet_ready]
  simp only [run, process, ready, Option.isSome_some, if_true, processOrdered, Option.getD_some, List.foldl_cons, List.foldl_nil, List.append_nil]
  apply List.map_congr_left
  intro k hk
  have hk : k < 8 * simdItems 3 := lt_simd (List.mem_range.1 hk)
  have e1 : (rNet l).outputEdge = [⟨.loc 0 0, .glob 0⟩] := rfl
  have e2 : (rNet l).outputs = 1 := rfl
  have e3 : rEnv.S = rdemo := rfl
  have e4 : (rNet l).sampleRate = 1 := rfl
  simp only [frames, e1, e2, e3, e4, rNet_vertex, List.range_succ, List.range_zero, List.nil_append, List.map_cons, List.map_nil,
    List.getElem?_cons_zero]
  rw [if_pos ⟨by omega, hk⟩]
  have e5 : (fun c k => match (Vertex.new rdemo 0 0 ⟨0, 1, 1⟩).source[c]? with
      | some e => if c < (Vertex.new rdemo 0 0 ⟨0, 1, 1⟩).ins ∧ k < 8 * simdItems 3 then
          readBuf rdemo (rNet l).vertex input k e.source else (Vertex.new rdemo 0 0 ⟨0, 1, 1⟩).inBuf c k
      | none => (Vertex.new rdemo 0 0 ⟨0, 1, 1⟩).inBuf c k : CBuf ℝ) = fun _ _ => 0 := by
    funext c k
    rfl
  have e6 : gather rdemo (rNet l).vertex input 3 (
      { Vertex.new rdemo 0 0 ⟨0, 1, 1⟩ with eng := l.foldl (Eng.enqueue rdemo) (Vertex.new rdemo 0 0 ⟨0, 1, 1⟩).eng }) = fun _ _ => 0 := by
    rw [← e5]; rfl
  rw [rNet_vertex] at e6
  simp only [procNode, List.modify_zero_cons, readBuf, List.getElem?_cons_zero, Option.map_some, Option.getD_some]
  simp only [Vertex.new] at e6 ⊢
  rw [e6]
  rfl

theorem rNet_ticks (l : List (NodeEdit RU ℝ)) (input old : CBuf ℝ) (tmp : Nat → CBuf ℝ) :
    (run rEnv (procOf rdemo) (ready rEnv.S rEnv.seed rEnv.hash0 (rNet l)) (asTicks 0 [.block 3 input old tmp])).2 =
      (List.range 3).map (fun k => [(engOut rdemo 1 (l.foldl (Eng.enqueue rdemo) (Vertex.new rdemo 0 0 ⟨0, 1, 1⟩).eng) (fun _ => []) k).getD 0 0]) := by
  rw [rNet_ready]
  generalize hnet : ({ rNet l with order := some [0] } : Net RU ℝ) = net
  have step : ∀ (n : Net RU ℝ) (e : Eng RU ℝ) (t : List ℝ) x, n = { net with vertex := [{ Vertex.new rdemo 0 0 ⟨0, 1, 1⟩ with eng := e, tickOut := t }] } →
      tick rEnv.S rEnv.seed rEnv.hash0 n x = ({ net with vertex := [{ Vertex.new rdemo 0 0 ⟨0, 1, 1⟩ with eng := (e.tick rdemo 1 []).1, tickOut := (e.tick rdemo 1 []).2 }] },
        [(e.tick rdemo 1 []).2.getD 0 0]) := by
    intro n e t x hn
    subst hn hnet
    rfl
  have h0 : net = { net with vertex := [{ Vertex.new rdemo 0 0 ⟨0, 1, 1⟩ with
      eng := l.foldl (Eng.enqueue rdemo) (Vertex.new rdemo 0 0 ⟨0, 1, 1⟩).eng, tickOut := (Vertex.new rdemo 0 0 ⟨0, 1, 1⟩).tickOut }] } := by
    subst hnet; rfl
  simp only [asTicks, List.range_succ, List.range_zero, List.nil_append, List.map_append, List.map_cons, List.map_nil, List.cons_append, run,
    List.append_nil]
  rw [step net _ _ _ h0, step _ _ _ _ rfl, step _ _ _ _ rfl]
  rfl

/-- **C08** is false of the code: fading `dc(1)` to `dc(0)` over one and a half samples, the second sample is already silent when processing a
block but not when ticking. -/
theorem C08_violation [DecidableEq ℝ] : ∃ (net : Net RU ℝ) (cs : List (NCall ℝ)), Reach rEnv InRange 1 net ∧ ¬ Cyclic net ∧ SizesOK cs ∧
    BlockLaw rEnv.S (procOf rEnv.S) Eq ∧
    (run rEnv (procOf rEnv.S) (ready rEnv.S rEnv.seed rEnv.hash0 net) cs).2
      ≠ (run rEnv (procOf rEnv.S) (ready rEnv.S rEnv.seed rEnv.hash0 net) (asTicks net.inputs cs)).2 := by
  refine ⟨_, [.block 3 (fun _ _ => 0) (fun _ _ => 0) (fun _ _ _ => 0)], rNet_reach [(.smooth, 3/2, 0)], rNet_acyclic _, ?_, blockLaw_procOf _, ?_⟩
  · intro size a b c h
    simp only [List.mem_singleton, NCall.block.injEq] at h
    omega
  · intro h
    have h1 := congrArg (fun l : List (List ℝ) => l[1]?) h
    have e1 := congrArg (fun l : List (List ℝ) => l[1]?) (rNet_block ([(.smooth, 3/2, 0)].map (fun x => ⟨some ⟨0, 1, x.2.2⟩, 0, 0, x.1, x.2.1⟩))
      (fun _ _ => 0) (fun _ _ => 0) (fun _ _ _ => 0))
    have e2 := congrArg (fun l : List (List ℝ) => l[1]?) (rNet_ticks ([(.smooth, 3/2, 0)].map (fun x => ⟨some ⟨0, 1, x.2.2⟩, 0, 0, x.1, x.2.1⟩))
      (fun _ _ => 0) (fun _ _ => 0) (fun _ _ _ => 0))
    have h2 := e1.symm.trans (h1.trans e2)
    have hf : ⌊(3 / 2 : ℝ)⌋₊ = 1 := by rw [Nat.floor_eq_iff (by norm_num)]; norm_num
    simp [engOut, engSt, Eng.process, Eng.tick, Eng.enqueue, Vertex.new, rdemo, realArith, NodeEdit.empty, hf, procOf, uOut, uSt, Eng.nextPhase, List.range_succ, fadeSeq] at h2
    norm_num [Math.smooth5] at h2

/-- **C08** is false of the code when a further edit waits for the end of a crossfade: ticking starts the second crossfade on the very
next sample, a block only after its end. -/
theorem C08_violation_queued [DecidableEq ℝ] : ∃ (net : Net RU ℝ) (cs : List (NCall ℝ)), Reach rEnv InRange 1 net ∧ ¬ Cyclic net ∧ SizesOK cs ∧
    BlockLaw rEnv.S (procOf rEnv.S) Eq ∧
    (∀ (i : Nat) (v : Vertex RU ℝ), net.vertex[i]? = some v → ∃ a b : ℕ, v.eng.next.time * net.sampleRate = a ∧ v.eng.latest.time * net.sampleRate = b) ∧
    (run rEnv (procOf rEnv.S) (ready rEnv.S rEnv.seed rEnv.hash0 net) cs).2
      ≠ (run rEnv (procOf rEnv.S) (ready rEnv.S rEnv.seed rEnv.hash0 net) (asTicks net.inputs cs)).2 := by
  refine ⟨_, [.block 3 (fun _ _ => 0) (fun _ _ => 0) (fun _ _ _ => 0)], rNet_reach [(.smooth, 1, 0), (.smooth, 2, 1)], rNet_acyclic _, ?_,
    blockLaw_procOf _, ?_, ?_⟩
  · intro size a b c h
    simp only [List.mem_singleton, NCall.block.injEq] at h
    omega
  · intro i v hv
    cases i with
    | zero =>
      cases hv
      refine ⟨1, 2, ?_, ?_⟩ <;> simp [rNet, Eng.enqueue, Vertex.new, NodeEdit.empty, rdemo, realArith, Net.new]
    | succ i => simp [rNet, push, Net.new] at hv
  · intro h
    have h1 := congrArg (fun l : List (List ℝ) => l[2]?) h
    have e1 := congrArg (fun l : List (List ℝ) => l[2]?) (rNet_block ([(.smooth, 1, 0), (.smooth, 2, 1)].map (fun x => ⟨some ⟨0, 1, x.2.2⟩, 0, 0, x.1, x.2.1⟩))
      (fun _ _ => 0) (fun _ _ => 0) (fun _ _ _ => 0))
    have e2 := congrArg (fun l : List (List ℝ) => l[2]?) (rNet_ticks ([(.smooth, 1, 0), (.smooth, 2, 1)].map (fun x => ⟨some ⟨0, 1, x.2.2⟩, 0, 0, x.1, x.2.1⟩))
      (fun _ _ => 0) (fun _ _ => 0) (fun _ _ _ => 0))
    have h2 := e1.symm.trans (h1.trans e2)
    simp [engOut, engSt, Eng.process, Eng.tick, Eng.enqueue, Vertex.new, rdemo, realArith, NodeEdit.empty, procOf, uOut, uSt, Eng.nextPhase, List.range_succ, fadeSeq] at h2
    norm_num [Math.smooth5] at h2

/-! ## Non-trivial instances -/

/-- A crossfade over two samples, in the middle of which blocks may end. -/
example [DecidableEq ℝ] : ∃ net : Net RU ℝ, Reach rEnv InRange 1 net ∧ ¬ Cyclic net ∧ fading net 0 = true ∧
    ∀ (i : Nat) (v : Vertex RU ℝ), net.vertex[i]? = some v → EvenFade net.sampleRate v.eng := by
  refine ⟨_, rNet_reach [(.power, 2, 0)], rNet_acyclic _, rfl, ?_⟩
  intro i v hv
  cases i with
  | zero =>
    cases hv
    refine Or.inr ⟨rfl, ?_, 2, by norm_num, ?_⟩ <;> norm_num [rNet, Eng.enqueue, Vertex.new, NodeEdit.empty, rdemo, realArith, Net.new]
  | succ i => simp [rNet, push, Net.new] at hv

/-- A chain of nodes; the second one reads the output buffer of the first directly. Blocks of sizes 3, 1, 7 with garbage in all buffers. -/
example : ∃ net m, Reach ⟨demo, id, 0⟩ InRange m net ∧ (∀ id, fading net id = false) ∧
    ((ready demo id 0 net).vertex.map (·.srcVertex)) = [none, some (0, 0)] ∧
    (run ⟨demo, id, 0⟩ (procOf demo) (ready demo id 0 net) [.block 3 (fun _ _ => 5) (fun _ _ => 77) (fun _ _ _ => 88), .tick [],
      .block 7 (fun _ _ => 5) (fun _ _ => 77) (fun _ _ _ => 88)]).2 = [[1], [2], [3], [4], [5], [6], [7], [8], [9], [10], [11]] := by
  have h0 : Reach ⟨demo, id, 0⟩ InRange 0 (new 44100 0 1 : Net DU Int) := .new 0 _ 0 1
  have h1 := h0.edit (.push gen1) trivial rfl
  have h2 := h1.edit (.push fil1) trivial rfl
  have h3 := h2.edit (.pipeAll 0 1) trivial rfl
  have h4 := h3.edit (.pipeOutput 1) trivial rfl
  refine ⟨_, _, h4, ?_, rfl, rfl⟩
  intro i
  by_cases hi : i = 0
  · subst hi; rfl
  · by_cases h1 : i = 1
    · subst h1; rfl
    · have hl : List.lookup i [(1, 1), (0, 0)] = (none : Option Nat) := by
        simp [List.lookup_cons, show (i == 1) = false by simpa using h1, show (i == 0) = false by simpa using hi]
      show ((List.lookup i [(1, 1), (0, 0)]).bind _).getD false = false
      rw [hl]; rfl

end Fundsp.Net
