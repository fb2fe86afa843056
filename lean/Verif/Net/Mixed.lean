import Verif.Net.OpsProps
import Verif.Net.RateProps

/-!
# C122: nets in expressions with units and numbers

`net >> unit`, `unit >> net`, `net * 0.5`, `1.0 - net` and all other mixed operators (`/repo/src/net.rs:1848-2102`) wrap the unit or the number in a net
of its own and then combine two nets.
-/
namespace Fundsp.Net
variable {U α : Type}

/-! ## Model -/

/-- `net op y` for a number `y`: `Add<f32>`, `Sub<f32>` and `Mul<f32>` for `Net`, `net.rs:2050-2102`. `sr` is the default sample rate. -/
def binaryScalar (S : Units U α) (op : Op) (sr : α) (net : Net U α) (y : α) (n : NodeId) : Option (Net U α × NodeId) := do
  let z ← scalar S sr n net.outputs y
  binary S op net z (n + 1)

/-- `y op net` for a number `y`: `Add<Net>`, `Sub<Net>` and `Mul<Net>` for `f32`, `net.rs:2050-2102`. -/
def scalarBinary (S : Units U α) (op : Op) (sr : α) (y : α) (net : Net U α) (n : NodeId) : Option (Net U α × NodeId) := do
  let z ← scalar S sr n net.outputs y
  binary S op z net (n + 1)

/-- `net op unit`: the operators of `Net` with `An<X>`, `net.rs:1848-2048`. -/
def Op2.withUnit (E : Env U α) (o : Op2) (sr : α) (a : Net U α) (u : U) (n : NodeId) : Option (Net U α × NodeId) := do
  let z ← wrap E.S sr n u
  o.apply E a z (n + 1)

/-- `unit op net`: the operators of `An<X>` with `Net`, `net.rs:1848-2048`. -/
def Op2.unitWith (E : Env U α) (o : Op2) (sr : α) (u : U) (b : Net U α) (n : NodeId) : Option (Net U α × NodeId) := do
  let z ← wrap E.S sr n u
  o.apply E z b (n + 1)

/-! ## Specification -/

/-- Output frames of a unit by itself. -/
def unitOuts (S : Units U α) : U → List (List α) → List (List α)
  | _, [] => []
  | u, x :: xs => (S.utick u x).2 :: unitOuts S (S.utick u x).1 xs

/-- What an operator makes of two signal processors, the first of which has `ia` inputs. -/
def Op2.signal (f : Op → α → α → α) (ia : Nat) (A B : List (List α) → List (List α)) (xs : List (List α)) : Op2 → List (List α)
  | .pipe => B (A xs)
  | .stack => List.zipWith (· ++ ·) (A (xs.map (List.take ia))) (B (xs.map (List.drop ia)))
  | .branch => List.zipWith (· ++ ·) (A xs) (B xs)
  | .bus => List.zipWith (List.zipWith (f .add)) (A xs) (B xs)
  | .binary o => List.zipWith (List.zipWith (f o)) (A (xs.map (List.take ia))) (B (xs.map (List.drop ia)))

/-- Channels of `a op b`, for operands with `ia`, `ib` inputs and `oa`, `ob` outputs. -/
def Op2.arity (ia oa ib ob : Nat) : Op2 → Nat × Nat
  | .pipe => (ia, ob)
  | .stack => (ia + ib, oa + ob)
  | .branch => (ia, oa + ob)
  | .bus => (ia, oa)
  | .binary _ => (ia + ib, oa)

/-- Channel counts that fit together. -/
def Op2.fit (ia oa ib ob : Nat) : Op2 → Prop
  | .pipe => oa = ib
  | .stack => True
  | .branch => ia = ib
  | .bus => ia = ib ∧ oa = ob
  | .binary _ => oa = ob

/-- A unit that has been given the sample rate and a place in a graph. -/
def Placed (S : Units U α) (sr : α) (u u' : U) : Prop := ∃ h h', u' = (S.ping false h' (S.ping true h (S.setSR sr u)).1).1

/-! ## Lemmas -/

theorem wrap_struct (S : Units U α) (hS : S.Lawful) (sr : α) (n : NodeId) (u : U) : ∃ z v, wrap S sr n u = some z ∧ z.vertex = [v] ∧
    v.eng = (Vertex.new S n 0 (S.setSR sr u)).eng ∧ v.ins = S.ins u ∧ v.source.map Edge.source = (List.range (S.ins u)).map .glob ∧
    z.outputEdge.map Edge.source = (List.range (S.outs u)).map (.loc 0) ∧ z.inputs = S.ins u ∧ z.outputs = S.outs u ∧ z.sampleRate = sr ∧
    z.hasBackend = false ∧ z.order = none := by
  have hi : S.ins (S.setSR sr u) = S.ins u := hS.ins_setSR _ _
  have ho : S.outs (S.setSR sr u) = S.outs u := hS.outs_setSR _ _
  have hn : (push S (new sr (S.ins u) (S.outs u)) n u).nodeIndex.get n = some 0 := by simp [push, new, IdMap.get, IdMap.insert]
  have hv : (push S (new sr (S.ins u) (S.outs u)) n u).vertex = [Vertex.new S n 0 (S.setSR sr u)] := rfl
  have key : ∀ y v, y.vertex = [v] → y.nodeIndex.get n = some 0 → v.eng = (Vertex.new S n 0 (S.setSR sr u)).eng → v.ins = S.ins u → v.outs = S.outs u →
      v.source.map Edge.source = (List.range (S.ins u)).map .glob → y.outputEdge.length = S.outs u →
      y.inputs = S.ins u → y.outputs = S.outs u → y.sampleRate = sr → y.hasBackend = false → y.order = none →
      ∃ z v, (if y.outputs > 0 then pipeOutput y n else some y) = some z ∧ z.vertex = [v] ∧
        v.eng = (Vertex.new S n 0 (S.setSR sr u)).eng ∧ v.ins = S.ins u ∧ v.source.map Edge.source = (List.range (S.ins u)).map .glob ∧
        z.outputEdge.map Edge.source = (List.range (S.outs u)).map (.loc 0) ∧ z.inputs = S.ins u ∧ z.outputs = S.outs u ∧ z.sampleRate = sr ∧
        z.hasBackend = false ∧ z.order = none := by
    intro y v h1 h2 h3 h4 h5 h6 h7 h8 h9 h10 h11 h12
    by_cases hp : y.outputs > 0
    · rw [if_pos hp]
      simp only [pipeOutput, h2, Option.bind_eq_bind, Option.bind_some, h1, List.getElem?_cons_zero]
      refine ⟨_, v, rfl, rfl, h3, h4, h6, ?_, h8, h9, h10, h11, rfl⟩
      apply List.ext_getElem?
      intro i
      rw [List.getElem?_map, List.getElem?_mapIdx, List.getElem?_map]
      by_cases hl : i < S.outs u
      · rw [List.getElem?_eq_getElem (by rw [h7]; exact hl), List.getElem?_range hl]
        simp only [Option.map_some, h9, hl, if_true, h5, show S.outs u > 0 by omega, Nat.mod_eq_of_lt hl]
      · rw [List.getElem?_eq_none (by omega), List.getElem?_eq_none (by simp; omega)]; rfl
    · rw [if_neg hp]
      have h0 : S.outs u = 0 := by omega
      refine ⟨y, v, rfl, h1, h3, h4, h6, ?_, h8, h9, h10, h11, h12⟩
      rw [h0] at h7 ⊢
      rw [List.length_eq_zero_iff.1 h7]; rfl
  simp only [wrap, Option.bind_eq_bind]
  by_cases hp : (push S (new sr (S.ins u) (S.outs u)) n u).inputs > 0
  · rw [if_pos hp]
    have hin : S.ins u > 0 := hp
    simp only [pipeInput, hn, hv, Option.bind_eq_bind, Option.bind_some, List.getElem?_cons_zero]
    refine key _ { Vertex.new S n 0 (S.setSR sr u) with source := (Vertex.new S n 0 (S.setSR sr u)).source.mapIdx (fun c e =>
      if c < (Vertex.new S n 0 (S.setSR sr u)).ins then ⟨if S.ins u > 0 then .glob (c % S.ins u) else .zero, .loc 0 c⟩ else e) }
      rfl hn rfl hi ho ?_ (by simp [wireAll, push, new]) rfl rfl rfl rfl rfl
    apply List.ext_getElem?
    intro i
    simp only [Vertex.new, List.getElem?_map, List.getElem?_mapIdx, hi]
    by_cases hl : i < S.ins u
    · rw [List.getElem?_range hl]
      simp only [Option.map_some, hl, if_true, hin, Nat.mod_eq_of_lt hl]
    · rw [List.getElem?_eq_none (by simp; omega)]; rfl
  · rw [if_neg hp]
    have h0 : S.ins u = 0 := by
      have : ¬ S.ins u > 0 := hp
      omega
    refine key _ _ hv hn rfl hi ho ?_ (by simp [push, new]) rfl rfl rfl rfl rfl
    simp [Vertex.new, hi, h0]

theorem range_getD (x : List α) (d : α) : (List.range x.length).map (fun i => x.getD i d) = x := by
  apply List.ext_getElem?
  intro i
  rw [List.getElem?_map]
  by_cases hl : i < x.length
  · rw [List.getElem?_range hl, List.getElem?_eq_getElem hl]
    simp [List.getD, List.getElem?_eq_getElem hl]
  · rw [List.getElem?_eq_none (by simp; omega), List.getElem?_eq_none (by omega)]; rfl

theorem outs_unit {E : Env U α} (hS : E.S.Lawful) (xs : List (List α)) : ∀ {z : Net U α} {k o : Nat} {v : Vertex U α}, Live E.S z →
    z.vertex[0]? = some v → v.eng.next.unit = none → v.ins = k → v.source.map Edge.source = (List.range k).map .glob →
    E.S.outs v.eng.unit = o → z.outputEdge.map Edge.source = (List.range o).map (.loc 0) → (∀ x ∈ xs, x.length = k) →
    outs E z xs = unitOuts E.S v.eng.unit xs := by
  induction xs with
  | nil => intros; rfl
  | cons y xs ih =>
    intro z k o v hl hv h1 h2 h3 h4 h5 hx
    obtain ⟨eng, out, t, l'⟩ := hl.ticked hS E.seed E.hash0 y
    have hs := t.solves 0 v hv
    have hin : (v.source.take v.ins).map (fun e => portVal E.S y out e.source) = y := by
      have hlen : v.source.length = k := by rw [← List.length_map (f := Edge.source), h3]; simp
      rw [List.take_of_length_le (by omega), map_source_portVal, h3, List.map_map]
      have := hx y (by simp)
      rw [← this]
      exact range_getD y E.S.zero
    rw [Eng.tick_plain _ _ _ h1, hin] at hs
    have e1 : eng 0 = _ := (congrArg Prod.fst hs).symm
    have e2 : out 0 = _ := (congrArg Prod.snd hs).symm
    simp only [outs, unitOuts]
    have hr := ih (v := { v with eng := eng 0, tickOut := out 0 }) (k := k) (o := o) l' (t.get 0 v hv) (by simp only [e1]; exact h1) h2 h3
      (by simp only [e1]; rw [hS.outs_tick]; exact h4) (by rw [t.sameWiring.oe]; exact h5) (fun x hm => hx x (by simp [hm]))
    rw [hr]
    simp only [e1]
    congr 1
    rw [t.output_of hl t.solves, map_source_portVal, h5, List.map_map]
    have hol : (out 0).length = o := by rw [e2, hS.tick_length, h4]
    rw [← e2, ← hol]
    exact range_getD (out 0) E.S.zero

theorem Pinged.live {S : Units U α} (hS : S.Lawful) {n : NodeId} {a a1 : Net U α} (hw : WF S n a) (p : Pinged S a a1) : Live S a1 := by
  refine ⟨⟨n, hw.of_sameWiring p.wiring ?_⟩, p.ordered⟩
  intro i w hw'
  obtain ⟨v, hv⟩ := p.wiring.find hw'
  obtain ⟨x1, x2, x3, x4⟩ := p.wiring.node i v w hv hw'
  obtain ⟨u1, u2, hd⟩ := p.eng i v w hv hw'
  have := hw.engFits hv
  rw [x2, x3, hd]
  exact ⟨by simpa [hS.ins_ping, hS.outs_ping] using this.1, this.2⟩

theorem single_acyclic {z : Net U α} {v : Vertex U α} (hz : z.vertex = [v]) {k : Nat} (hs : v.source.map Edge.source = (List.range k).map .glob) : ¬ Cyclic z := by
  apply not_cyclic_of_rank (fun _ => 0)
  intro i j hw
  obtain ⟨w, ch, e, q, hv, hc, he⟩ := hw
  rw [hz] at hv
  have hi : i = 0 := by
    have := (List.getElem?_eq_some_iff.1 hv).1
    simpa using this
  subst hi
  cases hv
  have : Port.loc j q ∈ v.source.map Edge.source := by rw [← he]; exact List.mem_map_of_mem (List.mem_of_getElem? hc)
  rw [hs] at this
  simp at this

/-- All operators at once. -/
theorem op2_signal [DecidableEq α] (E : Env U α) (hS : E.S.Lawful) {f : Op → α → α → α} (hf : OpsCompute E.S f) (o : Op2)
    {n m : NodeId} {a b c : Net U α} (ha : Reach E InRange n a) (hb : Reach E InRange n b) (hca : ¬ Cyclic a) (hcb : ¬ Cyclic b)
    (hsr : a.sampleRate = b.sampleRate) (he : o.apply E a b n = some (c, m)) :
    o.fit a.inputs a.outputs b.inputs b.outputs ∧ (c.inputs, c.outputs) = o.arity a.inputs a.outputs b.inputs b.outputs ∧ ¬ Cyclic c ∧
    ∃ a1 b1, Pinged E.S a a1 ∧ Pinged E.S b b1 ∧ ∀ xs, outs E c xs = o.signal f a.inputs (outs E a1) (outs E b1) xs := by
  cases o with
  | pipe =>
    obtain ⟨h1, h2, h3, a1, b1, h4, h5, h6⟩ := C09_pipe E hS ha hb hca hcb hsr he
    exact ⟨(pipe_struct (ha.wf hS) (hb.wf hS) he).1, by rw [h1, h2]; rfl, h3, a1, b1, h4, h5, h6⟩
  | stack =>
    obtain ⟨h1, h2, h3, a1, b1, h4, h5, h6⟩ := C09_stack E hS ha hb hca hcb hsr he
    exact ⟨trivial, by rw [h1, h2]; rfl, h3, a1, b1, h4, h5, h6⟩
  | branch =>
    obtain ⟨h1, h1', h2, h3, a1, b1, h4, h5, h6⟩ := C09_branch E hS ha hb hca hcb hsr he
    exact ⟨h1.symm.trans h1', by rw [h1, h2]; rfl, h3, a1, b1, h4, h5, h6⟩
  | bus =>
    obtain ⟨h1, h1', h2, h2', h3, a1, b1, h4, h5, h6⟩ := C09_bus E hS hf ha hb hca hcb hsr he
    exact ⟨⟨h1.symm.trans h1', h2.symm.trans h2'⟩, by rw [h1, h2]; rfl, h3, a1, b1, h4, h5, h6⟩
  | binary op =>
    obtain ⟨h1, h2, h2', h3, a1, b1, h4, h5, h6⟩ := C09_binary E hS hf op ha hb hca hcb hsr he
    exact ⟨h2.symm.trans h2', by rw [h1, h2]; rfl, h3, a1, b1, h4, h5, h6⟩

/-! ## C122 -/

/-- A wrapped unit in any graph plays what the unit plays. -/
theorem wrapped_plays {E : Env U α} (hS : E.S.Lawful) {sr : α} {n : NodeId} {u : U} {z z1 : Net U α} (hz : wrap E.S sr n u = some z)
    (p : Pinged E.S z z1) : ∃ u', Placed E.S sr u u' ∧ ∀ xs, (∀ x ∈ xs, x.length = E.S.ins u) → outs E z1 xs = unitOuts E.S u' xs := by
  obtain ⟨z', v, h1, h2, h3, h4, h5, h6, _⟩ := wrap_struct E.S hS sr n u
  rw [hz] at h1; cases h1
  have hv : z.vertex[0]? = some v := by rw [h2]; rfl
  have hl : 0 < z1.vertex.length := by rw [p.wiring.len, h2]; simp
  obtain ⟨x1, x2, x3, x4⟩ := p.wiring.node 0 _ _ hv (List.getElem?_eq_getElem hl)
  obtain ⟨u1, u2, hd⟩ := p.eng 0 _ _ hv (List.getElem?_eq_getElem hl)
  refine ⟨z1.vertex[0].eng.unit, ⟨u1, u2, by rw [hd, h3]; rfl⟩, fun xs hx => ?_⟩
  refine outs_unit hS xs (p.live hS (wf_wrap hz)) (List.getElem?_eq_getElem hl) (by rw [hd, h3]; rfl) (x2.trans h4) (by rw [x4]; exact h5) (o := E.S.outs u) ?_
    (by rw [p.wiring.oe]; exact h6) hx
  rw [hd, h3]
  show E.S.outs (E.S.ping false u2 (E.S.ping true u1 (E.S.setSR sr u)).1).1 = E.S.outs u
  rw [hS.outs_ping, hS.outs_ping, hS.outs_setSR]

/-- **C122** (`Net::wrap`): every unit can be wrapped; the net has the channels of the unit, no cycle and no backend, and plays exactly what the unit plays at the default sample
rate. -/
theorem C122_wrap [DecidableEq α] (E : Env U α) (hS : E.S.Lawful) (sr : α) (n : NodeId) (u : U) : ∃ z, wrap E.S sr n u = some z ∧ z.inputs = E.S.ins u ∧
    z.outputs = E.S.outs u ∧ z.sampleRate = sr ∧ z.hasBackend = false ∧ ¬ Cyclic z ∧
    ∃ u', Placed E.S sr u u' ∧ ∀ xs, (∀ x ∈ xs, x.length = E.S.ins u) → outs E z xs = unitOuts E.S u' xs := by
  obtain ⟨z, v, h1, h2, h3, h4, h5, h6, h7, h8, h9, h10, h11⟩ := wrap_struct E.S hS sr n u
  have hc := single_acyclic h2 h5
  obtain ⟨u', hu, hp⟩ := wrapped_plays hS h1 (pinged_self hS E.seed E.hash0 (wf_wrap h1) hc)
  refine ⟨z, h1, h7, h8, h9, h10, hc, u', hu, fun xs hx => ?_⟩
  rw [outs_ready]
  have : ready E.S E.seed E.hash0 z = determineOrder E.S E.seed E.hash0 z := by simp [ready, h11]
  rw [this]
  exact hp xs hx

/-- **C122** (`net op unit`): accepted exactly if the channels fit; the result has the channels of the expression and plays what the operator makes of the
net and the unit. Partial: the net must have the default sample rate, see `C122_violation_rate`. -/
theorem C122_net_unit_partial [DecidableEq α] (E : Env U α) (hS : E.S.Lawful) {f : Op → α → α → α} (hf : OpsCompute E.S f) (o : Op2) {n : NodeId} {sr : α} {a : Net U α}
    (u : U) (ha : Reach E InRange n a) (hca : ¬ Cyclic a) (hsr : a.sampleRate = sr) :
    ((o.withUnit E sr a u n).isSome = true ↔ o.fit a.inputs a.outputs (E.S.ins u) (E.S.outs u)) ∧
    ∀ c m, o.withUnit E sr a u n = some (c, m) → (c.inputs, c.outputs) = o.arity a.inputs a.outputs (E.S.ins u) (E.S.outs u) ∧ ¬ Cyclic c ∧
      ∃ a1 u', Pinged E.S a a1 ∧ Placed E.S sr u u' ∧ ∀ xs, (∀ x ∈ xs, x.length = c.inputs) →
        outs E c xs = o.signal f a.inputs (outs E a1) (unitOuts E.S u') xs := by
  obtain ⟨z, hz, h2, h3, h4, h5, h6, _⟩ := C122_wrap E hS sr n u
  have hrun : o.withUnit E sr a u n = o.apply E a z (n + 1) := by simp [Op2.withUnit, hz]
  rw [hrun]
  constructor
  · rw [← h2, ← h3]
    cases o with
    | pipe => exact (C09_pipe_accepts a z (n + 1)).trans (by simp [h5, Op2.fit])
    | stack => exact (C09_stack_accepts a z (n + 1)).trans (by simp [h5, Op2.fit])
    | branch => exact (C09_branch_accepts a z (n + 1)).trans (by simp [h5, Op2.fit])
    | bus => exact (C09_bus_accepts E.S a z (n + 1)).trans (by simp [h5, Op2.fit])
    | binary op => exact (C09_binary_accepts E.S op a z (n + 1)).trans (by simp [h5, Op2.fit])
  · intro c m he
    obtain ⟨k1, k2, k3, a1, z1, pa, pz, k4⟩ := op2_signal E hS hf o (ha.later (Nat.le_succ n)) (.wrap hz) hca h6 (hsr.trans h4.symm) he
    obtain ⟨u', hu, hp⟩ := wrapped_plays hS hz pz
    rw [h2, h3] at k1 k2
    refine ⟨k2, k3, a1, u', pa, hu, fun xs hx => ?_⟩
    rw [k4 xs]
    have la := pa.live hS (ha.wf hS)
    have hci := congrArg Prod.fst k2
    cases o with
    | pipe =>
      refine hp _ (fun y hy => ?_)
      rw [(outs_shape hS xs la).2 y hy, pa.wiring.outputs]; exact k1
    | stack =>
      simp only [Op2.signal]
      rw [hp _ (fun y hy => ?_)]
      obtain ⟨x, hx', rfl⟩ := List.mem_map.1 hy
      rw [List.length_drop, hx x hx', show c.inputs = _ from hci]
      exact Nat.add_sub_cancel_left _ _
    | branch =>
      simp only [Op2.signal]
      rw [hp _ (fun y hy => by rw [hx y hy, show c.inputs = _ from hci]; exact k1)]
    | bus =>
      simp only [Op2.signal]
      rw [hp _ (fun y hy => by rw [hx y hy, show c.inputs = _ from hci]; exact k1.1)]
    | binary op =>
      simp only [Op2.signal]
      rw [hp _ (fun y hy => ?_)]
      obtain ⟨x, hx', rfl⟩ := List.mem_map.1 hy
      rw [List.length_drop, hx x hx', show c.inputs = _ from hci]
      exact Nat.add_sub_cancel_left _ _

/-- **C122** (`unit op net`): likewise. Partial: as above. -/
theorem C122_unit_net_partial [DecidableEq α] (E : Env U α) (hS : E.S.Lawful) {f : Op → α → α → α} (hf : OpsCompute E.S f) (o : Op2) {n : NodeId} {sr : α} {b : Net U α}
    (u : U) (hb : Reach E InRange n b) (hcb : ¬ Cyclic b) (hsr : b.sampleRate = sr) :
    ((o.unitWith E sr u b n).isSome = true ↔ o.fit (E.S.ins u) (E.S.outs u) b.inputs b.outputs) ∧
    ∀ c m, o.unitWith E sr u b n = some (c, m) → (c.inputs, c.outputs) = o.arity (E.S.ins u) (E.S.outs u) b.inputs b.outputs ∧ ¬ Cyclic c ∧
      ∃ u' b1, Placed E.S sr u u' ∧ Pinged E.S b b1 ∧ ∀ xs, (∀ x ∈ xs, x.length = c.inputs) →
        outs E c xs = o.signal f (E.S.ins u) (unitOuts E.S u') (outs E b1) xs := by
  obtain ⟨z, hz, h2, h3, h4, h5, h6, _⟩ := C122_wrap E hS sr n u
  have hrun : o.unitWith E sr u b n = o.apply E z b (n + 1) := by simp [Op2.unitWith, hz]
  rw [hrun]
  constructor
  · rw [← h2, ← h3]
    cases o with
    | pipe => exact (C09_pipe_accepts z b (n + 1)).trans (by simp [h5, Op2.fit])
    | stack => exact (C09_stack_accepts z b (n + 1)).trans (by simp [h5, Op2.fit])
    | branch => exact (C09_branch_accepts z b (n + 1)).trans (by simp [h5, Op2.fit])
    | bus => exact (C09_bus_accepts E.S z b (n + 1)).trans (by simp [h5, Op2.fit])
    | binary op => exact (C09_binary_accepts E.S op z b (n + 1)).trans (by simp [h5, Op2.fit])
  · intro c m he
    obtain ⟨k1, k2, k3, z1, b1, pz, pb, k4⟩ := op2_signal E hS hf o (.wrap hz) (hb.later (Nat.le_succ n)) h6 hcb (h4.trans hsr.symm) he
    obtain ⟨u', hu, hp⟩ := wrapped_plays hS hz pz
    rw [h2, h3] at k1 k2
    refine ⟨k2, k3, u', b1, hu, pb, fun xs hx => ?_⟩
    rw [k4 xs, h2]
    have hci := congrArg Prod.fst k2
    have htake : E.S.ins u ≤ c.inputs → ∀ y ∈ xs.map (List.take (E.S.ins u)), y.length = E.S.ins u := by
      intro hle y hy
      obtain ⟨x, hx', rfl⟩ := List.mem_map.1 hy
      rw [List.length_take, hx x hx']; omega
    cases o with
    | pipe =>
      simp only [Op2.signal]
      rw [hp _ (fun y hy => by rw [hx y hy]; exact hci)]
    | stack =>
      simp only [Op2.signal]
      rw [hp _ (htake (by rw [show c.inputs = _ from hci]; exact Nat.le_add_right _ _))]
    | branch =>
      simp only [Op2.signal]
      rw [hp _ (fun y hy => by rw [hx y hy]; exact hci)]
    | bus =>
      simp only [Op2.signal]
      rw [hp _ (fun y hy => by rw [hx y hy]; exact hci)]
    | binary op =>
      simp only [Op2.signal]
      rw [hp _ (htake (by rw [show c.inputs = _ from hci]; exact Nat.le_add_right _ _))]

theorem scalar_plays {E : Env U α} (hS : E.S.Lawful) (hK : ConstComputes E.S) {sr : α} {n : NodeId} {k : Nat} {y : α} {z z1 : Net U α}
    (hz : scalar E.S sr n k y = some z) (p : Pinged E.S z z1) (xs : List (List α)) : outs E z1 xs = xs.map (fun _ => List.replicate k y) := by
  obtain ⟨z1', z2, z3, z4, z5⟩ := scalar_struct hz
  have hzv : z.vertex[0]? = some (Vertex.new E.S n 0 (E.S.setSR sr (E.S.const y))) := by rw [z1']; rfl
  have hl : 0 < z1.vertex.length := by rw [p.wiring.len, z1']; simp
  obtain ⟨x1, x2, x3, x4⟩ := p.wiring.node 0 _ _ hzv (List.getElem?_eq_getElem hl)
  obtain ⟨u1, u2, hd⟩ := p.eng 0 _ _ hzv (List.getElem?_eq_getElem hl)
  refine outs_const hS hK xs (p.live hS (wf_scalar hS hz)) ⟨_, List.getElem?_eq_getElem hl, by rw [hd]; rfl, ?_, ?_⟩ ?_
  · rw [hd]
    exact .ping (.ping (.setSR (.refl _) sr) _ _) _ _
  · rw [x2]; simp [Vertex.new, hS.ins_setSR, hS.ins_const]
  · rw [p.wiring.oe]
    apply List.ext_getElem?
    intro i
    by_cases hi : i < k
    · rw [List.getElem?_map, z5 i hi, List.getElem?_replicate, if_pos hi]
    · rw [List.getElem?_eq_none (by rw [List.length_map, (wf_scalar hS hz).valid.oeLen, z3]; omega), List.getElem?_eq_none (by simp; omega)]

theorem scalar_acyclic {S : Units U α} (hS : S.Lawful) {sr : α} {n : NodeId} {k : Nat} {y : α} {z : Net U α} (hz : scalar S sr n k y = some z) : ¬ Cyclic z := by
  obtain ⟨z1, _⟩ := scalar_struct hz
  refine single_acyclic z1 (k := 0) ?_
  simp [Vertex.new, hS.ins_setSR, hS.ins_const]

theorem zipWith_const_right {β : Type} (f : α → α → α) (z : α) (k : Nat) (ys : List (List α)) : ∀ (xs : List β), ys.length = xs.length →
    (∀ y ∈ ys, y.length = k) → List.zipWith (List.zipWith f) ys (xs.map (fun _ => List.replicate k z)) = ys.map (List.map (fun v => f v z)) := by
  induction ys with
  | nil => intro xs _ _; simp
  | cons y ys ih =>
    intro xs hl hy
    cases xs with
    | nil => simp at hl
    | cons x xs =>
      simp only [List.map_cons, List.zipWith_cons_cons]
      rw [ih xs (by simpa using hl) (fun w hw => hy w (List.mem_cons_of_mem _ hw))]
      congr 1
      have : y.length = k := hy y (by simp)
      subst this
      clear hl hy ih
      induction y with
      | nil => rfl
      | cons a y ih => simp only [List.length_cons, List.replicate_succ, List.zipWith_cons_cons, List.map_cons, ih]

/-- **C122** (`net + y`, `net - y`, `net * y`): the number is combined with every channel, on the right; channels and inputs stay as they are.
Partial: at the default sample rate. -/
theorem C122_net_scalar_partial [DecidableEq α] (E : Env U α) (hS : E.S.Lawful) {f : Op → α → α → α} (hf : OpsCompute E.S f) (hK : ConstComputes E.S)
    (op : Op) {n m : NodeId} {sr y : α} {a c : Net U α} (ha : Reach E InRange n a) (hca : ¬ Cyclic a) (hsr : a.sampleRate = sr)
    (he : binaryScalar E.S op sr a y n = some (c, m)) : c.inputs = a.inputs ∧ c.outputs = a.outputs ∧ ¬ Cyclic c ∧
    ∃ a1, Pinged E.S a a1 ∧ ∀ xs, (∀ x ∈ xs, x.length = a.inputs) → outs E c xs = (outs E a1 xs).map (List.map (fun v => f op v y)) := by
  simp only [binaryScalar, Option.bind_eq_bind, Option.bind_eq_some_iff] at he
  obtain ⟨z, hz, he⟩ := he
  obtain ⟨z1, z2, z3, z4, z5⟩ := scalar_struct hz
  obtain ⟨b1, b2, b3, b4, a1, y1, pa, py, hrun⟩ := C09_binary E hS hf op (ha.later (Nat.le_succ n)) (.scalar hz) hca (scalar_acyclic hS hz) (hsr.trans z4.symm) he
  refine ⟨by rw [b1, z2, Nat.add_zero], b2, b4, a1, pa, fun xs hx => ?_⟩
  rw [hrun xs, scalar_plays hS hK hz py, List.map_map]
  have htake : xs.map (List.take a.inputs) = xs := by
    conv_rhs => rw [← List.map_id xs]
    apply List.map_congr_left
    intro x hm
    exact List.take_of_length_le (by rw [hx x hm])
  rw [htake]
  obtain ⟨l1, l2⟩ := outs_shape hS xs (pa.live hS (ha.wf hS))
  exact zipWith_const_right (f op) y a.outputs (outs E a1 xs) xs l1 (fun w hw => by rw [l2 w hw, pa.wiring.outputs])

/-- **C122** (`y + net`, `y - net`, `y * net`): the number is combined with every channel, on the left. Partial: at the default sample rate. -/
theorem C122_scalar_net_partial [DecidableEq α] (E : Env U α) (hS : E.S.Lawful) {f : Op → α → α → α} (hf : OpsCompute E.S f) (hK : ConstComputes E.S)
    (op : Op) {n m : NodeId} {sr y : α} {a c : Net U α} (ha : Reach E InRange n a) (hca : ¬ Cyclic a) (hsr : a.sampleRate = sr)
    (he : scalarBinary E.S op sr y a n = some (c, m)) : c.inputs = a.inputs ∧ c.outputs = a.outputs ∧ ¬ Cyclic c ∧
    ∃ a1, Pinged E.S a a1 ∧ ∀ xs, outs E c xs = (outs E a1 xs).map (List.map (f op y)) := by
  simp only [scalarBinary, Option.bind_eq_bind, Option.bind_eq_some_iff] at he
  obtain ⟨z, hz, he⟩ := he
  obtain ⟨z1, z2, z3, z4, z5⟩ := scalar_struct hz
  obtain ⟨b1, b2, b3, b4, y1, a1, py, pa, hrun⟩ := C09_binary E hS hf op (.scalar hz) (ha.later (Nat.le_succ n)) (scalar_acyclic hS hz) hca (z4.trans hsr.symm) he
  refine ⟨by rw [b1, z2, Nat.zero_add], b3, b4, a1, pa, fun xs => ?_⟩
  rw [hrun xs, scalar_plays hS hK hz py, List.map_map, z2]
  have hdrop : xs.map (List.drop 0) = xs := List.map_id xs
  rw [hdrop]
  obtain ⟨l1, l2⟩ := outs_shape hS xs (pa.live hS (ha.wf hS))
  exact zipWith_const (f op) y a.outputs (outs E a1 xs) xs l1 (fun w hw => by rw [l2 w hw, pa.wiring.outputs])

/-- **C122** (acceptance): a number can be combined with every net. -/
theorem C122_scalar_accepts [DecidableEq α] (E : Env U α) (op : Op) {n : NodeId} {sr y : α} (a : Net U α) :
    (binaryScalar E.S op sr a y n).isSome = true ∧ (scalarBinary E.S op sr y a n).isSome = true := by
  obtain ⟨z, hz, hb⟩ : ∃ z, scalar E.S sr n a.outputs y = some z ∧ z.hasBackend = false := by
    have key : ∀ m, m ≤ a.outputs → ∃ z, (List.range m).foldlM (fun net i => connectOutput net n 0 i)
        (push E.S (new sr 0 a.outputs) n (E.S.const y)) = some z ∧ z.hasBackend = false ∧ z.nodeIndex.get n = some 0 ∧ z.outputEdge.length = a.outputs := by
      intro m
      induction m with
      | zero => intro _; exact ⟨_, rfl, rfl, by simp [push, new, IdMap.get, IdMap.insert], by simp [push, new]⟩
      | succ m ih =>
        intro hm
        obtain ⟨z, h1, h2, h3, h4⟩ := ih (by omega)
        rw [List.range_succ, List.foldlM_append, h1]
        refine ⟨setOutputEdge z m ⟨.loc 0 0, .glob m⟩, ?_, h2, h3, by simp [setOutputEdge, h4]⟩
        simp [connectOutput, h3, h4, show m < a.outputs by omega]
    obtain ⟨z, h1, h2, _⟩ := key a.outputs (Nat.le_refl _)
    exact ⟨z, h1, h2⟩
  have hz3 := (scalar_struct hz).2.2.1
  constructor
  · simp only [binaryScalar, hz, Option.bind_eq_bind, Option.bind_some]
    exact (C09_binary_accepts E.S op a z (n + 1)).2 ⟨hz3.symm, by simp [hb]⟩
  · simp only [scalarBinary, hz, Option.bind_eq_bind, Option.bind_some]
    exact (C09_binary_accepts E.S op z a (n + 1)).2 ⟨hz3, by simp [hb]⟩

/-- **C122** is violated for nets at another rate: in `net >> unit` the unit stays at the default rate, and telling the result the rate it reports
changes nothing; in `unit >> net` the result reports the default rate, with the nodes of the net still at theirs. -/
theorem C122_violation_rate : ∃ a m c k d j, runEdits tagEnv 0 (new 48000 1 1) [.push tfil, .pipeInput 0, .pipeOutput 0] = some (a, m) ∧
    Op2.withUnit tagEnv .pipe 44100 a tfil m = some (c, k) ∧ c.sampleRate = 48000 ∧
    ratesOf (setSampleRate tagEnv.S tagEnv.seed tagEnv.hash0 c 48000) = [(48000, none), (44100, none)] ∧
    Op2.unitWith tagEnv .pipe 44100 tfil a m = some (d, j) ∧ d.sampleRate = 44100 ∧ ratesOf d = [(44100, none), (48000, none)] :=
  ⟨_, _, _, _, _, _, rfl, rfl, rfl, rfl, rfl, rfl, rfl⟩

/-! ## Non-vacuity -/

example : ∃ c m, Op2.withUnit demoEnv .pipe 1 ((wrap demo 1 0 gen1).getD (new 1 0 1)) ⟨1, 1, 10, 0, none⟩ 1 = some (c, m) ∧
    outs demoEnv c [[], [], []] = [[11], [12], [13]] := ⟨_, _, rfl, rfl⟩

example : ∃ c m, scalarBinary demo .sub 1 (10 : Int) ((wrap demo 1 0 gen1).getD (new 1 0 1)) 1 = some (c, m) ∧
    outs demoEnv c [[], [], []] = [[9], [8], [7]] := ⟨_, _, rfl, rfl⟩

end Fundsp.Net
