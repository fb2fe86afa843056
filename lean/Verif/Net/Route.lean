import Verif.Net.BlockProps
import Verif.Route.Props

/-! # C103: the frequency response and the latency that a net reports -/

namespace Fundsp.Net
open Fundsp.Route Fundsp.Filter

variable {U : Type}

/-! ## Model -/

/-- The signal on a port: the `match` of `net.rs:1391-1395` and `net.rs:1403-1408`. -/
noncomputable def portSig (input : SFrame) (inner : Nat → SFrame) : Port → Sig
  | .loc j p => (inner j).at p
  | .glob j => input.at j
  | .zero => .value 0

/-- The frame of signals at the inputs of a node, `net.rs:1388-1396`. -/
noncomputable def inputSig (S : Units U ℝ) (input : SFrame) (inner : Nat → SFrame) (v : Vertex U ℝ) : SFrame :=
  chans (S.ins v.eng.unit) (fun c => ((v.source[c]?).map (fun e => portSig input inner e.source)).getD .unknown)

/-- One round of the loop of `Net::route`, `net.rs:1387-1398`. `rt` is the `route` of the units at the analyzed frequency. -/
noncomputable def routeNode (S : Units U ℝ) (rt : U → SFrame → SFrame) (vs : List (Vertex U ℝ)) (input : SFrame) (inner : List SFrame) (i : Nat) :
    List SFrame :=
  match vs[i]? with
  | none => inner
  | some v => inner.set i (rt v.eng.unit (inputSig S input (fun j => inner.getD j []) v))

/-- The signals of all nodes, `net.rs:1380-1398`. They start out unknown. -/
noncomputable def routeNodes (S : Units U ℝ) (rt : U → SFrame → SFrame) (net : Net U ℝ) (input : SFrame) : List SFrame :=
  (net.order.getD []).foldl (routeNode S rt net.vertex input) (net.vertex.map (fun v => chans (S.outs v.eng.unit) (fun _ => .unknown)))

/-- `Net::route`, `net.rs:1379-1411`. The order is determined first if it is not known; a panic on a missing edge is not modelled, the wiring of
a net being valid (C01). The `route` of units is taken not to change them. -/
noncomputable def route (E : Env U ℝ) (rt : U → SFrame → SFrame) (net : Net U ℝ) (input : SFrame) : SFrame :=
  let net := ready E.S E.seed E.hash0 net
  let inner := routeNodes E.S rt net input
  chans net.outputs (fun c => ((net.outputEdge[c]?).map (fun e => portSig input (fun j => inner.getD j []) e.source)).getD .unknown)

/-- `AudioUnit::response` of a net: `audiounit.rs:194-205`. -/
noncomputable def response (E : Env U ℝ) (rt : U → SFrame → SFrame) (net : Net U ℝ) (output : Nat) : Option ℂ :=
  match (route E rt net (chans net.inputs (fun _ => .response 1 0))).at output with
  | .response rx _ => some rx
  | _ => none

/-- `AudioUnit::latency` of a net: `audiounit.rs:234-255`. -/
noncomputable def latency (E : Env U ℝ) (rt : U → SFrame → SFrame) (net : Net U ℝ) : Option ℝ :=
  if net.outputs = 0 then none else minLatency (route E rt net (chans net.inputs (fun _ => .latency 0)))

/-! ## Specification -/

/-- The net after ticking `k` input frames of `w`. -/
def ticked (E : Env U ℝ) (net : Net U ℝ) (w : Nat → List ℝ) : Nat → Net U ℝ
  | 0 => net
  | k + 1 => (tick E.S E.seed E.hash0 (ticked E net w k) (w k)).1

/-- What the net outputs in tick `k`. -/
def heard (E : Env U ℝ) (net : Net U ℝ) (w : Nat → List ℝ) (k : Nat) : List ℝ := (tick E.S E.seed E.hash0 (ticked E net w k) (w k)).2

/-- A frame of signals describes the channels of a stream. -/
def Describes (θ : ℝ) (A : ℂ) (n : Nat) (sg : SFrame) (x : Nat → List ℝ) : Prop :=
  sg.length = n ∧ ∀ c, c < n → Holds θ A (sg.at c) (fun k => (x k).getD c 0)

/-- The analysis of a unit is sound: if the signals given are true of its inputs, those returned are true of what it outputs from now on. -/
def UnitSound (S : Units U ℝ) (rt : U → SFrame → SFrame) (θ : ℝ) (u : U) : Prop :=
  ∀ (A : ℂ) (sg : SFrame) (x : Nat → List ℝ), (∀ k, (x k).length = S.ins u) → Describes θ A (S.ins u) sg x →
    Describes θ A (S.outs u) (rt u sg) (uOut S u x)

/-- Signal paths of the units, as in `Route.Paths`: `P u (some a) c d` if there is a path of latency `d` from input `a` to output `c` of `u`,
`P u none c d` if there is one from a generator inside. -/
abbrev UPaths (U : Type) := U → Option Nat → Nat → ℝ → Prop

/-- The analysis of a unit finds the latency of the quickest path to each output, and does not make responses out of latencies. -/
def UnitLat (S : Units U ℝ) (rt : U → SFrame → SFrame) (P : UPaths U) (u : U) : Prop :=
  ∀ sg : SFrame, sg.length = S.ins u → (∀ a, a < S.ins u → ¬ (sg.at a).isResponse) → (rt u sg).length = S.outs u ∧
    ∀ c, c < S.outs u → ¬ ((rt u sg).at c).isResponse ∧
      Least {x | P u none c x ∨ ∃ a y d, a < S.ins u ∧ lat (sg.at a) = some y ∧ P u (some a) c d ∧ x = y + d} (lat ((rt u sg).at c))

/-- Signal paths through a net to a source: from a global input, from a generator inside a node, or on through a node. Stated with the node ids and
the sources that the net reports. -/
inductive PathTo (S : Units U ℝ) (P : UPaths U) (net : Net U ℝ) : Source → ℝ → Prop
  | input {g : Nat} : g < net.inputs → PathTo S P net (.glob g) 0
  | generated {id c : Nat} {d : ℝ} {u : U} : unitOf net id = some u → P u none c d → PathTo S P net (.loc id c) d
  | through {id a c : Nat} {d d' : ℝ} {u : U} {s : Source} : unitOf net id = some u → source net id a = some s → PathTo S P net s d →
      P u (some a) c d' → PathTo S P net (.loc id c) (d + d')

/-- The same by node index. -/
inductive SigPath (S : Units U ℝ) (P : UPaths U) (net : Net U ℝ) : Port → ℝ → Prop
  | input {g : Nat} : g < net.inputs → SigPath S P net (.glob g) 0
  | generated {i c : Nat} {d : ℝ} {v : Vertex U ℝ} : net.vertex[i]? = some v → P v.eng.unit none c d → SigPath S P net (.loc i c) d
  | through {i a c : Nat} {d d' : ℝ} {v : Vertex U ℝ} {e : Edge} : net.vertex[i]? = some v → v.source[a]? = some e → SigPath S P net e.source d →
      P v.eng.unit (some a) c d' → SigPath S P net (.loc i c) (d + d')

/-! ## Lemmas -/

theorem portSig_congr (input : SFrame) {f g : Nat → SFrame} (p : Port) (h : ∀ j q, p = .loc j q → f j = g j) : portSig input f p = portSig input g p := by
  cases p with
  | zero => rfl
  | glob g => rfl
  | loc i p => simp only [portSig, h i p rfl]

theorem inputSig_congr (S : Units U ℝ) (input : SFrame) {f g : Nat → SFrame} (v : Vertex U ℝ)
    (h : ∀ (c : Nat) (e : Edge) (j q : Nat), v.source[c]? = some e → e.source = .loc j q → f j = g j) : inputSig S input f v = inputSig S input g v := by
  unfold inputSig chans
  refine List.map_congr_left fun c _ => ?_
  cases hc : v.source[c]? with
  | none => rfl
  | some e => exact portSig_congr input e.source fun j q hp => h c e j q hc hp

theorem routeNode_length (S : Units U ℝ) (rt : U → SFrame → SFrame) (vs : List (Vertex U ℝ)) (input : SFrame) (inner : List SFrame) (i : Nat) :
    (routeNode S rt vs input inner i).length = inner.length := by
  unfold routeNode; split <;> simp

theorem routeNode_foldl_length (S : Units U ℝ) (rt : U → SFrame → SFrame) (vs : List (Vertex U ℝ)) (input : SFrame) (l : List Nat) (inner : List SFrame) :
    (l.foldl (routeNode S rt vs input) inner).length = inner.length := by
  induction l generalizing inner with
  | nil => rfl
  | cons i l ih => rw [List.foldl_cons, ih, routeNode_length]

/-- What a prefix of an evaluation order has computed. -/
theorem routeNode_prefix (S : Units U ℝ) (rt : U → SFrame → SFrame) (net : Net U ℝ) (input : SFrame) (order : List Nat) (hn : order.Nodup)
    (ht : ∀ a i b, order = a ++ i :: b → ∀ j, Wire net i j → j ∈ a) (init : List SFrame) (hi : init.length = net.vertex.length) (a b : List Nat)
    (hab : order = a ++ b) : ∀ (i : Nat) (v : Vertex U ℝ), net.vertex[i]? = some v → i ∈ a →
      (a.foldl (routeNode S rt net.vertex input) init).getD i [] =
        rt v.eng.unit (inputSig S input (fun j => (a.foldl (routeNode S rt net.vertex input) init).getD j []) v) := by
  induction a using List.reverseRecOn generalizing b with
  | nil => intro i v _ h; exact (List.not_mem_nil h).elim
  | append_singleton a k ih =>
    have ih' := ih (k :: b) (by rw [hab]; simp)
    have hka : k ∉ a := by
      rw [hab, List.append_assoc] at hn
      intro hk
      exact (List.nodup_append.1 hn).2.2 k hk k (by simp) rfl
    have hsrc : ∀ i, i ∈ a ∨ i = k → ∀ j, Wire net i j → j ∈ a := by
      intro i hi j hj
      rcases hi with hi | rfl
      · obtain ⟨x, y, hxy⟩ := List.append_of_mem hi
        have := ht x i (y ++ (k :: b)) (by rw [hab, hxy]; simp) j hj
        rw [hxy]; simp [this]
      · exact ht a i b (by rw [hab]; simp) j hj
    rw [List.foldl_append]
    simp only [List.foldl_cons, List.foldl_nil]
    have hl := routeNode_foldl_length S rt net.vertex input a init
    generalize a.foldl (routeNode S rt net.vertex input) init = F at ih' hl ⊢
    have hkeep : ∀ j, j ∈ a → (routeNode S rt net.vertex input F k).getD j [] = F.getD j [] := by
      intro j hj
      have hjk : k ≠ j := by rintro rfl; exact hka hj
      unfold routeNode
      split
      · rfl
      · simp [List.getD, hjk]
    have hread : ∀ (i : Nat) (v : Vertex U ℝ), net.vertex[i]? = some v → (i ∈ a ∨ i = k) →
        inputSig S input (fun j => (routeNode S rt net.vertex input F k).getD j []) v = inputSig S input (fun j => F.getD j []) v := by
      intro i v hv hi
      refine inputSig_congr S input v fun c e j q hc hp => ?_
      exact hkeep j (hsrc i hi j ⟨v, c, e, q, hv, hc, hp⟩)
    intro i v hv hi
    rw [List.mem_append, List.mem_singleton] at hi
    rw [hread i v hv hi]
    rcases hi with hi | rfl
    · rw [hkeep i hi]; exact ih' i v hv hi
    · have hlt : i < F.length := by rw [hl, hi]; exact (List.getElem?_eq_some_iff.1 hv).1
      simp [routeNode, hv, List.getD, hlt]

/-- The signals of the nodes solve the equations of the wiring. -/
theorem routeNodes_solves (S : Units U ℝ) (rt : U → SFrame → SFrame) (net : Net U ℝ) (input : SFrame) {order : List Nat} (ho : net.order = some order)
    (h : EvalOrder net order) (i : Nat) (v : Vertex U ℝ) (hv : net.vertex[i]? = some v) :
    (routeNodes S rt net input).getD i [] = rt v.eng.unit (inputSig S input (fun j => (routeNodes S rt net input).getD j []) v) := by
  have hp := routeNode_prefix S rt net input order (h.perm.nodup_iff.2 List.nodup_range) h.topo
    (net.vertex.map (fun v => chans (S.outs v.eng.unit) (fun _ => .unknown))) (by simp) order [] (by simp) i v hv
    (h.perm.mem_iff.2 (List.mem_range.2 (List.getElem?_eq_some_iff.1 hv).1))
  simpa only [routeNodes, ho, Option.getD_some] using hp

/-- Induction along an evaluation order. -/
theorem EvalOrder.induct {α : Type} {net : Net U α} {order : List Nat} (h : EvalOrder net order) {Q : Nat → Prop}
    (step : ∀ i, (∀ j, Wire net i j → Q j) → Q i) (i : Nat) (hi : i < net.vertex.length) : Q i := by
  have key : ∀ a b, order = a ++ b → ∀ i ∈ a, Q i := by
    intro a
    induction a using List.reverseRecOn with
    | nil => intro _ _ i h; exact (List.not_mem_nil h).elim
    | append_singleton a k ih =>
      intro b hab i hi
      have ih' := ih (k :: b) (by rw [hab]; simp)
      rw [List.mem_append, List.mem_singleton] at hi
      rcases hi with hi | rfl
      · exact ih' i hi
      · exact step i fun j hj => ih' j (h.topo a i b (by rw [hab]; simp) j hj)
  exact key order [] (by simp) i (h.perm.mem_iff.2 (List.mem_range.2 hi))

theorem engSt_plain (S : Units U ℝ) (sr : ℝ) (e : Eng U ℝ) (h : e.next.unit = none) (X : Nat → List ℝ) (k : Nat) :
    engSt S sr e X k = { e with unit := uSt S e.unit X k } := by
  induction k with
  | zero => rfl
  | succ k ih => rw [engSt, ih, Eng.tick_plain S sr { e with unit := uSt S e.unit X k } h]; rfl

theorem engOut_plain (S : Units U ℝ) (sr : ℝ) (e : Eng U ℝ) (h : e.next.unit = none) (X : Nat → List ℝ) (k : Nat) :
    engOut S sr e X k = uOut S e.unit X k := by
  rw [engOut, engSt_plain S sr e h X k, Eng.tick_plain S sr { e with unit := uSt S e.unit X k } h]; rfl

theorem ticked_ready (E : Env U ℝ) (net : Net U ℝ) (w : Nat → List ℝ) {o : List Nat} (hS : E.S.Lawful)
    (hr : Runs E.S (ready E.S E.seed E.hash0 net) o) (k : Nat) :
    ready E.S E.seed E.hash0 (ticked E net w k) = netSt E.S (ready E.S E.seed E.hash0 net) w k := by
  induction k with
  | zero => rfl
  | succ k ih =>
    have h1 : ticked E net w (k + 1) = netSt E.S (ready E.S E.seed E.hash0 net) w (k + 1) := by
      show (tickOrdered E.S (ready E.S E.seed E.hash0 (ticked E net w k)) (w k)).1 = _
      rw [ih]; rfl
    rw [h1]
    exact ready_of_runs (runs_netSt hS hr w (k + 1)) _ _

theorem heard_eq (E : Env U ℝ) (net : Net U ℝ) (w : Nat → List ℝ) {o : List Nat} (hS : E.S.Lawful)
    (hr : Runs E.S (ready E.S E.seed E.hash0 net) o) (k : Nat) :
    heard E net w k = ((ready E.S E.seed E.hash0 net).outputEdge.take (ready E.S E.seed E.hash0 net).outputs).map
      (fun e => portVal E.S (w k) (nodeOut E.S (ready E.S E.seed E.hash0 net) w k) e.source) := by
  rw [← (netAt_step hr w k (netAt hr w k)).2.2]
  show (tickOrdered E.S (ready E.S E.seed E.hash0 (ticked E net w k)) (w k)).2 = _
  rw [ticked_ready E net w hS hr k]

variable {θ : ℝ} {A : ℂ}

theorem holds_zero : Holds θ A (.value 0) (fun _ => (0 : ℝ)) :=
  AsympExp.congr' (AsympExp.const _ 0) rfl rfl (fun _ => rfl)

/-- Every node of a running net that is not being crossfaded outputs what the analysis says. -/
theorem nodes_describe {S : Units U ℝ} (hz : S.zero = 0) {rt : U → SFrame → SFrame} {m : Net U ℝ} {o : List Nat} (hr : Runs S m o)
    (hf : ∀ (i : Nat) (v : Vertex U ℝ), m.vertex[i]? = some v → v.eng.next.unit = none)
    (hu : ∀ (i : Nat) (v : Vertex U ℝ), m.vertex[i]? = some v → UnitSound S rt θ v.eng.unit) {w : Nat → List ℝ} {sg : SFrame}
    (hw : Describes θ A m.inputs sg w) (i : Nat) (v : Vertex U ℝ) (hv : m.vertex[i]? = some v) :
    Describes θ A v.outs ((routeNodes S rt m sg).getD i []) (fun k => nodeOut S m w k i) := by
  have := hr.eval.induct (Q := fun i => ∀ v, m.vertex[i]? = some v →
    Describes θ A v.outs ((routeNodes S rt m sg).getD i []) (fun k => nodeOut S m w k i)) ?_ i (List.getElem?_eq_some_iff.1 hv).1 v hv
  · exact this
  clear hv v i
  intro i ih v hv
  obtain ⟨a1, a2, a3⟩ := hr.valid.arity i v hv
  have hport : ∀ (c : Nat) (e : Edge), v.source[c]? = some e →
      Holds θ A (portSig sg (fun j => (routeNodes S rt m sg).getD j []) e.source) (fun k => portVal S (w k) (nodeOut S m w k) e.source) := by
    intro c e hc
    have hok := (hr.valid.edge i v c e hv hc).2
    cases he : e.source with
    | zero => simp only [portSig, portVal, hz]; exact holds_zero
    | glob g =>
      rw [he] at hok
      simp only [portSig, portVal, hz]
      exact hw.2 g hok
    | loc j q =>
      rw [he] at hok
      obtain ⟨u, huj, hq⟩ := hok
      simp only [portSig, portVal, hz]
      exact (ih j ⟨v, c, e, q, hv, hc, he⟩ u huj).2 q hq
  have hin : Describes θ A (S.ins v.eng.unit) (inputSig S sg (fun j => (routeNodes S rt m sg).getD j []) v) (nodeIn S m w v) := by
    refine ⟨chans_length _ _, fun c hc => ?_⟩
    have hc' : c < v.source.length := by omega
    have hg : v.source[c]? = some v.source[c] := List.getElem?_eq_getElem hc'
    rw [inputSig, chans_at _ hc, hg]
    have e : (fun k => (nodeIn S m w v k).getD c 0) = fun k => portVal S (w k) (nodeOut S m w k) (v.source[c]).source := by
      funext k
      have : c < v.ins := by omega
      simp [nodeIn, List.getD, this, hg]
    rw [e]
    exact hport c _ hg
  have hlen : ∀ k, (nodeIn S m w v k).length = S.ins v.eng.unit := by
    intro k; simp only [nodeIn, List.length_map, List.length_take]; omega
  have hs := hu i v hv A _ _ hlen hin
  rw [routeNodes_solves S rt m sg hr.order hr.eval i v hv, a3]
  have e : (fun k => nodeOut S m w k i) = uOut S v.eng.unit (nodeIn S m w v) := by
    funext k
    rw [(netAt_step hr w k (netAt hr w k)).2.1 i v hv, engOut_plain S m.sampleRate v.eng (hf i v hv)]
  rw [e]; exact hs

/-- The analysis finds the quickest path to every port. -/
theorem nodes_least {S : Units U ℝ} {rt : U → SFrame → SFrame} {P : UPaths U} {m : Net U ℝ} {o : List Nat} (hr : Runs S m o)
    (hu : ∀ (i : Nat) (v : Vertex U ℝ), m.vertex[i]? = some v → UnitLat S rt P v.eng.unit)
    (i : Nat) (v : Vertex U ℝ) (hv : m.vertex[i]? = some v) :
    ∀ c, c < v.outs → ¬ (((routeNodes S rt m (chans m.inputs (fun _ => .latency 0))).getD i []).at c).isResponse ∧
      Least {d | SigPath S P m (.loc i c) d} (lat (((routeNodes S rt m (chans m.inputs (fun _ => .latency 0))).getD i []).at c)) := by
  have := hr.eval.induct (Q := fun i => ∀ v, m.vertex[i]? = some v →
    ∀ c, c < v.outs → ¬ (((routeNodes S rt m (chans m.inputs (fun _ => .latency 0))).getD i []).at c).isResponse ∧
      Least {d | SigPath S P m (.loc i c) d} (lat (((routeNodes S rt m (chans m.inputs (fun _ => .latency 0))).getD i []).at c)))
      ?_ i (List.getElem?_eq_some_iff.1 hv).1 v hv
  · exact this
  clear hv v i
  generalize hsg : chans m.inputs (fun _ => Sig.latency 0) = sg
  intro i ih v hv c hc
  obtain ⟨a1, a2, a3⟩ := hr.valid.arity i v hv
  have hport : ∀ (a : Nat) (e : Edge), v.source[a]? = some e →
      ¬ (portSig sg (fun j => (routeNodes S rt m sg).getD j []) e.source).isResponse ∧
      Least {d | SigPath S P m e.source d} (lat (portSig sg (fun j => (routeNodes S rt m sg).getD j []) e.source)) := by
    intro a e ha
    have hok := (hr.valid.edge i v a e hv ha).2
    cases he : e.source with
    | zero => exact ⟨fun h => h, Set.eq_empty_iff_forall_notMem.2 fun d hd => by cases hd⟩
    | glob g =>
      rw [he] at hok
      simp only [portSig, ← hsg, chans_at _ (show g < m.inputs from hok)]
      refine ⟨fun h => h, ⟨SigPath.input hok, ?_⟩⟩
      intro d hd; cases hd; exact le_refl _
    | loc j q =>
      rw [he] at hok
      obtain ⟨u, huj, hq⟩ := hok
      exact ih j ⟨v, a, e, q, hv, ha, he⟩ u huj q hq
  have hin : ∀ a (ha : a < v.source.length), (inputSig S sg (fun j => (routeNodes S rt m sg).getD j []) v).at a =
      portSig sg (fun j => (routeNodes S rt m sg).getD j []) (v.source[a]).source := by
    intro a ha
    rw [inputSig, chans_at _ (by omega), List.getElem?_eq_getElem ha]; rfl
  obtain ⟨h1, h2⟩ := hu i v hv (inputSig S sg (fun j => (routeNodes S rt m sg).getD j []) v) (chans_length _ _) (by
    intro a ha
    have ha' : a < v.source.length := by omega
    rw [hin a ha']
    exact (hport a _ (List.getElem?_eq_getElem ha')).1)
  rw [routeNodes_solves S rt m sg hr.order hr.eval i v hv]
  obtain ⟨h3, h4⟩ := h2 c (by omega)
  refine ⟨h3, h4.congr ?_ ?_⟩
  · rintro x (hx | ⟨a, y, d, ha, hy, hd, rfl⟩)
    · exact SigPath.generated hv hx
    · have ha' : a < v.source.length := by omega
      have hp := (hport a _ (List.getElem?_eq_getElem ha')).2
      rw [hin a ha'] at hy
      rw [hy] at hp
      exact SigPath.through hv (List.getElem?_eq_getElem ha') hp.1 hd
  · rintro t ht
    cases ht with
    | generated hv' hd =>
      rw [hv] at hv'; cases hv'
      exact ⟨t, Or.inl hd, le_refl _⟩
    | @through _ a _ d d' v' e hv' ha hp hd =>
      rw [hv] at hv'; cases hv'
      have ha' : a < v.source.length := (List.getElem?_eq_some_iff.1 ha).1
      have hl := (hport a e ha).2
      cases hy : lat (portSig sg (fun j => (routeNodes S rt m sg).getD j []) e.source) with
      | none => rw [hy] at hl; exact absurd (show d ∈ {d | SigPath S P m e.source d} from hp) (by rw [show {d | SigPath S P m e.source d} = ∅ from hl]; simp)
      | some y =>
        rw [hy] at hl
        refine ⟨y + d', Or.inr ⟨a, y, d', by omega, ?_, hd, rfl⟩, by have := hl.2 hp; linarith⟩
        rw [hin a ha', (List.getElem?_eq_some_iff.1 ha).2, hy]

theorem outputs_least {S : Units U ℝ} {rt : U → SFrame → SFrame} {P : UPaths U} {m : Net U ℝ} {o : List Nat} (hr : Runs S m o)
    (hu : ∀ (i : Nat) (v : Vertex U ℝ), m.vertex[i]? = some v → UnitLat S rt P v.eng.unit) (c : Nat) (e : Edge) (hc : m.outputEdge[c]? = some e) :
    ¬ (portSig (chans m.inputs (fun _ => .latency 0)) (fun j => (routeNodes S rt m (chans m.inputs (fun _ => .latency 0))).getD j []) e.source).isResponse ∧
    Least {d | SigPath S P m e.source d}
      (lat (portSig (chans m.inputs (fun _ => .latency 0)) (fun j => (routeNodes S rt m (chans m.inputs (fun _ => .latency 0))).getD j []) e.source)) := by
  have hok := (hr.valid.oe c e hc).2
  cases he : e.source with
  | zero => exact ⟨fun h => h, Set.eq_empty_iff_forall_notMem.2 fun d hd => by cases hd⟩
  | glob g =>
    rw [he] at hok
    simp only [portSig, chans_at _ (show g < m.inputs from hok)]
    refine ⟨fun h => h, ⟨SigPath.input hok, ?_⟩⟩
    intro d hd; cases hd; exact le_refl _
  | loc j q =>
    rw [he] at hok
    obtain ⟨u, huj, hq⟩ := hok
    exact nodes_least hr hu j u huj q hq

theorem unitOf_get {S : Units U ℝ} {m : Net U ℝ} (hv : Valid S m) {i : Nat} {v : Vertex U ℝ} (h : m.vertex[i]? = some v) :
    unitOf m v.id = some v.eng.unit := by
  simp [unitOf, hv.get_of h, h]

theorem source_get {S : Units U ℝ} {m : Net U ℝ} (hv : Valid S m) {i a : Nat} {v : Vertex U ℝ} {e : Edge} (h : m.vertex[i]? = some v)
    (he : v.source[a]? = some e) : source m v.id a = reportSource m e.source := by
  have : a < v.ins := by
    have := (List.getElem?_eq_some_iff.1 he).1
    have := (hv.arity i v h).1
    omega
  simp [source, hv.get_of h, h, this, he]

theorem SigPath.to {S : Units U ℝ} {P : UPaths U} {m : Net U ℝ} (hv : Valid S m) {p : Port} {d : ℝ} (h : SigPath S P m p d) :
    PortOK m p → ∃ s, reportSource m p = some s ∧ PathTo S P m s d := by
  induction h with
  | input hg => intro _; exact ⟨_, rfl, .input hg⟩
  | @generated i c d v hi hd =>
    intro _
    exact ⟨.loc v.id c, by simp [reportSource, hi], .generated (unitOf_get hv hi) hd⟩
  | @through i a c d d' v e hi he hp hd ih =>
    intro _
    obtain ⟨s, hs, ht⟩ := ih (hv.edge i v a e hi he).2
    exact ⟨.loc v.id c, by simp [reportSource, hi], .through (unitOf_get hv hi) ((source_get hv hi he).trans hs) ht hd⟩

theorem unitOf_some {S : Units U ℝ} {m : Net U ℝ} (hv : Valid S m) {id : Nat} {u : U} (h : unitOf m id = some u) :
    ∃ (i : Nat) (v : Vertex U ℝ), m.vertex[i]? = some v ∧ v.id = id ∧ v.eng.unit = u := by
  simp only [unitOf, Option.bind_eq_some_iff, Option.map_eq_some_iff] at h
  obtain ⟨i, hi, v, hvi, rfl⟩ := h
  obtain ⟨w, hw, rfl⟩ := (hv.map id i).1 hi
  rw [hvi] at hw; cases hw
  exact ⟨i, v, hvi, rfl, rfl⟩

theorem vertex_inj {S : Units U ℝ} {m : Net U ℝ} (hv : Valid S m) {i j : Nat} {v w : Vertex U ℝ} (hi : m.vertex[i]? = some v)
    (hj : m.vertex[j]? = some w) (h : v.id = w.id) : i = j := by
  have h1 := hv.get_of hi
  rw [h, hv.get_of hj] at h1
  cases h1; rfl

theorem PathTo.of {S : Units U ℝ} {P : UPaths U} {m : Net U ℝ} (hv : Valid S m) {s : Source} {d : ℝ} (h : PathTo S P m s d) :
    ∀ p, PortOK m p → reportSource m p = some s → SigPath S P m p d := by
  induction h with
  | input hg =>
    intro p hp hs
    cases p with
    | zero => cases hs
    | glob g => cases hs; exact .input hg
    | loc i c => simp only [reportSource] at hs; cases hw : m.vertex[i]? <;> simp [hw] at hs
  | @generated id c d u hu hd =>
    intro p hp hs
    cases p with
    | zero => cases hs
    | glob g => cases hs
    | loc i c' =>
      obtain ⟨j, v, hj, hid, rfl⟩ := unitOf_some hv hu
      obtain ⟨w, hw, _⟩ := hp
      simp [reportSource, hw] at hs
      obtain ⟨h1, rfl⟩ := hs
      cases vertex_inj hv hj hw (hid.trans h1.symm)
      exact .generated hj hd
  | @through id a c d d' u s hu hsrc hpath hd ih =>
    intro p hp hs
    cases p with
    | zero => cases hs
    | glob g => cases hs
    | loc i c' =>
      obtain ⟨j, v, hj, hid, rfl⟩ := unitOf_some hv hu
      obtain ⟨w, hw, _⟩ := hp
      simp [reportSource, hw] at hs
      obtain ⟨h1, rfl⟩ := hs
      cases vertex_inj hv hj hw (hid.trans h1.symm)
      have ha : a < v.source.length := by
        rw [← hid] at hsrc
        simp only [source, hv.get_of hj, Option.bind_eq_bind, Option.bind_some, hj] at hsrc
        have := (hv.arity _ v hj).1
        by_contra hn
        rw [if_neg (by omega)] at hsrc
        cases hsrc
      have he := List.getElem?_eq_getElem ha
      rw [← hid, source_get hv hj he] at hsrc
      exact .through hj he (ih _ (hv.edge _ v a _ hj he).2 hsrc) hd

end Fundsp.Net
