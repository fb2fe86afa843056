import Verif.Net.RouteProps
import Verif.Route.Complete

/-! C119 for nets: the response of every output that is reached by linear paths only is found. -/

namespace Fundsp.Net
open Fundsp.Route Fundsp.Filter _root_.Filter Topology

variable {U : Type} {θ : ℝ}

/-! ## Specification -/

/-- What is known of a channel: `some true` is a sinusoid with a known response, `some false` a known constant, `none` anything. -/
def SigKnown : Option Bool → Sig → Prop
  | none, _ => True
  | some b, s => Kind b s

/-- A unit that, when its inputs are known as `a` says, has outputs that are known as `b` says. -/
def UnitKeeps (S : Units U ℝ) (rt : U → SFrame → SFrame) (u : U) (a b : Nat → Option Bool) : Prop :=
  ∀ sg : SFrame, sg.length = S.ins u → (∀ c < S.ins u, SigKnown (a c) (sg.at c)) → ∀ c < S.outs u, SigKnown (b c) ((rt u sg).at c)

/-- What is known at a source, when the inputs of the net are sinusoids and the outputs of its nodes are known as `k` says. A source that is not connected is the
constant zero. -/
def sourceKnown (k : NodeId → Nat → Option Bool) : Source → Option Bool
  | .loc id p => k id p
  | .glob _ => some true
  | .zero => some false

/-- `k` says of every node what its unit makes of what is known at the sources of its inputs. -/
def Follows (S : Units U ℝ) (rt : U → SFrame → SFrame) (net : Net U ℝ) (k : NodeId → Nat → Option Bool) : Prop :=
  ∀ id u, unitOf net id = some u → ∃ a, UnitKeeps S rt u a (k id) ∧ ∀ c s, c < S.ins u → source net id c = some s → a c = sourceKnown k s

/-! ## Lemmas -/

theorem port_known {m : Net U ℝ} {k : NodeId → Nat → Option Bool} {sg : SFrame} {inner : Nat → SFrame}
    (hg : ∀ g < m.inputs, SigKnown (some true) (sg.at g)) {p : Port} {s : Source} (hp : PortOK m p) (h : reportSource m p = some s)
    (hi : ∀ j q v, p = .loc j q → m.vertex[j]? = some v → q < v.outs → SigKnown (k v.id q) ((inner j).at q)) : SigKnown (sourceKnown k s) (portSig sg inner p) := by
  cases p with
  | zero => cases h; trivial
  | glob g => cases h; exact hg g hp
  | loc j q =>
    obtain ⟨v, hv, hq⟩ := hp
    simp only [reportSource, hv, Option.map_some, Option.some.injEq] at h
    subst h
    exact hi j q v rfl hv hq

theorem nodes_known {S : Units U ℝ} {rt : U → SFrame → SFrame} {m : Net U ℝ} {o : List Nat} (hr : Runs S m o) {k : NodeId → Nat → Option Bool}
    (hk : Follows S rt m k) {sg : SFrame} (hg : ∀ g < m.inputs, SigKnown (some true) (sg.at g)) (i : Nat) (v : Vertex U ℝ) (hv : m.vertex[i]? = some v) (c : Nat)
    (hc : c < v.outs) : SigKnown (k v.id c) (((routeNodes S rt m sg).getD i []).at c) := by
  have := hr.eval.induct (Q := fun i => ∀ v, m.vertex[i]? = some v → ∀ c < v.outs, SigKnown (k v.id c) (((routeNodes S rt m sg).getD i []).at c)) ?_ i
    (List.getElem?_eq_some_iff.1 hv).1 v hv c hc
  · exact this
  clear hc c hv v i
  intro i ih v hv c hc
  obtain ⟨a1, a2, a3⟩ := hr.valid.arity i v hv
  obtain ⟨a, h1, h2⟩ := hk v.id _ (unitOf_get hr.valid hv)
  rw [routeNodes_solves S rt m sg hr.order hr.eval i v hv]
  refine h1 (inputSig S sg (fun j => (routeNodes S rt m sg).getD j []) v) (chans_length _ _) (fun q hq => ?_) c (by omega)
  have hq' : q < v.source.length := by omega
  have he : v.source[q]? = some v.source[q] := List.getElem?_eq_getElem hq'
  rw [inputSig, chans_at _ hq, he]
  have hok := (hr.valid.edge i v q _ hv he).2
  have hs := source_get hr.valid hv he
  cases hrs : reportSource m (v.source[q]).source with
  | none =>
    cases hp : (v.source[q]).source with
    | zero => rw [hp] at hrs; cases hrs
    | glob g => rw [hp] at hrs; cases hrs
    | loc j p =>
      rw [hp] at hok hrs
      obtain ⟨u, hu, _⟩ := hok
      simp [reportSource, hu] at hrs
  | some s =>
    rw [hrs] at hs
    rw [h2 q s hq hs]
    exact port_known hg hok hrs fun j p w hp hw hpw => ih j ⟨v, q, _, p, hv, he, hp⟩ w hw p hpw

/-! ## The property -/

/-- **C119**, for nets: `response(output, f)` of a net is found at every output that sinusoids reach, and only known constants besides. -/
theorem C119_net_partial [DecidableEq ℝ] (E : Env U ℝ) (hS : E.S.Lawful) {n : NodeId} {net : Net U ℝ} (h : Reach E InRange n net) (hc : ¬ Cyclic net)
    (rt : U → SFrame → SFrame) (k : NodeId → Nat → Option Bool) (hk : Follows E.S rt (ready E.S E.seed E.hash0 net) k) {output : Nat} {s : Source}
    (hs : outputSource (ready E.S E.seed E.hash0 net) output = some s) (ht : sourceKnown k s = some true) : ∃ H, response E rt net output = some H := by
  obtain ⟨o, hr⟩ := h.runs hS hc
  have hsw := ready_sameWiring hS E.seed E.hash0 net
  have hin := hsw.inputs
  have hout := hsw.outputs
  suffices hk' : SigKnown (some true) ((route E rt net (chans net.inputs fun _ => .response 1 0)).at output) by
    unfold response
    cases hx : (route E rt net (chans net.inputs fun _ => .response 1 0)).at output with
    | response H l => exact ⟨H, rfl⟩
    | _ => rw [hx] at hk'; exact hk'.elim
  unfold route
  rw [← hin]
  dsimp only
  generalize ready E.S E.seed E.hash0 net = m at *
  simp only [outputSource] at hs
  by_cases hcl : output < m.outputs
  · have hc' : output < m.outputEdge.length := by rw [hr.valid.oeLen]; exact hcl
    have hg : m.outputEdge[output]? = some m.outputEdge[output] := List.getElem?_eq_getElem hc'
    rw [if_pos hcl, hg] at hs
    have hgl : ∀ g < m.inputs, SigKnown (some true) ((chans m.inputs fun _ => Sig.response 1 0).at g) := fun g hg => by rw [chans_at _ hg]; trivial
    rw [chans_at _ hcl, hg, ← ht]
    exact port_known hgl (hr.valid.oe output _ hg).2 hs fun j q v _ hv hq => nodes_known hr hk hgl j v hv q hq
  · rw [if_neg hcl] at hs
    cases hs

/-- **C119** (with C103), for nets: and it is the true one, if the analysis of the units is sound and no crossfade is under way. -/
theorem C119_net_true_partial [DecidableEq ℝ] (E : Env U ℝ) (hS : E.S.Lawful) (hz : E.S.zero = 0) {n : NodeId} {net : Net U ℝ} (h : Reach E InRange n net)
    (hc : ¬ Cyclic net) (hf : ∀ id, fading net id = false) (rt : U → SFrame → SFrame)
    (hu : ∀ id u, unitOf (ready E.S E.seed E.hash0 net) id = some u → UnitSound E.S rt θ u) (k : NodeId → Nat → Option Bool)
    (hk : Follows E.S rt (ready E.S E.seed E.hash0 net) k) {output : Nat} (ho : output < net.outputs) {s : Source}
    (hs : outputSource (ready E.S E.seed E.hash0 net) output = some s) (ht : sourceKnown k s = some true) :
    ∃ H, response E rt net output = some H ∧ ∀ A : ℂ, ∃ d : ℝ,
      Tendsto (fun t => (heard E net (fun t => List.replicate net.inputs (A * polar θ ^ t).re) t).getD output 0 - (d + (A * H * polar θ ^ t).re)) atTop (𝓝 0) := by
  obtain ⟨H, hH⟩ := C119_net_partial E hS h hc rt k hk hs ht
  exact ⟨H, hH, fun A => C103_response_partial E hS hz h hc hf rt hu ho hH A⟩

/-- A net with a gain and a limiter: the input and the gain are added for output 0, where there is a response; output 1 comes from the limiter. -/
example [DecidableEq ℝ] : ∃ net m k, Reach gEnv InRange m net ∧ ¬ Cyclic net ∧ Follows gEnv.S gRoute (ready gEnv.S gEnv.seed gEnv.hash0 net) k ∧
    outputSource (ready gEnv.S gEnv.seed gEnv.hash0 net) 0 = some (.loc 0 0) ∧ sourceKnown k (.loc 0 0) = some true := by
  have h0 : Reach gEnv InRange 0 (new 44100 1 2 : Net GU ℝ) := .new 0 _ 1 2
  have h1 := h0.edit (.push (.op .add)) trivial rfl
  have h2 := h1.edit (.push (.gain 2)) trivial rfl
  have h3 := h2.edit (.push (.look 441)) trivial rfl
  have h4 := h3.edit (.connectInput 0 1 0) (by show 0 < 1; decide) rfl
  have h5 := h4.edit (.connectInput 0 2 0) (by show 0 < 1; decide) rfl
  have h6 := h5.edit (.connect 1 0 0 0) (by intro o ho; cases ho; decide) rfl
  have h7 := h6.edit (.connectInput 0 0 1) (by show 0 < 1; decide) rfl
  have h8 := h7.edit (.connectOutput 0 0 0) (by intro o ho; cases ho; decide) rfl
  have h9 := h8.edit (.connectOutput 2 0 1) (by intro o ho; cases ho; decide) rfl
  refine ⟨_, _, fun id _ => if id = 2 then none else some true, h9, ?_, ?_, rfl, rfl⟩
  · rw [← C02_error gEnv gdemo_lawful h9]
    intro h; cases h
  · intro id u hu
    match id, hu with
    | 0, hu =>
      cases hu
      refine ⟨fun _ => some true, fun sg _ ha c _ => ?_, fun c s hc hs => ?_⟩
      · have h0 := ha 0 (show 0 < 2 by omega)
        have h1 := ha 1 (show 1 < 2 by omega)
        obtain rfl : c = 0 := by
          have : c < 1 := by assumption
          omega
        show Kind true (Sig.add (sg.at 0) (sg.at 1))
        revert h0 h1
        generalize sg.at 0 = x
        generalize sg.at 1 = y
        cases x <;> cases y <;> simp [SigKnown, Kind, Sig.add, Sig.combineLinear]
      · match c, hc with
        | 0, _ => cases hs; rfl
        | 1, _ => cases hs; rfl
        | c + 2, hc => exact absurd (show c + 2 < 2 from hc) (by omega)
    | 1, hu =>
      cases hu
      refine ⟨fun _ => some true, fun sg _ ha c _ => ?_, fun c s hc hs => ?_⟩
      · have h0 := ha 0 (show 0 < 1 by omega)
        obtain rfl : c = 0 := by
          have : c < 1 := by assumption
          omega
        show Kind true ((sg.at 0).mulScalar 2)
        revert h0
        generalize sg.at 0 = x
        cases x <;> simp [SigKnown, Kind, Sig.mulScalar]
      · match c, hc with
        | 0, _ => cases hs; rfl
        | c + 1, hc => exact absurd (show c + 1 < 1 from hc) (by omega)
    | 2, hu =>
      cases hu
      refine ⟨fun _ => some true, fun sg _ _ c _ => trivial, fun c s hc hs => ?_⟩
      match c, hc with
      | 0, _ => cases hs; rfl
      | c + 1, hc => exact absurd (show c + 1 < 1 from hc) (by omega)
    | id + 3, hu => cases hu

end Fundsp.Net
