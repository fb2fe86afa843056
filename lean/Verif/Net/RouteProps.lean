import Verif.Net.Route

/-! # C103: the frequency response and the latency that a net reports -/

namespace Fundsp.Net
open Fundsp.Route Fundsp.Filter _root_.Filter Topology

variable {U : Type} {θ : ℝ} {A : ℂ}

/-- **C103**: in a net without cycles and without crossfades under way, if the analysis of every unit is sound, so is that of the net: from
signals that are true of the inputs of the net it computes signals that are true of its outputs. `_partial`: see `C103_violation` for nets with a
crossfade under way. -/
theorem C103_sound_partial [DecidableEq ℝ] (E : Env U ℝ) (hS : E.S.Lawful) (hz : E.S.zero = 0) {n : NodeId} {net : Net U ℝ} (h : Reach E InRange n net)
    (hc : ¬ Cyclic net) (hf : ∀ id, fading net id = false) (rt : U → SFrame → SFrame)
    (hu : ∀ id u, unitOf (ready E.S E.seed E.hash0 net) id = some u → UnitSound E.S rt θ u) (sg : SFrame) (w : Nat → List ℝ)
    (hw : Describes θ A net.inputs sg w) : Describes θ A net.outputs (route E rt net sg) (heard E net w) := by
  obtain ⟨o, hr⟩ := h.runs hS hc
  have hsw := ready_sameWiring hS E.seed E.hash0 net
  have hin := hsw.inputs
  have hout := hsw.outputs
  have hfade : ∀ (i : Nat) (v : Vertex U ℝ), (ready E.S E.seed E.hash0 net).vertex[i]? = some v → v.eng.next.unit = none := by
    intro i u hu
    obtain ⟨v, hv, h1, _⟩ := ready_fade hS E.seed E.hash0 net i u hu
    rw [h1]; exact not_fading (h.wf hS).valid hf i v hv
  have hh := heard_eq E net w hS hr
  have hu' : ∀ (i : Nat) (v : Vertex U ℝ), (ready E.S E.seed E.hash0 net).vertex[i]? = some v → UnitSound E.S rt θ v.eng.unit :=
    fun i v hv => hu v.id _ (unitOf_get hr.valid hv)
  unfold route
  rw [← hout]
  rw [← hin] at hw
  generalize ready E.S E.seed E.hash0 net = m at *
  have hd := fun i v hv => nodes_describe (θ := θ) (A := A) hz hr hfade hu' hw i v hv
  refine ⟨chans_length _ _, fun c hc => ?_⟩
  have hc' : c < m.outputEdge.length := by rw [hr.valid.oeLen]; exact hc
  have hg : m.outputEdge[c]? = some m.outputEdge[c] := List.getElem?_eq_getElem hc'
  rw [chans_at _ hc, hg]
  have e : (fun k => (heard E net w k).getD c 0) = fun k => portVal E.S (w k) (nodeOut E.S m w k) (m.outputEdge[c]).source := by
    funext k
    rw [hh]
    simp [List.getD, hc, hg]
  rw [e]
  have hok := (hr.valid.oe c _ hg).2
  simp only [Option.map_some, Option.getD_some]
  cases he : (m.outputEdge[c]).source with
  | zero => simp only [portSig, portVal, hz]; exact holds_zero
  | glob g =>
    rw [he] at hok
    simp only [portSig, portVal, hz]
    exact hw.2 g hok
  | loc j q =>
    rw [he] at hok
    obtain ⟨u, huj, hq⟩ := hok
    simp only [portSig, portVal, hz]
    exact (hd j u huj).2 q hq

/-- The signal at a source, when the outputs of node `id` carry the signals `node id`. A source that is not connected carries zero. -/
noncomputable def sourceSig (input : SFrame) (node : NodeId → SFrame) : Source → Sig
  | .loc id p => (node id).at p
  | .glob j => input.at j
  | .zero => .value 0

theorem report_sig {S : Units U ℝ} {m : Net U ℝ} (hv : Valid S m) (sg : SFrame) (inner : Nat → SFrame) {p : Port} {s : Source} (h : reportSource m p = some s) :
    portSig sg inner p = sourceSig sg (fun id => ((m.nodeIndex.get id).map inner).getD []) s := by
  cases p with
  | zero => cases h; rfl
  | glob g => cases h; rfl
  | loc j q =>
    simp only [reportSource] at h
    cases hw : m.vertex[j]? with
    | none => simp [hw] at h
    | some w =>
      simp only [hw, Option.map_some, Option.some.injEq] at h
      subst h
      simp only [portSig, sourceSig, hv.get_of hw, Option.map_some, Option.getD_some]

/-- **C103**: what a net says of its outputs is exactly what its units say of theirs, put together as they are connected, no less: every node is analyzed once with the signals of the sources of
its inputs, the inputs of the net carry what is given for them, and inputs and outputs that are not connected carry the constant zero. -/
theorem C103_exact [DecidableEq ℝ] (E : Env U ℝ) (hS : E.S.Lawful) {n : NodeId} {net : Net U ℝ} (h : Reach E InRange n net) (hc : ¬ Cyclic net)
    (rt : U → SFrame → SFrame) (sg : SFrame) :
    ∃ node : NodeId → SFrame,
      (∀ id u, unitOf (ready E.S E.seed E.hash0 net) id = some u → ∃ input : SFrame, node id = rt u input ∧ input.length = E.S.ins u ∧
        ∀ c s, c < E.S.ins u → source (ready E.S E.seed E.hash0 net) id c = some s → input.at c = sourceSig sg node s) ∧
      (route E rt net sg).length = net.outputs ∧
      ∀ c s, outputSource (ready E.S E.seed E.hash0 net) c = some s → (route E rt net sg).at c = sourceSig sg node s := by
  obtain ⟨o, hr⟩ := h.runs hS hc
  have hout := (ready_sameWiring hS E.seed E.hash0 net).outputs
  unfold route
  rw [← hout]
  generalize ready E.S E.seed E.hash0 net = m at *
  refine ⟨fun id => ((m.nodeIndex.get id).map fun j => (routeNodes E.S rt m sg).getD j []).getD [], fun id u hu => ?_, chans_length _ _, fun c s hs => ?_⟩
  · obtain ⟨i, v, hv, rfl, rfl⟩ := unitOf_some hr.valid hu
    refine ⟨inputSig E.S sg (fun j => (routeNodes E.S rt m sg).getD j []) v, ?_, chans_length _ _, fun c s hc hs => ?_⟩
    · dsimp only
      rw [hr.valid.get_of hv]
      exact routeNodes_solves E.S rt m sg hr.order hr.eval i v hv
    · obtain ⟨a1, a2, a3⟩ := hr.valid.arity i v hv
      have hc' : c < v.source.length := by omega
      have hg : v.source[c]? = some v.source[c] := List.getElem?_eq_getElem hc'
      rw [source_get hr.valid hv hg] at hs
      rw [inputSig, chans_at _ hc, hg]
      exact report_sig hr.valid sg _ hs
  · simp only [outputSource] at hs
    by_cases hcl : c < m.outputs
    · have hc' : c < m.outputEdge.length := by rw [hr.valid.oeLen]; exact hcl
      have hg : m.outputEdge[c]? = some m.outputEdge[c] := List.getElem?_eq_getElem hc'
      rw [if_pos hcl, hg] at hs
      dsimp only
      rw [chans_at _ hcl, hg]
      exact report_sig hr.valid sg _ hs
    · rw [if_neg hcl] at hs
      cases hs

/-- **C103**: when `response(output, f)` of a net is `Some(H)`, and the same sinusoid of any amplitude and phase (`A`) is fed to all its inputs, then
that output settles to the sinusoid multiplied by `H`, plus a constant. -/
theorem C103_response_partial [DecidableEq ℝ] (E : Env U ℝ) (hS : E.S.Lawful) (hz : E.S.zero = 0) {n : NodeId} {net : Net U ℝ}
    (h : Reach E InRange n net) (hc : ¬ Cyclic net) (hf : ∀ id, fading net id = false) (rt : U → SFrame → SFrame)
    (hu : ∀ id u, unitOf (ready E.S E.seed E.hash0 net) id = some u → UnitSound E.S rt θ u) {output : Nat} (ho : output < net.outputs) {H : ℂ}
    (hr : response E rt net output = some H) (A : ℂ) :
    ∃ d : ℝ, Tendsto (fun k => (heard E net (fun t => List.replicate net.inputs (A * polar θ ^ t).re) k).getD output 0 -
      (d + (A * H * polar θ ^ k).re)) atTop (𝓝 0) := by
  have hin : Describes θ A net.inputs (chans net.inputs (fun _ => Sig.response 1 0)) (fun t => List.replicate net.inputs (A * polar θ ^ t).re) := by
    refine ⟨chans_length _ _, fun c hc => ?_⟩
    rw [chans_at _ hc]
    refine ⟨0, AsympExp.congr' (AsympExp.exact _ A) (by rw [mul_one]) rfl (fun k => ?_)⟩
    simp [List.getD, hc]
  have hs := (C103_sound_partial (A := A) E hS hz h hc hf rt hu _ _ hin).2 output ho
  simp only [response] at hr
  cases hx : (route E rt net (chans net.inputs (fun _ => Sig.response 1 0))).at output <;> rw [hx] at hr hs <;>
    simp only [Option.some.injEq, reduceCtorEq] at hr
  subst hr
  obtain ⟨d, hd⟩ := hs
  exact ⟨d, hd.congr (fun k => by ring)⟩

/-- **C103**: `latency()` of a net is the latency of the quickest signal path that leads to one of its outputs, from an input or from a generator
inside, and `None` if there is no such path. -/
theorem C103_latency [DecidableEq ℝ] (E : Env U ℝ) (hS : E.S.Lawful) {n : NodeId} {net : Net U ℝ} (h : Reach E InRange n net) (hc : ¬ Cyclic net)
    (rt : U → SFrame → SFrame) (P : UPaths U) (hu : ∀ id u, unitOf (ready E.S E.seed E.hash0 net) id = some u → UnitLat E.S rt P u) :
    match latency E rt net with
    | some l => (∃ c s, outputSource net c = some s ∧ PathTo E.S P (ready E.S E.seed E.hash0 net) s l) ∧
        ∀ c s d, outputSource net c = some s → PathTo E.S P (ready E.S E.seed E.hash0 net) s d → l ≤ d
    | none => ∀ c s d, outputSource net c = some s → ¬ PathTo E.S P (ready E.S E.seed E.hash0 net) s d := by
  obtain ⟨o, hr⟩ := h.runs hS hc
  have hsw := ready_sameWiring hS E.seed E.hash0 net
  have hin := hsw.inputs
  have hout := hsw.outputs
  have hu' : ∀ (i : Nat) (v : Vertex U ℝ), (ready E.S E.seed E.hash0 net).vertex[i]? = some v → UnitLat E.S rt P v.eng.unit :=
    fun i v hv => hu v.id _ (unitOf_get hr.valid hv)
  have hrep : ∀ p, PortOK (ready E.S E.seed E.hash0 net) p → reportSource net p = reportSource (ready E.S E.seed E.hash0 net) p := by
    intro p hp
    cases p with
    | zero => rfl
    | glob g => rfl
    | loc j q =>
      obtain ⟨w, hwj, _⟩ := hp
      obtain ⟨v, hv⟩ := hsw.find hwj
      simp [reportSource, hv, hwj, (hsw.node j v w hv hwj).1]
  have hos : ∀ c s, outputSource net c = some s ↔ ∃ e, (ready E.S E.seed E.hash0 net).outputEdge[c]? = some e ∧
      reportSource (ready E.S E.seed E.hash0 net) e.source = some s := by
    intro c s
    have hl := hr.valid.oeLen
    simp only [outputSource]
    rw [← hsw.oe]
    by_cases hcl : c < net.outputs
    · have hco : c < (ready E.S E.seed E.hash0 net).outputEdge.length := by rw [hl, hout]; exact hcl
      have he := List.getElem?_eq_getElem hco
      rw [if_pos hcl, he]
      simp only [Option.bind_eq_bind, Option.bind_some, Option.some.injEq, exists_eq_left']
      rw [hrep _ (hr.valid.oe c _ he).2]
    · rw [if_neg hcl]
      have : (ready E.S E.seed E.hash0 net).outputEdge[c]? = none := List.getElem?_eq_none (by rw [hl, hout]; omega)
      simp [this]
  have key : Least {d | ∃ c s, outputSource net c = some s ∧ PathTo E.S P (ready E.S E.seed E.hash0 net) s d} (latency E rt net) := by
    simp only [hos]
    unfold latency
    by_cases h0 : net.outputs = 0
    · rw [if_pos h0]
      refine Set.eq_empty_iff_forall_notMem.2 ?_
      rintro d ⟨c, s, ⟨e, he, _⟩, _⟩
      have := (List.getElem?_eq_some_iff.1 he).1
      rw [hr.valid.oeLen, hout, h0] at this
      omega
    rw [if_neg h0]
    unfold route
    rw [← hin]
    generalize ready E.S E.seed E.hash0 net = m at *
    have ho := fun (c : Nat) (e : Edge) => outputs_least hr hu' c e
    have hmem : ∀ s ∈ chans m.outputs (fun c => ((m.outputEdge[c]?).map (fun e => portSig (chans m.inputs (fun _ => .latency 0))
        (fun j => (routeNodes E.S rt m (chans m.inputs (fun _ => .latency 0))).getD j []) e.source)).getD .unknown),
        ∃ (c : Nat) (e : Edge), m.outputEdge[c]? = some e ∧ s = portSig (chans m.inputs (fun _ => .latency 0))
          (fun j => (routeNodes E.S rt m (chans m.inputs (fun _ => .latency 0))).getD j []) e.source := by
      intro s hs
      simp only [chans, List.mem_map, List.mem_range] at hs
      obtain ⟨c, hc, rfl⟩ := hs
      have hc' : c < m.outputEdge.length := by rw [hr.valid.oeLen]; exact hc
      exact ⟨c, m.outputEdge[c], List.getElem?_eq_getElem hc', by rw [List.getElem?_eq_getElem hc']; rfl⟩
    refine (minLatency_least _ (fun s hs => by obtain ⟨c, e, he, rfl⟩ := hmem s hs; exact (ho c e he).1)).congr ?_ ?_
    · rintro x ⟨s, hs, hx⟩
      obtain ⟨c, e, he, rfl⟩ := hmem s hs
      have h1 := (ho c e he).2
      rw [hx] at h1
      obtain ⟨s, hs, hp⟩ := SigPath.to hr.valid h1.1 (hr.valid.oe c e he).2
      exact ⟨c, s, ⟨e, he, hs⟩, hp⟩
    · rintro t ⟨c, s, ⟨e, he, hs⟩, hp⟩
      have hp' := PathTo.of hr.valid hp _ (hr.valid.oe c e he).2 hs
      have h1 := (ho c e he).2
      cases hx : lat (portSig (chans m.inputs (fun _ => .latency 0))
          (fun j => (routeNodes E.S rt m (chans m.inputs (fun _ => .latency 0))).getD j []) e.source) with
      | none =>
        rw [hx] at h1
        exact absurd (show t ∈ {d | SigPath E.S P m e.source d} from hp') (by rw [show {d | SigPath E.S P m e.source d} = ∅ from h1]; simp)
      | some l =>
        rw [hx] at h1
        refine ⟨l, ⟨_, ?_, hx⟩, h1.2 hp'⟩
        have hc' : c < m.outputs := by rw [← hr.valid.oeLen]; exact (List.getElem?_eq_some_iff.1 he).1
        exact List.mem_map.2 ⟨c, List.mem_range.2 hc', by rw [he]; rfl⟩
  cases hl : latency E rt net with
  | none =>
    rw [hl] at key
    intro c s d hs hp
    exact absurd (show d ∈ {d | ∃ c s, outputSource net c = some s ∧ PathTo E.S P (ready E.S E.seed E.hash0 net) s d} from ⟨c, s, hs, hp⟩)
      (by rw [show {d | ∃ c s, outputSource net c = some s ∧ PathTo E.S P (ready E.S E.seed E.hash0 net) s d} = ∅ from key]; simp)
  | some l =>
    rw [hl] at key
    exact ⟨key.1, fun c s d hs hp => key.2 ⟨c, s, hs, hp⟩⟩

/-! ## Examples -/

/-- Units for the examples: gain, a binary operator, a unit with lookahead (a stand-in for the limiter that passes its input on), a constant and
the placeholder of `fade_in`. -/
inductive GU
  | gain (g : ℝ)
  | op (o : Op)
  | look (d : ℝ)
  | const (x : ℝ)
  | dummy (i o : Nat)

def GU.ins : GU → Nat
  | .gain _ => 1
  | .op _ => 2
  | .look _ => 1
  | .const _ => 0
  | .dummy i _ => i
def GU.outs : GU → Nat
  | .dummy _ o => o
  | _ => 1

noncomputable def opReal : Op → ℝ → ℝ → ℝ
  | .add => (· + ·)
  | .sub => (· - ·)
  | .mul => (· * ·)
noncomputable def opSig : Op → Sig → Sig → Sig
  | .add => Sig.add
  | .sub => Sig.sub
  | .mul => Sig.mul

noncomputable def GU.tick : GU → List ℝ → List ℝ
  | .gain g, x => [x.getD 0 0 * g]
  | .op o, x => [opReal o (x.getD 0 0) (x.getD 1 0)]
  | .look _, x => [x.getD 0 0]
  | .const v, _ => [v]
  | .dummy _ o, _ => List.replicate o 0

noncomputable def gdemo : Units GU ℝ where
  toArith := realArith
  ins := GU.ins
  outs := GU.outs
  setSR := fun _ u => u
  reset := fun u => u
  ping := fun _ h u => (u, h)
  utick := fun u x => (u, u.tick x)
  binop := .op
  const := .const
  dummy := .dummy

theorem gdemo_lawful : gdemo.Lawful := by
  constructor <;> intros <;> try rfl
  rename_i u x
  cases u <;> simp [gdemo, GU.tick, GU.outs]

noncomputable def gEnv : Env GU ℝ := ⟨gdemo, id, 0⟩

noncomputable def gRoute : GU → SFrame → SFrame
  | .gain g, sg => [(sg.at 0).mulScalar g]
  | .op o, sg => [opSig o (sg.at 0) (sg.at 1)]
  | .look d, sg => [(sg.at 0).distort d]
  | .const v, _ => [.value v]
  | .dummy _ o, _ => chans o (fun _ => .value 0)

def gPaths : UPaths GU
  | .gain _, a, _, d => a = some 0 ∧ d = 0
  | .op _, a, _, d => (a = some 0 ∨ a = some 1) ∧ d = 0
  | .look l, a, _, d => a = some 0 ∧ d = l
  | _, _, _, _ => False

theorem gdemo_out (u : GU) (x : Nat → List ℝ) (k : Nat) : uOut gdemo u x k = u.tick (x k) := by
  have : uSt gdemo u x k = u := by
    induction k with
    | zero => rfl
    | succ k ih => rw [uSt, ih]; rfl
  rw [uOut, this]; rfl

theorem gdemo_sound (θ : ℝ) (u : GU) : UnitSound gdemo gRoute θ u := by
  intro A sg x _ hx
  have h1 : uOut gdemo u x = fun k => u.tick (x k) := funext (gdemo_out u x)
  rw [h1]
  obtain ⟨_, hx⟩ := hx
  cases u with
  | gain g =>
    refine ⟨rfl, fun c hc => ?_⟩
    obtain rfl : c = 0 := Nat.lt_one_iff.1 hc
    exact holds_mulScalar g (hx 0 Nat.one_pos)
  | op o =>
    refine ⟨rfl, fun c hc => ?_⟩
    obtain rfl : c = 0 := Nat.lt_one_iff.1 hc
    cases o with
    | add => exact holds_add (hx 0 (show 0 < 2 by omega)) (hx 1 (show 1 < 2 by omega))
    | sub => exact holds_sub (hx 0 (show 0 < 2 by omega)) (hx 1 (show 1 < 2 by omega))
    | mul => exact holds_mul (hx 0 (show 0 < 2 by omega)) (hx 1 (show 1 < 2 by omega))
  | look d =>
    refine ⟨rfl, fun c hc => ?_⟩
    obtain rfl : c = 0 := Nat.lt_one_iff.1 hc
    exact holds_distort _ _ _
  | const v =>
    refine ⟨rfl, fun c hc => ?_⟩
    obtain rfl : c = 0 := Nat.lt_one_iff.1 hc
    exact AsympExp.congr' (AsympExp.const _ v) rfl rfl (fun _ => rfl)
  | dummy i o =>
    refine ⟨chans_length _ _, fun c hc => ?_⟩
    have hc' : c < o := hc
    simp only [gRoute, chans_at _ hc']
    refine AsympExp.congr' (AsympExp.const _ 0) rfl rfl (fun k => ?_)
    simp [GU.tick, List.getD, hc']

theorem gdemo_lat (u : GU) : UnitLat gdemo gRoute gPaths u := by
  intro sg _ hr
  cases u with
  | gain g =>
    refine ⟨rfl, fun c hc => ?_⟩
    obtain rfl : c = 0 := Nat.lt_one_iff.1 hc
    have h0 := hr 0 Nat.one_pos
    refine ⟨(op1_mulScalar g).resp _ h0, (least_shift (lat (sg.at 0)) 0).of_eq ?_ ?_⟩
    · ext x
      constructor
      · rintro ⟨y, hy, rfl⟩; exact Or.inr ⟨0, y, 0, Nat.one_pos, hy, ⟨rfl, rfl⟩, rfl⟩
      · rintro (⟨h, _⟩ | ⟨a, y, d, _, hy, ⟨ha, rfl⟩, rfl⟩)
        · cases h
        · cases ha; exact ⟨y, hy, rfl⟩
    · show _ = lat ((sg.at 0).mulScalar g)
      rw [lat_mulScalar]; cases lat (sg.at 0) <;> simp
  | op o =>
    refine ⟨rfl, fun c hc => ?_⟩
    obtain rfl : c = 0 := Nat.lt_one_iff.1 hc
    have h0 := hr 0 (show 0 < 2 by omega)
    have h1 := hr 1 (show 1 < 2 by omega)
    have ho : Op2Lat (opSig o) := by cases o; exacts [op2_add, op2_sub, op2_mul]
    refine ⟨ho.resp _ _ h0 h1, ((least_shift (lat (sg.at 0)) 0).union (least_shift (lat (sg.at 1)) 0)).of_eq ?_ ?_⟩
    · ext x
      constructor
      · rintro (⟨y, hy, rfl⟩ | ⟨y, hy, rfl⟩)
        · exact Or.inr ⟨0, y, 0, (show 0 < 2 by omega), hy, ⟨Or.inl rfl, rfl⟩, rfl⟩
        · exact Or.inr ⟨1, y, 0, (show 1 < 2 by omega), hy, ⟨Or.inr rfl, rfl⟩, rfl⟩
      · rintro (⟨h | h, _⟩ | ⟨a, y, d, _, hy, ⟨ha | ha, rfl⟩, rfl⟩)
        · cases h
        · cases h
        · cases ha; exact Or.inl ⟨y, hy, rfl⟩
        · cases ha; exact Or.inr ⟨y, hy, rfl⟩
    · show _ = lat (opSig o (sg.at 0) (sg.at 1))
      rw [ho.lat]; cases lat (sg.at 0) <;> cases lat (sg.at 1) <;> simp
  | look d =>
    refine ⟨rfl, fun c hc => ?_⟩
    obtain rfl : c = 0 := Nat.lt_one_iff.1 hc
    refine ⟨resp_distort _ _, (least_shift (lat (sg.at 0)) d).of_eq ?_ (lat_distort _ _).symm⟩
    ext x
    constructor
    · rintro ⟨y, hy, rfl⟩; exact Or.inr ⟨0, y, d, Nat.one_pos, hy, ⟨rfl, rfl⟩, rfl⟩
    · rintro (⟨h, _⟩ | ⟨a, y, d, _, hy, ⟨ha, rfl⟩, rfl⟩)
      · cases h
      · cases ha; exact ⟨y, hy, rfl⟩
  | const v =>
    refine ⟨rfl, fun c hc => ?_⟩
    obtain rfl : c = 0 := Nat.lt_one_iff.1 hc
    refine ⟨fun h => h, Set.eq_empty_iff_forall_notMem.2 ?_⟩
    rintro x (h | ⟨_, _, _, _, _, h, _⟩) <;> exact h
  | dummy i o =>
    refine ⟨chans_length _ _, fun c hc => ?_⟩
    have hc' : c < o := hc
    simp only [gRoute, chans_at _ hc']
    refine ⟨fun h => h, Set.eq_empty_iff_forall_notMem.2 ?_⟩
    rintro x (h | ⟨_, _, _, _, _, h, _⟩) <;> exact h

theorem fading_of {net : Net U ℝ} (h : ∀ (i : Nat) (v : Vertex U ℝ), net.vertex[i]? = some v → v.eng.next.unit = none) (id : Nat) :
    fading net id = false := by
  unfold fading
  cases hi : net.nodeIndex.get id with
  | none => rfl
  | some i =>
    cases hv : net.vertex[i]? with
    | none => simp [hv]
    | some v => simp [hv, h i v hv]

/-- A net with one input: gain 2 and the dry input added, and the input through a lookahead of 441 samples. The first output has response 3, the
net has latency zero. -/
example [DecidableEq ℝ] : ∃ net m, Reach gEnv InRange m net ∧ ¬ Cyclic net ∧ (∀ id, fading net id = false) ∧ size net = 3 ∧
    response gEnv gRoute net 0 = some 3 ∧ response gEnv gRoute net 1 = none ∧ latency gEnv gRoute net = some 0 := by
  have h0 : Reach gEnv InRange 0 (new 44100 1 2 : Net GU ℝ) := .new 0 _ 1 2
  have h1 := h0.edit (.push (.op .add)) trivial rfl
  have h2 := h1.edit (.push (.gain 2)) trivial rfl
  have h3 := h2.edit (.push (.look 441)) trivial rfl
  have h4 := h3.edit (.connectInput 0 1 0) (by show 0 < 1; decide) rfl
  have h5 := h4.edit (.connectInput 0 2 0) (by show 0 < 1; decide) rfl
  have h6 := h5.edit (.connect 1 0 0 0) (by intro o ho; cases ho; decide) rfl
  have h7 := h6.edit (.connectInput 0 0 1) (by show 0 < 1; decide) rfl
  have h8 := h7.edit (.connectOutput 0 0 0) (by intro o ho; cases ho; decide) rfl
  have h9 := h8.edit (.connectOutput 2 0 1) (by intro o ho; cases ho; decide) rfl
  refine ⟨_, _, h9, ?_, ?_, rfl, ?_, ?_, ?_⟩
  · rw [← C02_error gEnv gdemo_lawful h9]
    intro h; cases h
  · refine fading_of fun i v hv => ?_
    match i with
    | 0 => cases hv; rfl
    | 1 => cases hv; rfl
    | 2 => cases hv; rfl
    | i + 3 => cases hv
  · show (match (Sig.add ((Sig.response 1 0).mulScalar 2) (Sig.response 1 0)) with | .response rx _ => some rx | _ => none) = _
    simp [Sig.add, Sig.mulScalar, Sig.combineLinear]
    norm_num
  · rfl
  · show minLatency [Sig.add ((Sig.latency 0).mulScalar 2) (Sig.latency 0), (Sig.latency 0).distort 441] = _
    simp [Sig.add, Sig.mulScalar, Sig.combineLinear, minLatency, latencyStep, Sig.distort]

/-! ## Counterexample -/

/-- A net that multiplies its input by one, with a crossfade to silence over one sample under way. -/
theorem gfade_reach [DecidableEq ℝ] : ∃ net, Reach gEnv InRange 1 net ∧ ¬ Cyclic net ∧ net.inputs = 1 ∧ net.outputs = 1 ∧
    response gEnv gRoute net 0 = some 1 ∧ ∃ v, (ready gdemo id 0 net).vertex = [v] ∧ (ready gdemo id 0 net).sampleRate = 1 ∧
      (ready gdemo id 0 net).outputEdge = [⟨.loc 0 0, .glob 0⟩] ∧ v.eng = ⟨.gain 1, 0, ⟨some (.gain 0), 0, 0, .smooth, 1⟩, NodeEdit.empty gdemo⟩ := by
  have h0 : Reach gEnv InRange 0 (new 1 1 1 : Net GU ℝ) := .new 0 _ 1 1
  have h1 := h0.edit (.push (.gain 1)) trivial rfl
  have h2 := h1.edit (.pipeInput 0) trivial rfl
  have h3 := h2.edit (.pipeOutput 0) trivial rfl
  have h4 := h3.edit (.crossfade 0 .smooth 1 (.gain 0)) trivial rfl
  refine ⟨_, h4, ?_, rfl, rfl, ?_, _, rfl, rfl, rfl, rfl⟩
  · rw [← C02_error gEnv gdemo_lawful h4]
    intro h; cases h
  · show (match ((Sig.response 1 0).mulScalar 1) with | .response rx _ => some rx | _ => none) = _
    simp [Sig.mulScalar]

theorem gfade_engSt (X : Nat → List ℝ) (k : Nat) : ∃ e : Eng GU ℝ,
    engSt gdemo 1 ⟨.gain 1, 0, ⟨some (.gain 0), 0, 0, .smooth, 1⟩, NodeEdit.empty gdemo⟩ X (k + 1) = e ∧ e.unit = .gain 0 ∧ e.next.unit = none := by
  refine ⟨_, rfl, ?_⟩
  induction k with
  | zero =>
    have hge : gdemo.ge (gdemo.add 0 (gdemo.div gdemo.one (gdemo.mul 1 1))) gdemo.one = true := by
      simp [gdemo, realArith]
    simp only [engSt, Eng.tick, hge, if_true, Eng.nextPhase]
    exact ⟨rfl, rfl⟩
  | succ k ih =>
    rw [engSt, Eng.tick_plain _ _ _ ih.2]
    refine ⟨?_, ih.2⟩
    show (engSt gdemo 1 _ X (k + 1)).unit = _
    exact ih.1

/-- **C103** is false of the code while a crossfade is under way: the net still reports the response of the unit that is being faded out. Here it
reports 1 at the Nyquist frequency although its output is silent from the second sample on. -/
theorem C103_violation [DecidableEq ℝ] : ∃ (net : Net GU ℝ), Reach gEnv InRange 1 net ∧ ¬ Cyclic net ∧ net.inputs = 1 ∧
    (∀ u, UnitSound gdemo gRoute Real.pi u) ∧ response gEnv gRoute net 0 = some 1 ∧
    (∀ w k, heard gEnv net w (k + 1) = [0]) ∧
    ∀ d : ℝ, ¬ Tendsto (fun k => (heard gEnv net (fun t => [((-1 : ℝ)) ^ t]) k).getD 0 0 - (d + (-1 : ℝ) ^ k)) atTop (𝓝 0) := by
  obtain ⟨net, h1, h2, h3, h4, h5, v, h6, h7, h8, h9⟩ := gfade_reach
  have hq : ∀ w k, heard gEnv net w (k + 1) = [0] := by
    intro w k
    obtain ⟨o, hr⟩ := h1.runs gdemo_lawful h2
    rw [heard_eq gEnv net w gdemo_lawful hr]
    have hout : (ready gEnv.S gEnv.seed gEnv.hash0 net).outputs = 1 := 
      (ready_sameWiring gdemo_lawful gEnv.seed gEnv.hash0 net).outputs.trans h4
    have hv : (ready gEnv.S gEnv.seed gEnv.hash0 net).vertex[0]? = some v := by
      show (ready gdemo id 0 net).vertex[0]? = some v
      rw [h6]; rfl
    have hn := (netAt_step hr w (k + 1) (netAt hr w (k + 1))).2.1 0 v hv
    rw [hout, show (ready gEnv.S gEnv.seed gEnv.hash0 net).outputEdge = [⟨.loc 0 0, .glob 0⟩] from h8]
    simp only [List.take_succ_cons, List.take_zero, List.map_cons, List.map_nil, portVal, hn]
    rw [show (ready gEnv.S gEnv.seed gEnv.hash0 net).sampleRate = 1 from h7, h9]
    obtain ⟨e, he1, he2, he3⟩ := gfade_engSt (nodeIn gEnv.S (ready gEnv.S gEnv.seed gEnv.hash0 net) w v) k
    have e1 : engOut gEnv.S 1 ⟨.gain 1, 0, ⟨some (.gain 0), 0, 0, .smooth, 1⟩, NodeEdit.empty gdemo⟩
        (nodeIn gEnv.S (ready gEnv.S gEnv.seed gEnv.hash0 net) w v) (k + 1) = [0] := by
      unfold engOut
      rw [show engSt gEnv.S 1 _ _ (k + 1) = e from he1, Eng.tick_plain _ _ _ he3, he2]
      show [_ * (0 : ℝ)] = [0]
      rw [mul_zero]
    rw [e1]; rfl
  refine ⟨net, h1, h2, h3, gdemo_sound _, h5, hq, fun d ht => ?_⟩
  have hs := (tendsto_add_atTop_iff_nat 1).2 ht
  simp only [hq, List.getD_cons_zero, zero_sub] at hs
  have hs2 := ((hs.comp (tendsto_add_atTop_nat 1)).sub hs).abs
  have hs3 : Tendsto (fun _ : ℕ => (2 : ℝ)) atTop (𝓝 |0 - 0|) := by
    refine hs2.congr (fun k => ?_)
    have : (-(d + (-1 : ℝ) ^ (k + 1 + 1)) - -(d + (-1) ^ (k + 1))) = -2 * (-1) ^ k := by ring
    simp only [Function.comp_def]
    rw [this, abs_mul, abs_pow]; norm_num
  have := tendsto_nhds_unique hs3 tendsto_const_nhds
  norm_num at this

end Fundsp.Net
