import Verif.Net.Run
import Verif.Core.Node

/-! # Block processing of nets (C08): model and structural lemmas -/

namespace Fundsp.Net
variable {U α : Type}

/-- Contents of a buffer: channel, sample (`/repo/src/buffer.rs`). -/
abbrev CBuf (α : Type) := Nat → Nat → α

/-- `AudioUnit::process(size, input, output)`, `/repo/src/audiounit.rs`; the last argument is the old contents of the output buffer. -/
abbrev Proc (U α : Type) := U → Nat → CBuf α → CBuf α → U × CBuf α

/-- Fade position of sample `k` of a block: `fade += fade_d` in the loops of `vertex.rs:180-222`. -/
def fadeSeq (S : Arith α) (phase d : α) : Nat → α
  | 0 => phase
  | k + 1 => S.add (fadeSeq S phase d k) d

/-- `Vertex::process`, `vertex.rs:163-230`. `old` and `tmp` are the contents of `output` and `output_tmp`. -/
def Eng.process (S : Units U α) (P : Proc U α) (sr : α) (outs : Nat) (e : Eng U α) (size : Nat) (x old tmp : CBuf α) : Eng U α × CBuf α :=
  let r := P e.unit size x old
  match e.next.unit with
  | none => ({ e with unit := r.1 }, r.2)
  | some nx =>
    let phaseLeft := S.toNat (S.mul (S.mul (S.sub S.one e.phase) e.next.time) sr)
    let n := min size phaseLeft
    let d := S.div S.one (S.mul e.next.time sr)
    let out1 : CBuf α := fun c k =>
      if c < outs ∧ k < n then S.mul (r.2 c k) (S.fadeAt e.next.fade (S.sub S.one (fadeSeq S.toArith e.phase d k))) else r.2 c k
    let q := P nx size x tmp
    let out2 : CBuf α := fun c k =>
      if c < outs ∧ k < n then S.add (out1 c k) (S.mul (q.2 c k) (S.fadeAt e.next.fade (fadeSeq S.toArith e.phase d k)))
      else if c < outs ∧ k < size then q.2 c k else out1 c k
    let e' : Eng U α := { e with
      unit := r.1, next := { e.next with unit := some q.1 }
      phase := S.add e.phase (S.div (S.ofNat n) (S.mul e.next.time sr)) }
    (if phaseLeft ≤ size then e'.nextPhase S else e', out2)

/-- Sample on a port while processing blocks: `net.rs:1256-1268,1286-1293`. -/
def readBuf (S : Units U α) (vs : List (Vertex U α)) (input : CBuf α) (k : Nat) : Port → α
  | .zero => S.zero
  | .glob p => input p k
  | .loc i p => ((vs[i]?).map (fun v => v.buf p k)).getD S.zero

/-- `input` buffer of a vertex after gathering: `net.rs:1252-1269`. -/
def gather (S : Units U α) (vs : List (Vertex U α)) (input : CBuf α) (size : Nat) (v : Vertex U α) : CBuf α := fun c k =>
  match v.source[c]? with
  | some e => if c < v.ins ∧ k < 8 * simdItems size then readBuf S vs input k e.source else v.inBuf c k
  | none => v.inBuf c k

/-- Loop body of `process_2`, `net.rs:1237-1277`: with a source vertex the unit reads the output buffer of that vertex from channel
`source_port` on, otherwise the inputs are gathered first. `tmp` is the contents of `output_tmp` of the vertices. -/
def procNode (S : Units U α) (P : Proc U α) (sr : α) (input : CBuf α) (size : Nat) (tmp : Nat → CBuf α) (vs : List (Vertex U α)) (ni : Nat) :
    List (Vertex U α) :=
  vs.modify ni fun v =>
    match v.srcVertex with
    | some (sn, sp) =>
      let r := v.eng.process S P sr v.outs size (fun c k => ((vs[sn]?).map (fun w => w.buf (sp + c) k)).getD S.zero) v.buf (tmp ni)
      { v with eng := r.1, buf := r.2 }
    | none =>
      let x := gather S vs input size v
      let r := v.eng.process S P sr v.outs size x v.buf (tmp ni)
      { v with eng := r.1, buf := r.2, inBuf := x }

/-- `process_2` on an ordered net, `net.rs:1225-1295`. -/
def processOrdered (S : Units U α) (P : Proc U α) (net : Net U α) (size : Nat) (input old : CBuf α) (tmp : Nat → CBuf α) : Net U α × CBuf α :=
  let vs := (net.order.getD []).foldl (procNode S P net.sampleRate input size tmp) net.vertex
  ({ net with vertex := vs }, fun c k =>
    match net.outputEdge[c]? with
    | some e => if c < net.outputs ∧ k < 8 * simdItems size then readBuf S vs input k e.source else old c k
    | none => old c k)

/-- `Net::process`, `net.rs:1353-1355`. -/
def process (S : Units U α) (P : Proc U α) (seed : Nat → Nat) (hash0 : Nat) (net : Net U α) (size : Nat) (input old : CBuf α)
    (tmp : Nat → CBuf α) : Net U α × CBuf α :=
  processOrdered S P (ready S seed hash0 net) size input old tmp

/-! ## Requirements on units -/

/-- Unit after `k` ticks. -/
def uSt (S : Units U α) (u : U) (X : Nat → List α) : Nat → U
  | 0 => u
  | k + 1 => (S.utick (uSt S u X k) (X k)).1

/-- Output of tick `k`. -/
def uOut (S : Units U α) (u : U) (X : Nat → List α) (k : Nat) : List α := (S.utick (uSt S u X k) (X k)).2

/-- Input frames of a unit reading the buffer `x`. -/
def frames (ins : Nat) (x : CBuf α) (k : Nat) : List α := (List.range ins).map (fun c => x c k)

/-- Requirement on units: processing a block is ticking, up to a relation `R` between states that cannot be told apart. `R` may be equality. -/
structure BlockLaw (S : Units U α) (P : Proc U α) (R : U → U → Prop) : Prop where
  arity : ∀ u v, R u v → S.ins u = S.ins v ∧ S.outs u = S.outs v
  reset : ∀ u v, R u v → R (S.reset u) (S.reset v)
  tick : ∀ u v x, R u v → R (S.utick u x).1 (S.utick v x).1 ∧ (S.utick u x).2 = (S.utick v x).2
  proc : ∀ u v size x old, R u v → size ≤ 64 → R (P u size x old).1 (uSt S v (frames (S.ins v) x) size) ∧
    ∀ c k, c < S.outs v → k < size → (P u size x old).2 c k = (uOut S v (frames (S.ins v) x) k).getD c S.zero

structure EditRel (R : U → U → Prop) (a b : NodeEdit U α) : Prop where
  unit : Option.Rel R a.unit b.unit
  id : a.id = b.id
  index : a.index = b.index
  fade : a.fade = b.fade
  time : a.time = b.time

structure EngRel (R : U → U → Prop) (e f : Eng U α) : Prop where
  unit : R e.unit f.unit
  phase : e.phase = f.phase
  next : EditRel R e.next f.next
  latest : EditRel R e.latest f.latest

def engSt (S : Units U α) (sr : α) (e : Eng U α) (X : Nat → List α) : Nat → Eng U α
  | 0 => e
  | k + 1 => ((engSt S sr e X k).tick S sr (X k)).1

def engOut (S : Units U α) (sr : α) (e : Eng U α) (X : Nat → List α) (k : Nat) : List α := ((engSt S sr e X k).tick S sr (X k)).2

theorem engSt_congr (S : Units U α) (sr : α) (e : Eng U α) {X Y : Nat → List α} (k : Nat) (h : ∀ j, j < k → X j = Y j) :
    engSt S sr e X k = engSt S sr e Y k := by
  induction k with
  | zero => rfl
  | succ k ih => rw [engSt, engSt, ih (fun j hj => h j (by omega)), h k (by omega)]

theorem engOut_congr (S : Units U α) (sr : α) (e : Eng U α) {X Y : Nat → List α} (k : Nat) (h : ∀ j, j ≤ k → X j = Y j) :
    engOut S sr e X k = engOut S sr e Y k := by
  rw [engOut, engOut, engSt_congr S sr e k (fun j hj => h j (by omega)), h k (le_refl _)]

theorem uSt_congr (S : Units U α) (u : U) {X Y : Nat → List α} (k : Nat) (h : ∀ j, j < k → X j = Y j) : uSt S u X k = uSt S u Y k := by
  induction k with
  | zero => rfl
  | succ k ih => rw [uSt, uSt, ih (fun j hj => h j (by omega)), h k (by omega)]

/-- All units of a node have the arity of the node. -/
def EngArity (S : Units U α) (ins outs : Nat) (e : Eng U α) : Prop :=
  (S.ins e.unit = ins ∧ S.outs e.unit = outs) ∧ ∀ u, (e.next.unit = some u ∨ e.latest.unit = some u) → S.ins u = ins ∧ S.outs u = outs

theorem engArity_nextPhase {S : Units U α} {ins outs : Nat} {e : Eng U α} (h : EngArity S ins outs e) : EngArity S ins outs (e.nextPhase S) := by
  unfold Eng.nextPhase
  split
  · exact h
  · rename_i u hu
    refine ⟨h.2 u (Or.inl hu), ?_⟩
    rintro w (hw | hw)
    · exact h.2 w (Or.inr hw)
    · cases hw

theorem engArity_tick {S : Units U α} (hS : S.Lawful) {ins outs : Nat} {e : Eng U α} (h : EngArity S ins outs e) (sr : α) (x : List α) :
    EngArity S ins outs (e.tick S sr x).1 := by
  unfold Eng.tick
  cases hn : e.next.unit with
  | none =>
    refine ⟨⟨(hS.ins_tick _ _).trans h.1.1, (hS.outs_tick _ _).trans h.1.2⟩, fun u hu => h.2 u hu⟩
  | some nx =>
    have hnx := h.2 nx (Or.inl hn)
    simp only
    have : EngArity S ins outs { e with
        unit := (S.utick e.unit x).1, next := { e.next with unit := some (S.utick nx x).1 }
        phase := S.add e.phase (S.div S.one (S.mul e.next.time sr)) } := by
      refine ⟨⟨(hS.ins_tick _ _).trans h.1.1, (hS.outs_tick _ _).trans h.1.2⟩, ?_⟩
      rintro u (hu | hu)
      · cases hu; exact ⟨(hS.ins_tick _ _).trans hnx.1, (hS.outs_tick _ _).trans hnx.2⟩
      · exact h.2 u (Or.inr hu)
    split
    · exact engArity_nextPhase this
    · exact this

/-- Requirement on nodes in states `Good`. -/
structure EngBlock (S : Units U α) (P : Proc U α) (R : U → U → Prop) (sr : α) (Good : Eng U α → Prop) : Prop where
  tick : ∀ e f x, EngRel R e f → Good f →
    (EngRel R (e.tick S sr x).1 (f.tick S sr x).1 ∧ (e.tick S sr x).2 = (f.tick S sr x).2) ∧ Good (f.tick S sr x).1
  proc : ∀ e f ins outs size x old tmp, EngRel R e f → Good f → EngArity S ins outs f → size ≤ 64 →
    EngRel R (e.process S P sr outs size x old tmp).1 (engSt S sr f (frames ins x) size) ∧
    ∀ c k, c < outs → k < size → (e.process S P sr outs size x old tmp).2 c k = (engOut S sr f (frames ins x) k).getD c S.zero
  reset : ∀ e, Good e → Good { e with unit := S.reset e.unit }

/-- Nodes that are not being crossfaded. -/
theorem engBlock_plain {S : Units U α} {P : Proc U α} {R : U → U → Prop} (L : BlockLaw S P R) (sr : α) :
    EngBlock S P R sr (fun e => e.next.unit = none) where
  reset := fun e h => h
  tick := by
    intro e f x h hf
    have he : e.next.unit = none := by
      have := h.next.unit
      rw [hf] at this
      cases hu : e.next.unit with
      | none => rfl
      | some _ => rw [hu] at this; cases this
    rw [Eng.tick_plain S sr e he, Eng.tick_plain S sr f hf]
    obtain ⟨h1, h2⟩ := L.tick _ _ x h.unit
    exact ⟨⟨⟨h1, h.phase, h.next, h.latest⟩, h2⟩, hf⟩
  proc := by
    intro e f ins outs size x old tmp h hf ha hs
    have he : e.next.unit = none := by
      have := h.next.unit
      rw [hf] at this
      cases hu : e.next.unit with
      | none => rfl
      | some _ => rw [hu] at this; cases this
    obtain ⟨h1, h2⟩ := L.proc _ _ size x old h.unit hs
    rw [ha.1.1] at h1 h2
    rw [ha.1.2] at h2
    have hst : ∀ k, engSt S sr f (frames ins x) k = { f with unit := uSt S f.unit (frames ins x) k } := by
      intro k
      induction k with
      | zero => rfl
      | succ k ih => rw [engSt, ih, Eng.tick_plain S sr _ (by exact hf)]; rfl
    have hp : e.process S P sr outs size x old tmp = ({ e with unit := (P e.unit size x old).1 }, (P e.unit size x old).2) := by
      simp only [Eng.process, he]
    rw [hp, hst]
    refine ⟨⟨h1, h.phase, h.next, h.latest⟩, fun c k hc hk => ?_⟩
    rw [engOut, hst, Eng.tick_plain S sr _ (by exact hf)]
    exact h2 c k hc hk

/-! ## Nets -/

structure VertexRel (R : U → U → Prop) (v u : Vertex U α) : Prop where
  eng : EngRel R v.eng u.eng
  source : v.source = u.source
  ins : v.ins = u.ins
  outs : v.outs = u.outs
  src : v.srcVertex = u.srcVertex
  id : v.id = u.id

/-- Two nets that differ only in unobservable parts of unit states and in buffer contents. -/
structure NetRel (R : U → U → Prop) (p m : Net U α) : Prop where
  inputs : p.inputs = m.inputs
  outputs : p.outputs = m.outputs
  oe : p.outputEdge = m.outputEdge
  order : p.order = m.order
  sr : p.sampleRate = m.sampleRate
  index : p.nodeIndex = m.nodeIndex
  len : p.vertex.length = m.vertex.length
  node : ∀ (i : Nat) (v u : Vertex U α), p.vertex[i]? = some v → m.vertex[i]? = some u → VertexRel R v u

/-- A net that can be run: valid wiring with an up to date evaluation order. -/
structure Runs (S : Units U α) (net : Net U α) (o : List Nat) : Prop where
  order : net.order = some o
  eval : EvalOrder net o
  valid : Valid S net
  arity : ∀ (i : Nat) (v : Vertex U α), net.vertex[i]? = some v → EngArity S v.ins v.outs v.eng
  src : ∀ (i : Nat) (v : Vertex U α), net.vertex[i]? = some v → v.srcVertex = v.updateSourceVertex.srcVertex

/-- Net after `k` ticks. -/
def netSt (S : Units U α) (m : Net U α) (w : Nat → List α) : Nat → Net U α
  | 0 => m
  | k + 1 => (tickOrdered S (netSt S m w k) (w k)).1

/-- Output of node `i` in tick `k`. -/
def nodeOut (S : Units U α) (m : Net U α) (w : Nat → List α) (k : Nat) : Nat → List α := outsOf (netSt S m w (k + 1)).vertex

/-- Input frames of a node. -/
def nodeIn (S : Units U α) (m : Net U α) (w : Nat → List α) (v : Vertex U α) (k : Nat) : List α :=
  (v.source.take v.ins).map (fun e => portVal S (w k) (nodeOut S m w k) e.source)

theorem evalOrder_congr {a b : Net U α} {order : List Nat} (h : EvalOrder a order) (hw : SameWiring a b) : EvalOrder b order :=
  ⟨by rw [hw.len]; exact h.perm, fun x i y hxy j hj => h.topo x i y hxy j ((wire_sameWiring hw i j).1 hj)⟩

/-- What is known after `k` ticks. -/
structure NetAt (S : Units U α) (m : Net U α) (w : Nat → List α) (k : Nat) : Prop where
  shell : netSt S m w k = { m with vertex := (netSt S m w k).vertex }
  len : (netSt S m w k).vertex.length = m.vertex.length
  get : ∀ (i : Nat) (v : Vertex U α), m.vertex[i]? = some v →
      ∃ t, (netSt S m w k).vertex[i]? = some { v with eng := engSt S m.sampleRate v.eng (nodeIn S m w v) k, tickOut := t }

theorem NetAt.sameWiring {S : Units U α} {m : Net U α} {w : Nat → List α} {k : Nat} (h : NetAt S m w k) : SameWiring m (netSt S m w k) := by
  refine ⟨by rw [h.shell], by rw [h.shell], by rw [h.shell], by rw [h.shell], h.len, ?_⟩
  intro i v u hv hu
  obtain ⟨t, ht⟩ := h.get i v hv
  rw [ht] at hu; cases hu; exact ⟨rfl, rfl, rfl, rfl⟩

theorem netAt_step {S : Units U α} {m : Net U α} {o : List Nat} (hr : Runs S m o) (w : Nat → List α) (k : Nat) (h : NetAt S m w k) :
    NetAt S m w (k + 1) ∧
    (∀ (i : Nat) (v : Vertex U α), m.vertex[i]? = some v → nodeOut S m w k i = engOut S m.sampleRate v.eng (nodeIn S m w v) k) ∧
    (tickOrdered S (netSt S m w k) (w k)).2 = (m.outputEdge.take m.outputs).map (fun e => portVal S (w k) (nodeOut S m w k) e.source) := by
  have hord : (netSt S m w k).order = some o := by rw [h.shell]; exact hr.order
  have hsr : (netSt S m w k).sampleRate = m.sampleRate := by rw [h.shell]
  obtain ⟨eng', out, s1, s2, s3, s4, s5⟩ := tickOrdered_solves (S := S) (netSt S m w k) (w k) hord (evalOrder_congr hr.eval h.sameWiring)
  have hout : ∀ (i : Nat) (v : Vertex U α), m.vertex[i]? = some v → out i = nodeOut S m w k i := by
    intro i v hv
    obtain ⟨t, ht⟩ := h.get i v hv
    have := s4 i _ ht
    rw [nodeOut, outsOf, netSt, this]; rfl
  have hpv : ∀ p, PortOK m p → portVal S (w k) out p = portVal S (w k) (nodeOut S m w k) p := by
    intro p hp
    refine portVal_congr S (w k) p fun j q hjq => ?_
    rw [hjq] at hp
    obtain ⟨v, hv, _⟩ := hp
    exact hout j v hv
  have hs : ∀ (i : Nat) (v : Vertex U α), m.vertex[i]? = some v →
      (engSt S m.sampleRate v.eng (nodeIn S m w v) k).tick S m.sampleRate (nodeIn S m w v k) = (eng' i, out i) := by
    intro i v hv
    obtain ⟨t, ht⟩ := h.get i v hv
    have := s1 i _ ht
    rw [hsr] at this
    rw [← this]
    congr 1
    unfold nodeIn
    apply List.map_congr_left
    intro e he
    obtain ⟨c, hc⟩ := List.getElem?_of_mem (List.mem_of_mem_take he)
    exact (hpv _ (hr.valid.edge i v c e hv hc).2).symm
  refine ⟨⟨?_, ?_, ?_⟩, ?_, ?_⟩
  · rw [netSt, s2, (show (netSt S m w k).inputs = m.inputs by rw [h.shell]), (show (netSt S m w k).outputs = m.outputs by rw [h.shell]),
      (show (netSt S m w k).outputEdge = m.outputEdge by rw [h.shell]), (show (netSt S m w k).order = m.order by rw [h.shell]),
      (show (netSt S m w k).nodeIndex = m.nodeIndex by rw [h.shell]), (show (netSt S m w k).sampleRate = m.sampleRate by rw [h.shell]),
      (show (netSt S m w k).hasBackend = m.hasBackend by rw [h.shell]),
      (show (netSt S m w k).backendInputs = m.backendInputs by rw [h.shell]),
      (show (netSt S m w k).backendOutputs = m.backendOutputs by rw [h.shell]),
      (show (netSt S m w k).editQueue = m.editQueue by rw [h.shell]), (show (netSt S m w k).revision = m.revision by rw [h.shell]),
      (show (netSt S m w k).cycleError = m.cycleError by rw [h.shell])]
  · rw [netSt, s3, h.len]
  · intro i v hv
    obtain ⟨t, ht⟩ := h.get i v hv
    refine ⟨out i, ?_⟩
    rw [netSt, s4 i _ ht, engSt, hs i v hv]
  · intro i v hv
    rw [engOut, hs i v hv, hout i v hv]
  · rw [s5]
    have e1 : (netSt S m w k).outputEdge = m.outputEdge := by rw [h.shell]
    have e2 : (netSt S m w k).outputs = m.outputs := by rw [h.shell]
    rw [e1, e2]
    apply List.map_congr_left
    intro e he
    obtain ⟨c, hc⟩ := List.getElem?_of_mem (List.mem_of_mem_take he)
    exact hpv _ (hr.valid.oe c e hc).2

/-- Over a run of ticks each node runs by itself on its input stream. -/
theorem netAt {S : Units U α} {m : Net U α} {o : List Nat} (hr : Runs S m o) (w : Nat → List α) (k : Nat) : NetAt S m w k := by
  induction k with
  | zero => exact ⟨rfl, rfl, fun i v hv => ⟨v.tickOut, hv⟩⟩
  | succ k ih => exact (netAt_step hr w k ih).1

theorem engArity_engSt {S : Units U α} (hS : S.Lawful) {ins outs : Nat} {e : Eng U α} (h : EngArity S ins outs e) (sr : α) (X : Nat → List α)
    (k : Nat) : EngArity S ins outs (engSt S sr e X k) := by
  induction k with
  | zero => exact h
  | succ k ih => exact engArity_tick hS ih sr (X k)

theorem valid_sameWiring {S : Units U α} {a b : Net U α} (hw : SameWiring a b) (h : Valid S a)
    (ha : ∀ (i : Nat) (v : Vertex U α), b.vertex[i]? = some v → EngArity S v.ins v.outs v.eng) : Valid S b := by
  have hport : ∀ p, PortOK a p → PortOK b p := by
    intro p hp
    cases p with
    | zero => trivial
    | glob g => show g < b.inputs; rw [hw.inputs]; exact hp
    | loc j q =>
      obtain ⟨v, hv, hq⟩ := hp
      have hj := (List.getElem?_eq_some_iff.1 hv).1
      have hb := List.getElem?_eq_getElem (show j < b.vertex.length by rw [hw.len]; exact hj)
      exact ⟨_, hb, by rw [(hw.node j v _ hv hb).2.2.1]; exact hq⟩
  refine ⟨?_, ?_, ?_, ?_, ?_, ?_, ?_⟩
  · rw [hw.oe, hw.outputs]; exact h.oeLen
  · intro c e he
    rw [hw.oe] at he
    exact ⟨(h.oe c e he).1, hport _ (h.oe c e he).2⟩
  · intro i v hv
    obtain ⟨u, hu⟩ := hw.find hv
    have := ha i v hv
    refine ⟨?_, this.1.1.symm, this.1.2.symm⟩
    rw [(hw.node i u v hu hv).2.2.2, (hw.node i u v hu hv).2.1]
    exact (h.arity i u hu).1
  · intro i v c e hv he
    obtain ⟨u, hu⟩ := hw.find hv
    rw [(hw.node i u v hu hv).2.2.2] at he
    exact ⟨(h.edge i u c e hu he).1, hport _ (h.edge i u c e hu he).2⟩
  · intro id i
    rw [hw.index, h.map]
    constructor
    · rintro ⟨v, hv, rfl⟩
      have hj := (List.getElem?_eq_some_iff.1 hv).1
      have hb := List.getElem?_eq_getElem (show i < b.vertex.length by rw [hw.len]; exact hj)
      exact ⟨_, hb, (hw.node i v _ hv hb).1⟩
    · rintro ⟨v, hv, rfl⟩
      obtain ⟨u, hu⟩ := hw.find hv
      exact ⟨u, hu, (hw.node i u v hu hv).1.symm⟩
  · rw [hw.index]; exact h.keys
  · rw [hw.index, hw.len]; exact h.mapLen

theorem runs_netSt {S : Units U α} (hS : S.Lawful) {m : Net U α} {o : List Nat} (hr : Runs S m o) (w : Nat → List α) (k : Nat) :
    Runs S (netSt S m w k) o := by
  have h := netAt hr w k
  have har : ∀ (i : Nat) (v : Vertex U α), (netSt S m w k).vertex[i]? = some v → EngArity S v.ins v.outs v.eng := by
    intro i v hv
    obtain ⟨u, hu⟩ := h.sameWiring.find hv
    obtain ⟨t, ht⟩ := h.get i u hu
    rw [ht] at hv; cases hv
    exact engArity_engSt hS (hr.arity i u hu) _ _ k
  refine ⟨by rw [h.shell]; exact hr.order, evalOrder_congr hr.eval h.sameWiring, valid_sameWiring h.sameWiring hr.valid har, har, ?_⟩
  intro i v hv
  obtain ⟨u, hu⟩ := h.sameWiring.find hv
  obtain ⟨t, ht⟩ := h.get i u hu
  rw [ht] at hv; cases hv
  exact (hr.src i u hu).trans (updateSourceVertex_congr rfl rfl).symm

/-! ## The processing side -/

theorem lt_simd {k size : Nat} (h : k < size) : k < 8 * simdItems size := by
  unfold simdItems; omega

theorem srcVertex_loc {v : Vertex U α} {sn sp : Nat} (hl : v.source.length = v.ins) (h : v.updateSourceVertex.srcVertex = some (sn, sp))
    (c : Nat) (e : Edge) (he : v.source[c]? = some e) : e.source = .loc sn (sp + c) := by
  have ht : v.source.take v.ins = v.source := by rw [← hl]; simp
  simp only [Vertex.updateSourceVertex, ht] at h
  cases hs : v.source with
  | nil => rw [hs] at he; simp at he
  | cons e0 es =>
    rw [hs] at h he
    simp only at h
    cases h0 : e0.source with
    | zero => rw [h0] at h; simp at h
    | glob _ => rw [h0] at h; simp at h
    | loc node port =>
      rw [h0] at h
      simp only at h
      split at h
      · rename_i hall
        cases h
        rw [List.all_eq_true] at hall
        have hm : (e.source == Port.loc sn (sp + c)) ∈ (e0 :: es).mapIdx (fun i e => e.source == .loc sn (sp + i)) := by
          rw [List.mem_mapIdx]
          obtain ⟨hc, hc'⟩ := List.getElem?_eq_some_iff.1 he
          exact ⟨c, hc, by rw [hc']⟩
        simpa using hall _ hm
      · cases h

theorem procNode_length (S : Units U α) (P : Proc U α) (sr : α) (input : CBuf α) (size : Nat) (tmp : Nat → CBuf α) (l : List Nat)
    (vs : List (Vertex U α)) : (l.foldl (procNode S P sr input size tmp) vs).length = vs.length := by
  induction l generalizing vs with
  | nil => rfl
  | cons a l ih => rw [List.foldl_cons, ih]; simp [procNode]

/-- A processed node: wiring kept, engine and buffer as after `size` ticks. -/
structure Done (S : Units U α) (R : U → U → Prop) (m : Net U α) (w : Nat → List α) (size : Nat) (i : Nat) (u : Vertex U α) (v' : Vertex U α) : Prop where
  rel : VertexRel R v' { u with eng := engSt S m.sampleRate u.eng (nodeIn S m w u) size }
  buf : ∀ c k, c < u.outs → k < size → v'.buf c k = (nodeOut S m w k i).getD c S.zero

theorem process_prefix {S : Units U α} {P : Proc U α} {R : U → U → Prop} {Good : Eng U α → Prop} {m p : Net U α} {o : List Nat}
    (B : EngBlock S P R m.sampleRate Good) (hr : Runs S m o) (hp : NetRel R p m)
    (hg : ∀ (i : Nat) (u : Vertex U α), m.vertex[i]? = some u → Good u.eng)
    (size : Nat) (hsize : size ≤ 64) (input : CBuf α) (tmp : Nat → CBuf α) :
    ∀ (b a : List Nat), o = a ++ b → ∀ (i : Nat) (v u : Vertex U α), p.vertex[i]? = some v → m.vertex[i]? = some u →
      (i ∈ a → ∃ v', (a.foldl (procNode S P m.sampleRate input size tmp) p.vertex)[i]? = some v' ∧
        Done S R m (frames m.inputs input) size i u v') ∧
      (i ∉ a → (a.foldl (procNode S P m.sampleRate input size tmp) p.vertex)[i]? = some v) := by
  intro b a
  induction a using List.reverseRecOn generalizing b with
  | nil => intro _ i v u hv hu; exact ⟨fun h => by simp at h, fun _ => hv⟩
  | append_singleton a n ih =>
    intro hab i v u hv hu
    have IH := ih (n :: b) (by rw [hab]; simp)
    have hnd : o.Nodup := hr.eval.perm.nodup_iff.2 List.nodup_range
    have hna : n ∉ a := by
      rw [hab, List.append_assoc] at hnd
      intro hn
      exact (List.nodup_append.1 hnd).2.2 n hn n (by simp) rfl
    rw [List.foldl_append]
    simp only [List.foldl_cons, List.foldl_nil]
    generalize hF : a.foldl (procNode S P m.sampleRate input size tmp) p.vertex = F at IH
    by_cases hin : i = n
    · subst hin
      refine ⟨fun _ => ?_, fun h => absurd (by simp) h⟩
      have hFi := (IH i v u hv hu).2 hna
      have hrel := hp.node i v u hv hu
      obtain ⟨hlen, _, _⟩ := hr.valid.arity i u hu
      -- the value on a source port
      have hval : ∀ (c : Nat) (e : Edge) (k : Nat), u.source[c]? = some e → k < size →
          readBuf S F input k e.source = portVal S (frames m.inputs input k) (nodeOut S m (frames m.inputs input) k) e.source := by
        intro c e k he hk
        have hok := (hr.valid.edge i u c e hu he).2
        cases hs : e.source with
        | zero => rfl
        | glob g =>
          rw [hs] at hok
          simp only [readBuf, portVal, frames]
          rw [List.getD_eq_getElem?_getD, List.getElem?_map, List.getElem?_range hok]; rfl
        | loc j q =>
          rw [hs] at hok
          obtain ⟨uj, huj, hq⟩ := hok
          have hj : j ∈ a := hr.eval.topo a i b (by rw [hab]; simp) j ⟨u, c, e, q, hu, he, hs⟩
          have hjl : j < p.vertex.length := by rw [hp.len]; exact (List.getElem?_eq_some_iff.1 huj).1
          obtain ⟨v', hv', hd⟩ := (IH j _ uj (List.getElem?_eq_getElem hjl) huj).1 hj
          simp only [readBuf, portVal, hv', Option.map_some, Option.getD_some]
          exact hd.buf q k hq hk
      -- whichever way the inputs are read, they are the input frames of the node
      have key : ∀ x : CBuf α, (∀ (c : Nat) (e : Edge) (k : Nat), u.source[c]? = some e → k < size → x c k = readBuf S F input k e.source) →
          ∀ k, k < size → frames u.ins x k = nodeIn S m (frames m.inputs input) u k := by
        intro x hx k hk
        unfold frames nodeIn
        apply List.ext_getElem?
        intro c
        by_cases hc : c < u.ins
        · have he := List.getElem?_eq_getElem (show c < u.source.length by omega)
          rw [List.getElem?_map, List.getElem?_map, List.getElem?_range hc, List.getElem?_take, if_pos hc, he]
          simp only [Option.map_some]
          rw [hx c _ k he hk, hval c _ k he hk]; rfl
        · rw [List.getElem?_eq_none (by simpa using hc), List.getElem?_eq_none (by simp; omega)]
      have fin : ∀ (x : CBuf α) (v' : Vertex U α), (∀ (c : Nat) (e : Edge) (k : Nat), u.source[c]? = some e → k < size → x c k = readBuf S F input k e.source) →
          v'.eng = (v.eng.process S P m.sampleRate v.outs size x v.buf (tmp i)).1 →
          v'.buf = (v.eng.process S P m.sampleRate v.outs size x v.buf (tmp i)).2 →
          v'.source = v.source → v'.ins = v.ins → v'.outs = v.outs → v'.srcVertex = v.srcVertex → v'.id = v.id →
          Done S R m (frames m.inputs input) size i u v' := by
        intro x v' hx h1 h2 h3 h4 h5 h6 h7
        obtain ⟨q1, q2⟩ := B.proc v.eng u.eng u.ins u.outs size x v.buf (tmp i) hrel.eng (hg i u hu) (hr.arity i u hu) hsize
        rw [hrel.outs] at h1 h2
        have hk := key x hx
        refine ⟨⟨?_, by rw [h3, hrel.source], by rw [h4, hrel.ins], by rw [h5, hrel.outs], by rw [h6, hrel.src], by rw [h7, hrel.id]⟩, ?_⟩
        · rw [h1, ← engSt_congr S m.sampleRate u.eng size hk]; exact q1
        · intro c k hc hks
          rw [h2, q2 c k hc hks, ((netAt_step hr (frames m.inputs input) k (netAt hr _ k)).2.1 i u hu),
            engOut_congr S m.sampleRate u.eng k (fun j hj => hk j (by omega))]
      simp only [procNode, List.getElem?_modify, hFi, if_true, Option.map_eq_map, Option.map_some]
      cases hsv : v.srcVertex with
      | some q =>
        obtain ⟨sn, sp⟩ := q
        refine ⟨_, rfl, fin (fun c k => ((F[sn]?).map (fun w => w.buf (sp + c) k)).getD S.zero) _ ?_ rfl rfl rfl rfl rfl hsv.symm rfl⟩
        intro c e k he hk
        have hu' : u.updateSourceVertex.srcVertex = some (sn, sp) := by rw [← hr.src i u hu, ← hrel.src, hsv]
        rw [srcVertex_loc hlen hu' c e he]; rfl
      | none =>
        refine ⟨_, rfl, fin (gather S F input size v) _ ?_ rfl rfl rfl rfl rfl hsv.symm rfl⟩
        intro c e k he hk
        have hc : c < v.ins := by
          rw [hrel.ins, ← hlen]; exact (List.getElem?_eq_some_iff.1 he).1
        simp only [gather, hrel.source, he]
        rw [if_pos ⟨hc, lt_simd hk⟩]
    · have hstep : (procNode S P m.sampleRate input size tmp F n)[i]? = F[i]? := by
        simp only [procNode, List.getElem?_modify]
        have hni : ¬ n = i := fun h => hin h.symm
        simp [hni]
      rw [hstep]
      have := IH i v u hv hu
      refine ⟨fun h => this.1 (by simpa [hin] using h), fun h => this.2 (fun hh => h (by simp [hh]))⟩

/-- One block of a net is `size` ticks: same output samples, same state of every node up to `R`. -/
theorem processOrdered_spec {S : Units U α} {P : Proc U α} {R : U → U → Prop} {Good : Eng U α → Prop} {m p : Net U α} {o : List Nat}
    (B : EngBlock S P R m.sampleRate Good) (hr : Runs S m o) (hp : NetRel R p m)
    (hg : ∀ (i : Nat) (u : Vertex U α), m.vertex[i]? = some u → Good u.eng)
    (size : Nat) (hsize : size ≤ 64) (input old : CBuf α) (tmp : Nat → CBuf α) :
    NetRel R (processOrdered S P p size input old tmp).1 (netSt S m (frames m.inputs input) size) ∧
    ∀ k, k < size → frames m.outputs (processOrdered S P p size input old tmp).2 k =
      (tickOrdered S (netSt S m (frames m.inputs input) k) (frames m.inputs input k)).2 := by
  have hpo : p.order.getD [] = o := by rw [hp.order, hr.order]; rfl
  have hpre := process_prefix B hr hp hg size hsize input tmp [] o (by simp)
  have hlen := procNode_length S P m.sampleRate input size tmp o p.vertex
  have hN := netAt hr (frames m.inputs input) size
  have hdone : ∀ (i : Nat) (u : Vertex U α), m.vertex[i]? = some u →
      ∃ v', (o.foldl (procNode S P m.sampleRate input size tmp) p.vertex)[i]? = some v' ∧ Done S R m (frames m.inputs input) size i u v' := by
    intro i u hu
    have hi := (List.getElem?_eq_some_iff.1 hu).1
    have hil : i < p.vertex.length := by rw [hp.len]; exact hi
    exact (hpre i _ u (List.getElem?_eq_getElem hil) hu).1 (hr.eval.perm.mem_iff.2 (List.mem_range.2 hi))
  simp only [processOrdered, hpo, hp.sr]
  generalize o.foldl (procNode S P m.sampleRate input size tmp) p.vertex = F at hlen hdone
  refine ⟨⟨?_, ?_, ?_, ?_, ?_, ?_, ?_, ?_⟩, ?_⟩
  · rw [hN.shell]; exact hp.inputs
  · rw [hN.shell]; exact hp.outputs
  · rw [hN.shell]; exact hp.oe
  · rw [hN.shell]; exact hp.order
  · rw [hN.shell]
  · rw [hN.shell]; exact hp.index
  · rw [hN.len]; exact hlen.trans hp.len
  · intro i v u hv hu
    obtain ⟨u0, hu0⟩ := hN.sameWiring.find hu
    obtain ⟨t, ht⟩ := hN.get i u0 hu0
    rw [ht] at hu; cases hu
    obtain ⟨v', hv', hd⟩ := hdone i u0 hu0
    have hv2 : F[i]? = some v := hv
    rw [hv'] at hv2; cases hv2
    exact ⟨hd.rel.eng, hd.rel.source, hd.rel.ins, hd.rel.outs, hd.rel.src, hd.rel.id⟩
  · intro k hk
    rw [(netAt_step hr (frames m.inputs input) k (netAt hr _ k)).2.2]
    simp only [frames, hp.oe, hp.outputs]
    apply List.ext_getElem?
    intro c
    by_cases hc : c < m.outputs
    · have he := List.getElem?_eq_getElem (show c < m.outputEdge.length by rw [hr.valid.oeLen]; exact hc)
      rw [List.getElem?_map, List.getElem?_map, List.getElem?_range hc, List.getElem?_take, if_pos hc, he]
      simp only [Option.map_some, he]
      rw [if_pos ⟨hc, lt_simd hk⟩]
      congr 1
      have hok := (hr.valid.oe c _ he).2
      generalize (m.outputEdge[c]'_).source = s at hok
      cases s with
      | zero => rfl
      | glob g =>
        simp only [readBuf, portVal]
        rw [List.getD_eq_getElem?_getD, List.getElem?_map, List.getElem?_range hok]; rfl
      | loc j q =>
        obtain ⟨uj, huj, hq⟩ := hok
        obtain ⟨v', hv', hd⟩ := hdone j uj huj
        simp only [readBuf, portVal, hv', Option.map_some, Option.getD_some]
        exact hd.buf q k hq hk
    · rw [List.getElem?_eq_none (by simpa using hc), List.getElem?_eq_none (by simp; omega)]

end Fundsp.Net
