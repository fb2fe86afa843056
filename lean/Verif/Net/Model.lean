/-!
# `Net`: dynamic graphs of audio units

Model of `/repo/src/net.rs`, `/repo/src/vertex.rs`. A panic (failed `assert!`, out of bounds index, missing map key)
is modelled by `none`. Samples, fade phases, fade times and the sample rate are all `f32` in the code; here they
have an arbitrary type `α` with uninterpreted operations (`Arith`). Units are the elements of an arbitrary type `U`
(`Box<dyn AudioUnit>`) with operations `Units`.

Not modelled: allocation, the vertex fields that only hold scratch data (`tick_input`, `output_tmp`,
`tick_output_tmp`, `unplugged`, `ordered`); these are local variables of the functions that use them.
-/

namespace Fundsp.Net

/-- `Fade`, `/repo/src/sequencer.rs:23-31`. -/
inductive Fade | power | smooth
  deriving DecidableEq, Inhabited

/-- `f32` operations used by `Vertex`, uninterpreted. -/
structure Arith (α : Type) where
  zero : α
  one : α
  add : α → α → α
  sub : α → α → α
  mul : α → α → α
  div : α → α → α
  /-- `a >= b` -/
  ge : α → α → Bool
  /-- `n as f32` -/
  ofNat : Nat → α
  /-- `x as usize` -/
  toNat : α → Nat
  /-- `Fade::at`, `/repo/src/sequencer.rs:51-56` -/
  fadeAt : Fade → α → α

/-- Binary operators of `Net::binary` and `Net::bus`: `FrameAdd`, `FrameSub`, `FrameMul`. -/
inductive Op | add | sub | mul
  deriving DecidableEq

/-- Operations on `Box<dyn AudioUnit>` used by `Net`. -/
structure Units (U α : Type) extends Arith α where
  /-- `AudioUnit::inputs` -/
  ins : U → Nat
  /-- `AudioUnit::outputs` -/
  outs : U → Nat
  setSR : α → U → U
  reset : U → U
  /-- `AudioUnit::ping(probe, hash)` -/
  ping : Bool → Nat → U → U × Nat
  /-- `AudioUnit::tick` -/
  utick : U → List α → U × List α
  /-- `An(Binop::new(op, Pass::new(), Pass::new()))` -/
  binop : Op → U
  /-- `An(Constant::new([x].into()))` -/
  const : α → U
  /-- `DummyUnit::new(inputs, outputs)`, `/repo/src/audiounit.rs:668-680` -/
  dummy : Nat → Nat → U

/-- The number of channels of a unit never changes; the built-in units have the stated arities. -/
structure Units.Lawful {U α} (S : Units U α) : Prop where
  ins_setSR : ∀ r u, S.ins (S.setSR r u) = S.ins u
  outs_setSR : ∀ r u, S.outs (S.setSR r u) = S.outs u
  ins_reset : ∀ u, S.ins (S.reset u) = S.ins u
  outs_reset : ∀ u, S.outs (S.reset u) = S.outs u
  ins_ping : ∀ p h u, S.ins (S.ping p h u).1 = S.ins u
  outs_ping : ∀ p h u, S.outs (S.ping p h u).1 = S.outs u
  ins_tick : ∀ u x, S.ins (S.utick u x).1 = S.ins u
  outs_tick : ∀ u x, S.outs (S.utick u x).1 = S.outs u
  tick_length : ∀ u x, (S.utick u x).2.length = S.outs u
  ins_binop : ∀ o, S.ins (S.binop o) = 2
  outs_binop : ∀ o, S.outs (S.binop o) = 1
  ins_const : ∀ x, S.ins (S.const x) = 0
  outs_const : ∀ x, S.outs (S.const x) = 1
  ins_dummy : ∀ i o, S.ins (S.dummy i o) = i
  outs_dummy : ∀ i o, S.outs (S.dummy i o) = o

/-- `NodeId` as its raw value, `net.rs:44-45`. -/
scoped notation "NodeId" => Nat

/-- `NodeEdit`, `net.rs:64-72`. -/
structure NodeEdit (U α : Type) where
  unit : Option U
  id : NodeId
  index : Nat
  fade : Fade
  time : α

/-- `NodeEdit::default()`; `Fade` defaults to `Smooth` (`sequencer.rs:23-31`). -/
def NodeEdit.empty {U α} (S : Units U α) : NodeEdit U α := ⟨none, 0, 0, .smooth, S.zero⟩

/-- `Port`, `net.rs:79-87`. -/
inductive Port
  | loc (node port : Nat)
  | glob (port : Nat)
  | zero
  deriving DecidableEq, Inhabited

/-- `Source`, `net.rs:95-103`. -/
inductive Source
  | loc (id : NodeId) (port : Nat)
  | glob (port : Nat)
  | zero
  deriving DecidableEq

/-- `Edge`, `net.rs:106-109`. -/
structure Edge where
  source : Port
  target : Port
  deriving DecidableEq

/-- The running part of a vertex: the unit and the units being faded in (`vertex.rs:19,36-41`). -/
structure Eng (U α : Type) where
  unit : U
  phase : α
  next : NodeEdit U α
  latest : NodeEdit U α

/-- `Vertex`, `vertex.rs:17-51`. `ins`/`outs` are `tick_input.len()`/`tick_output.len()` (`vertex.rs:83-91`). -/
structure Vertex (U α : Type) where
  eng : Eng U α
  source : List Edge
  ins : Nat
  outs : Nat
  /-- `tick_output` -/
  tickOut : List α
  /-- `output`, channel by channel, sample by sample -/
  buf : Nat → Nat → α
  /-- `input` -/
  inBuf : Nat → Nat → α
  id : NodeId
  srcVertex : Option (Nat × Nat)
  changed : Nat

/-- `HashMap<NodeId, NodeIndex>` as an association list without duplicate keys. -/
abbrev IdMap := List (NodeId × Nat)
/-- `HashMap::get`. -/
def IdMap.get (m : IdMap) (k : NodeId) : Option Nat := m.lookup k
/-- `HashMap::remove`. -/
def IdMap.erase (m : IdMap) (k : NodeId) : IdMap := m.filter (fun e => e.1 != k)
/-- `HashMap::insert`. -/
def IdMap.insert (m : IdMap) (k : NodeId) (v : Nat) : IdMap := (k, v) :: IdMap.erase m k

/-- `Net`, `net.rs:120-148`. -/
structure Net (U α : Type) where
  /-- `input.channels()` -/
  inputs : Nat
  /-- `output.channels()` -/
  outputs : Nat
  outputEdge : List Edge
  vertex : List (Vertex U α)
  order : Option (List Nat)
  nodeIndex : IdMap
  sampleRate : α
  /-- `front.is_some()` -/
  hasBackend : Bool
  backendInputs : Nat
  backendOutputs : Nat
  editQueue : List (NodeEdit U α)
  revision : Nat
  /-- `error.is_some()` -/
  cycleError : Bool

variable {U α : Type}

/-- `Vertex::new`, `vertex.rs:54-79`. -/
def Vertex.new (S : Units U α) (id : NodeId) (index : Nat) (unit : U) : Vertex U α where
  eng := { unit := unit, phase := S.zero, next := NodeEdit.empty S, latest := NodeEdit.empty S }
  source := (List.range (S.ins unit)).map (fun i => ⟨.zero, .loc index i⟩)
  ins := S.ins unit
  outs := S.outs unit
  tickOut := List.replicate (S.outs unit) S.zero
  buf := fun _ _ => S.zero
  inBuf := fun _ _ => S.zero
  id := id
  srcVertex := none
  changed := 0

/-- `Net::new`, `net.rs:184-205`. -/
def new (defaultSr : α) (inputs outputs : Nat) : Net U α where
  inputs := inputs
  outputs := outputs
  outputEdge := (List.range outputs).map (fun c => ⟨.zero, .glob c⟩)
  vertex := []
  order := none
  nodeIndex := []
  sampleRate := defaultSr
  hasBackend := false
  backendInputs := inputs
  backendOutputs := outputs
  editQueue := []
  revision := 0
  cycleError := false

/-- `Net::push`, `net.rs:231-241`; `id` is the value of `NodeId::new()`. -/
def push (S : Units U α) (net : Net U α) (id : NodeId) (unit : U) : Net U α :=
  let unit := S.setSR net.sampleRate unit
  let index := net.vertex.length
  { net with
    vertex := net.vertex ++ [Vertex.new S id index unit]
    nodeIndex := net.nodeIndex.insert id index
    order := none }

/-- Replaces the source of an edge, keeping its target. -/
def Edge.setSource (e : Edge) (p : Port) : Edge := { e with source := p }

/-- `self.vertex[index].source[channel].source = p` (indices in range). -/
def setVertexSource (net : Net U α) (index channel : Nat) (p : Port) : Net U α :=
  { net with
    vertex := net.vertex.modify index (fun v => { v with source := v.source.modify channel (·.setSource p) })
    order := none }

/-- `self.vertex[index].source[channel] = e` (indices in range). -/
def setVertexEdge (net : Net U α) (index channel : Nat) (e : Edge) : Net U α :=
  { net with
    vertex := net.vertex.modify index (fun v => { v with source := v.source.set channel e })
    order := none }

/-- `self.output_edge[channel] = e` (index in range). -/
def setOutputEdge (net : Net U α) (channel : Nat) (e : Edge) : Net U α :=
  { net with outputEdge := net.outputEdge.set channel e, order := none }

/-- Port of a `Source`, checking bounds; used by `set_source` and `set_output_source`
(`net.rs:277-288`, `net.rs:310-320`). -/
def resolveSource (net : Net U α) : Source → Option Port
  | .glob i => if i < net.inputs then some (.glob i) else none
  | .loc id j => do
    let i ← net.nodeIndex.get id
    let v ← net.vertex[i]?
    if j < v.outs then some (.loc i j) else none
  | .zero => some .zero

/-- The `Source` reported for a port (`net.rs:263-267`, `net.rs:298-302`). -/
def reportSource (net : Net U α) : Port → Option Source
  | .glob i => some (.glob i)
  | .loc i j => (net.vertex[i]?).map (fun v => .loc v.id j)
  | .zero => some .zero

/-- `Net::source`, `net.rs:260-268`. -/
def source (net : Net U α) (node : NodeId) (channel : Nat) : Option Source := do
  let index ← net.nodeIndex.get node
  let v ← net.vertex[index]?
  if channel < v.ins then
    let e ← v.source[channel]?
    reportSource net e.source
  else none

/-- `Net::set_source`, `net.rs:274-291`. -/
def setSource (net : Net U α) (node : NodeId) (channel : Nat) (src : Source) : Option (Net U α) := do
  let index ← net.nodeIndex.get node
  let v ← net.vertex[index]?
  if channel < v.ins then
    if (match src with | .loc id _ => id != node | _ => true) then
      let p ← resolveSource net src
      if channel < v.source.length then some (setVertexSource net index channel p) else none
    else none
  else none

/-- `Net::output_source`, `net.rs:296-303`. -/
def outputSource (net : Net U α) (channel : Nat) : Option Source := do
  if channel < net.outputs then
    let e ← net.outputEdge[channel]?
    reportSource net e.source
  else none

/-- `Net::set_output_source`, `net.rs:308-322`. -/
def setOutputSource (net : Net U α) (channel : Nat) (src : Source) : Option (Net U α) := do
  if channel < net.outputs then
    let p ← resolveSource net src
    let e ← net.outputEdge[channel]?
    some (setOutputEdge net channel (e.setSource p))
  else none

/-- First half of `remove_2` (`net.rs:386-410`): a port that reads the removed node now reads zero, or, with
`link`, what the node itself reads. `src` is the removed node's list of edges. The code reads
`vertex[node_index].source` during the loop; the value only changes if the node is connected to itself. -/
def unplugPort (link : Bool) (src : List Edge) (nodeIndex : Nat) (p : Port) : Port :=
  match p with
  | .loc index port =>
    if index = nodeIndex then
      (if link then ((src[port]?).map (·.source)).getD .zero else .zero)
    else p
  | p => p

/-- Second half of `remove_2` (`net.rs:418-432`): uses of `last` become uses of `nodeIndex`. -/
def movePort (last nodeIndex : Nat) (p : Port) : Port :=
  match p with
  | .loc index port => if index = last then .loc nodeIndex port else p
  | p => p

/-- Applies `f` to the sources of all edges of a vertex. -/
def Vertex.mapSource (f : Port → Port) (v : Vertex U α) : Vertex U α :=
  { v with source := v.source.map (fun e => e.setSource (f e.source)) }

/-- `for channel in 0..inputs { source[channel].target = Port::Local(index, channel) }` (`net.rs:433-435`). -/
def Vertex.retarget (index : Nat) (v : Vertex U α) : Vertex U α :=
  { v with source := v.source.mapIdx (fun channel e => { e with target := .loc index channel }) }

/-- `Net::remove_2`, `net.rs:382-442`. Returns the removed unit too. -/
def remove2 (net : Net U α) (node : NodeId) (link : Bool) : Option (Net U α × U) := do
  let ni ← net.nodeIndex.get node
  let v ← net.vertex[ni]?
  if !link || v.ins == v.outs then
    let f := unplugPort link v.source ni
    let oe := net.outputEdge.map (fun e => e.setSource (f e.source))
    let vs := net.vertex.map (·.mapSource f)
    let map := net.nodeIndex.erase v.id
    let last := net.vertex.length - 1
    if last = ni then
      some ({ net with outputEdge := oe, vertex := vs.take last, nodeIndex := map, order := none }, v.eng.unit)
    else do
      let lv ← vs[last]?
      let g := movePort last ni
      let vs := (((vs.set ni lv).take last).map (·.mapSource g)).modify ni (·.retarget ni)
      let oe := oe.map (fun e => e.setSource (g e.source))
      some ({ net with outputEdge := oe, vertex := vs, nodeIndex := map.insert lv.id ni, order := none }, v.eng.unit)
  else none

/-- `Net::replace`, `net.rs:462-470`. -/
def replace (S : Units U α) (net : Net U α) (node : NodeId) (unit : U) : Option (Net U α × U) := do
  let ni ← net.nodeIndex.get node
  let v ← net.vertex[ni]?
  if S.ins unit = v.ins ∧ S.outs unit = v.outs then
    let unit := S.setSR net.sampleRate unit
    let v' := { v with eng := { v.eng with unit := unit }, changed := net.revision }
    some ({ net with vertex := net.vertex.set ni v' }, v.eng.unit)
  else none

/-- `Vertex::enqueue`, `vertex.rs:233-247`: `(vertex.next, vertex.latest)` after queueing an edit. -/
def Eng.enqueue (S : Units U α) (e : Eng U α) (edit : NodeEdit U α) : Eng U α :=
  if e.next.unit.isSome then { e with latest := edit } else { e with next := edit, phase := S.zero }

/-- `Net::crossfade`, `net.rs:487-513`. -/
def crossfade (S : Units U α) (net : Net U α) (node : NodeId) (fade : Fade) (time : α) (unit : U) :
    Option (Net U α) := do
  let ni ← net.nodeIndex.get node
  let v ← net.vertex[ni]?
  if S.ins unit = v.ins ∧ S.outs unit = v.outs then
    let edit : NodeEdit U α := ⟨some (S.setSR net.sampleRate unit), node, ni, fade, time⟩
    if net.hasBackend then some { net with editQueue := net.editQueue ++ [edit] }
    else
      let v' := { v with eng := v.eng.enqueue S edit }
      some { net with vertex := net.vertex.set ni v' }
  else none

/-- `Net::fade_in`, `net.rs:245-250`. -/
def fadeIn (S : Units U α) (net : Net U α) (id : NodeId) (fade : Fade) (time : α) (unit : U) : Option (Net U α) :=
  crossfade S (push S net id (S.dummy (S.ins unit) (S.outs unit))) id fade time unit

/-- `Net::connect`, `net.rs:528-539` with `connect_index`, `net.rs:561-573`.
The source port is not checked against the number of outputs. -/
def connect (net : Net U α) (source : NodeId) (sourcePort : Nat) (target : NodeId) (targetPort : Nat) :
    Option (Net U α) := do
  if source = target then none
  else do
    let si ← net.nodeIndex.get source
    let ti ← net.nodeIndex.get target
    let v ← net.vertex[ti]?
    if targetPort < v.source.length then
      some (setVertexEdge net ti targetPort ⟨.loc si sourcePort, .loc ti targetPort⟩)
    else none

/-- `Net::disconnect`, `net.rs:553-557`. -/
def disconnect (net : Net U α) (node : NodeId) (port : Nat) : Option (Net U α) := do
  let ni ← net.nodeIndex.get node
  let v ← net.vertex[ni]?
  if port < v.source.length then some (setVertexSource net ni port .zero) else none

/-- `Net::connect_input`, `net.rs:587-608`. The global input index is not checked. -/
def connectInput (net : Net U α) (globalInput : Nat) (target : NodeId) (targetPort : Nat) : Option (Net U α) := do
  let ti ← net.nodeIndex.get target
  let v ← net.vertex[ti]?
  if targetPort < v.source.length then
    some (setVertexEdge net ti targetPort ⟨.glob globalInput, .loc ti targetPort⟩)
  else none

/-- Rewires all inputs of vertex `ti`: channel `c` gets source `f c` (loops in `net.rs:627-638,746-757`). -/
def wireAll (net : Net U α) (ti : Nat) (f : Nat → Port) : Net U α :=
  { net with
    vertex := net.vertex.modify ti (fun v =>
      { v with source := v.source.mapIdx (fun c e => if c < v.ins then ⟨f c, .loc ti c⟩ else e) })
    order := none }

/-- `Net::pipe_input`, `net.rs:624-640`. -/
def pipeInput (net : Net U α) (target : NodeId) : Option (Net U α) := do
  let ti ← net.nodeIndex.get target
  let _ ← net.vertex[ti]?
  some (wireAll net ti (fun c => if net.inputs > 0 then .glob (c % net.inputs) else .zero))

/-- `Net::connect_output`, `net.rs:643-651` with `connect_output_index`. The source port is not checked. -/
def connectOutput (net : Net U α) (source : NodeId) (sourcePort globalOutput : Nat) : Option (Net U α) := do
  let si ← net.nodeIndex.get source
  if globalOutput < net.outputEdge.length then
    some (setOutputEdge net globalOutput ⟨.loc si sourcePort, .glob globalOutput⟩)
  else none

/-- `Net::disconnect_output`, `net.rs:654-657`. -/
def disconnectOutput (net : Net U α) (output : Nat) : Option (Net U α) :=
  if output < net.outputEdge.length then some (setOutputEdge net output ⟨.zero, .glob output⟩) else none

/-- `Net::pipe_output`, `net.rs:688-702`. -/
def pipeOutput (net : Net U α) (source : NodeId) : Option (Net U α) := do
  let si ← net.nodeIndex.get source
  let v ← net.vertex[si]?
  some { net with
    outputEdge := net.outputEdge.mapIdx (fun c e =>
      if c < net.outputs then
        ⟨if v.outs > 0 then .loc si (c % v.outs) else .zero, .glob c⟩
      else e)
    order := none }

/-- `Net::pass_through`, `net.rs:714-717`. The input index is not checked. -/
def passThrough (net : Net U α) (input output : Nat) : Option (Net U α) :=
  if output < net.outputEdge.length then some (setOutputEdge net output ⟨.glob input, .glob output⟩) else none

/-- `Net::pipe_all`, `net.rs:736-760`. -/
def pipeAll (net : Net U α) (source target : NodeId) : Option (Net U α) := do
  if source = target then some net
  else do
    let si ← net.nodeIndex.get source
    let ti ← net.nodeIndex.get target
    let sv ← net.vertex[si]?
    let _ ← net.vertex[ti]?
    some (wireAll net ti (fun c => if sv.outs > 0 then .loc si (c % sv.outs) else .zero))

/-- `Net::chain`, `net.rs:780-804`. -/
def chain (S : Units U α) (net : Net U α) (id : NodeId) (unit : U) : Option (Net U α) := do
  let net1 := push S net id unit
  let index ← net1.nodeIndex.get id
  let net2 ←
    if net1.vertex.length = 1 then
      (if net1.inputs > 0 then pipeInput net1 id else some net1)
    else
      some { net1 with vertex := net1.vertex.modify index (fun v =>
        { v with source := v.source.mapIdx (fun i e =>
            if i < S.ins unit then
              e.setSource (if net1.outputs > 0 then
                ((net1.outputEdge[i % net1.outputs]?).map (·.source)).getD .zero else .zero)
            else e) }) }
  pipeOutput net2 id

/-! ## Consistency check -/

/-- Source clause of `check` (`net.rs:981-990,1016-1026`). -/
def portOk (net : Net U α) : Port → Bool
  | .loc node port => match net.vertex[node]? with
    | some v => decide (port < v.outs)
    | none => false
  | .glob port => decide (port < net.inputs)
  | .zero => true

/-- Per-vertex clause of `check`, `net.rs:992-1034`. -/
def checkVertex (net : Net U α) (index : Nat) (v : Vertex U α) : Bool :=
  net.nodeIndex.get v.id == some index && v.source.length == v.ins &&
  (List.range v.ins).all (fun c => match v.source[c]? with
    | some e => e.target == .loc index c && portOk net e.source &&
        (match e.source with | .loc node _ => node != index | _ => true)
    | none => false) &&
  (match v.srcVertex with
    | some (sn, sp) => sn != index && (match net.vertex[sn]? with
        | some sv => decide (sp + v.ins ≤ sv.outs)
        | none => false)
    | none => true)

/-- `Net::check`, `net.rs:973-1036`: `true` if no assertion fails. The assertions on buffer sizes compare values
that are equal by construction in the model (`ins`/`outs` are the lengths of the buffers). -/
def check (net : Net U α) : Bool :=
  net.outputEdge.length == net.outputs && net.nodeIndex.length == net.vertex.length &&
  (List.range net.outputs).all (fun c => match net.outputEdge[c]? with
    | some e => e.target == .glob c && portOk net e.source
    | none => false) &&
  (List.range net.vertex.length).all (fun i => match net.vertex[i]? with
    | some v => checkVertex net i v
    | none => false)

/-! ## Evaluation order -/

/-- `Vertex::update_source_vertex`, `vertex.rs:99-123`. -/
def Vertex.updateSourceVertex (v : Vertex U α) : Vertex U α :=
  { v with srcVertex :=
      match v.source.take v.ins with
      | [] => none
      | e :: es => match e.source with
        | .loc node port =>
          if (e :: es).mapIdx (fun i e => e.source == .loc node (port + i)) |>.all (· == true) then some (node, port) else none
        | _ => none }

/-- `Net::ping`, `net.rs:1371-1377`: threads the hash through all units. `hash0` is `hash.hash(ID)`. -/
def pingAll (S : Units U α) (probe : Bool) : Nat → List (Vertex U α) → List (Vertex U α) × Nat
  | h, [] => ([], h)
  | h, v :: vs =>
    let r := S.ping probe h v.eng.unit
    let q := pingAll S probe r.2 vs
    ({ v with eng := { v.eng with unit := r.1 } } :: q.1, q.2)

/-- Sources of a vertex that are nodes, in channel order (the `if let Port::Local(j, _)` loops, `net.rs:872-889`). -/
def Vertex.feeds (v : Vertex U α) : List Nat :=
  (v.source.take v.ins).filterMap (fun e => match e.source with | .loc j _ => some j | _ => none)

/-- State of the ordering algorithm: `unplugged` counters, `ordered` flags, `order` (in push order). -/
structure OrdSt where
  unplugged : Nat → Nat
  ordered : Nat → Bool
  order : List Nat

/-- `propagate`, `net.rs:879-890`, with the recursion turned into a list of edges still to be visited: visiting
`j` for the last time puts the edges of `j` in front of the remaining edges (depth first). Every step visits one
edge; `fuel` bounds the number of steps and is chosen as the total number of edges (see `orderLoop_done`). -/
def propagate (feeds : Nat → List Nat) : Nat → List Nat → OrdSt → OrdSt
  | 0, _, st => st
  | _, [], st => st
  | fuel + 1, j :: rest, st =>
    let un := fun k => if k = j then st.unplugged j - 1 else st.unplugged k
    if un j = 0 then
      propagate feeds fuel (feeds j ++ rest)
        { unplugged := un, ordered := fun k => k == j || st.ordered k, order := st.order ++ [j] }
    else propagate feeds fuel rest { st with unplugged := un }

/-- Main loop of `determine_order_in`, `net.rs:892-901`. -/
def orderLoop (feeds : Nat → List Nat) (fuel : Nat) : List Nat → OrdSt → OrdSt
  | [], st => st
  | i :: is, st =>
    if st.ordered i then orderLoop feeds fuel is st
    else if st.unplugged i = 0 then
      orderLoop feeds fuel is (propagate feeds fuel (feeds i)
        { st with ordered := fun k => k == i || st.ordered k, order := st.order ++ [i] })
    else orderLoop feeds fuel is st

/-- `determine_order_in`, `net.rs:857-917`, on `n` vertices where vertex `i` reads from `feeds i`: the order and
whether it is free of cycles. -/
def determineOrderIn (n : Nat) (feeds : Nat → List Nat) : List Nat × Bool :=
  let edges := (List.range n).flatMap feeds
  let st := orderLoop feeds edges.length (List.range n)
    { unplugged := fun j => edges.count j, ordered := fun _ => false, order := [] }
  if st.order.length < n then
    ((st.order ++ (List.range n).filter (fun i => !st.ordered i)).reverse, false)
  else (st.order.reverse, true)

/-- Edges of a net as a function. -/
def feedsOf (vs : List (Vertex U α)) (i : Nat) : List Nat := ((vs[i]?).map Vertex.feeds).getD []

/-- `Net::determine_order`, `net.rs:836-853`. `hash0` is `AttoHash::new(ID)`, already hashed with `ID` on entry of
`ping` by `seed`. -/
def determineOrder (S : Units U α) (seed : Nat → Nat) (hash0 : Nat) (net : Net U α) : Net U α :=
  let vs := net.vertex.map Vertex.updateSourceVertex
  let p1 := pingAll S true (seed hash0) vs
  let p2 := pingAll S false (seed p1.2) p1.1
  let r := determineOrderIn p2.1.length (feedsOf p2.1)
  { net with vertex := p2.1, order := some r.1, cycleError := !r.2 }

/-! ## Graph operators -/

/-- `Net::disambiguate_ids`, `net.rs:1040-1050`: nodes `i..` of `net`; fresh ids are `next, next+1, ...`. -/
def disambiguateFrom (other : IdMap) : Nat → List (Vertex U α) → IdMap → NodeId → List (Vertex U α) × IdMap × NodeId
  | _, [], m, next => ([], m, next)
  | i, v :: vs, m, next =>
    if (other.get v.id).isSome then
      let r := disambiguateFrom other (i + 1) vs ((m.erase v.id).insert next i) (next + 1)
      ({ v with id := next } :: r.1, r.2)
    else
      let r := disambiguateFrom other (i + 1) vs m next
      (v :: r.1, r.2)

/-- `Net::disambiguate_ids`, `net.rs:1040-1050`: all nodes. -/
def disambiguate (net other : Net U α) (next : NodeId) : Net U α × NodeId :=
  let r := disambiguateFrom other.nodeIndex 0 net.vertex net.nodeIndex next
  ({ net with vertex := r.1, nodeIndex := r.2.1 }, r.2.2)

/-- `Net::resolve_frontend`, `net.rs:1168-1179`. -/
def resolveFrontend (net other : Net U α) : Option (Net U α) :=
  if net.hasBackend && other.hasBackend then none
  else if other.hasBackend then
    some { net with hasBackend := true, editQueue := other.editQueue, backendInputs := other.backendInputs,
                    backendOutputs := other.backendOutputs, revision := other.revision }
  else some net

/-- Renumbers the ports of the second operand of a graph operator: nodes are shifted by `offset`, global inputs
are replaced according to `g` (`net.rs:1473-1510,1531-1572,1598-1620,1704-1725,1778-1800`). -/
def shiftPort (offset : Nat) (g : Nat → Port) : Port → Port
  | .loc node port => .loc (node + offset) port
  | .glob port => g port
  | .zero => .zero

/-- Moves vertex into position `node` (`net1.vertex[node].source[port] = edge(.., Port::Local(node, port))`). -/
def Vertex.shift (offset : Nat) (g : Nat → Port) (node : Nat) (v : Vertex U α) : Vertex U α :=
  { v with source := v.source.mapIdx (fun c e =>
      if c < v.ins then ⟨shiftPort offset g e.source, .loc node c⟩ else e) }

/-- `for node in offset.. { net1.node_index.insert(net1.vertex[node].id, node); .. }` -/
def insertIds : IdMap → Nat → List (Vertex U α) → IdMap
  | m, _, [] => m
  | m, i, v :: vs => insertIds (m.insert v.id i) (i + 1) vs

/-- Common part of the operators: appends the vertices of `net2`, renumbered, to `net1`. -/
def appendVertices (net1 net2 : Net U α) (g : Nat → Port) : Net U α :=
  let offset := net1.vertex.length
  { net1 with
    vertex := net1.vertex ++ net2.vertex.mapIdx (fun k v => v.shift offset g (offset + k))
    nodeIndex := insertIds net1.nodeIndex offset net2.vertex
    order := none }

/-- `Net::thru`, `net.rs:1435-1445`. The code fills channels from the old `outputs()`, which is the old length of
`output_edge`. -/
def thru (net : Net U α) : Net U α :=
  { net with
    outputs := net.inputs
    outputEdge := net.outputEdge.take net.inputs ++
      (List.range (net.inputs - net.outputEdge.length)).map
        (fun k => ⟨.glob (net.outputEdge.length + k), .glob (net.outputEdge.length + k)⟩)
    order := none }

/-- `Net::branch`, `net.rs:1453-1511`. -/
def branch (net1 net2 : Net U α) (next : NodeId) : Option (Net U α × NodeId) := do
  if net1.inputs ≠ net2.inputs then none
  else do
    let d := disambiguate net2 net1 next
    let net := appendVertices net1 d.1 .glob
    let net := { net with
      outputs := net1.outputs + d.1.outputs
      outputEdge := net1.outputEdge ++ d.1.outputEdge.mapIdx (fun i e =>
        ⟨shiftPort net1.vertex.length .glob e.source, .glob (net1.outputs + i)⟩) }
    (resolveFrontend net d.1).map (fun n => (n, d.2))

/-- `Net::stack`, `net.rs:1516-1569`. -/
def stack (net1 net2 : Net U α) (next : NodeId) : Option (Net U α × NodeId) := do
  let d := disambiguate net2 net1 next
  let g := fun p => Port.glob (p + net1.inputs)
  let net := appendVertices net1 d.1 g
  let net := { net with
    inputs := net1.inputs + d.1.inputs
    outputs := net1.outputs + d.1.outputs
    outputEdge := net1.outputEdge ++ d.1.outputEdge.mapIdx (fun i e =>
      ⟨shiftPort net1.vertex.length g e.source, .glob (net1.outputs + i)⟩) }
  (resolveFrontend net d.1).map (fun n => (n, d.2))

/-- The operator nodes of `binary` and `bus` (`net.rs:1621-1629,1728-1735`): pushes one binary operator per output
and connects it to the output. -/
def pushOps (S : Units U α) (op : Op) (addOffset : Nat) : Nat → Nat → Net U α → NodeId → Net U α × NodeId
  | _, 0, net, next => (net, next)
  | i, k + 1, net, next =>
    let net := push S net next (S.binop op)
    let net := setOutputEdge net i ⟨.loc (addOffset + i) 0, .glob i⟩
    pushOps S op addOffset (i + 1) k net (next + 1)

/-- The connection loops `net.rs:1630-1651,1737-1758`: operator node `addOffset + i` input `port` gets the source
of output `i` of an operand (already renumbered by `f`); zeros are left alone. -/
def connectOps (addOffset port : Nat) (f : Port → Port) : Nat → List Edge → Net U α → Net U α
  | _, [], net => net
  | i, e :: es, net =>
    let net := match e.source with
      | .zero => net
      | p => setVertexEdge net (addOffset + i) port ⟨f p, .loc (addOffset + i) port⟩
    connectOps addOffset port f (i + 1) es net

/-- `Net::binary`, `net.rs:1577-1655`. -/
def binary (S : Units U α) (op : Op) (net1 net2 : Net U α) (next : NodeId) : Option (Net U α × NodeId) := do
  if net1.outputs ≠ net2.outputs then none
  else do
    let d := disambiguate net2 net1 next
    let offset := net1.vertex.length
    let g := fun p => Port.glob (p + net1.inputs)
    let net := appendVertices net1 d.1 g
    let net := { net with inputs := net1.inputs + d.1.inputs }
    let addOffset := net.vertex.length
    let p := pushOps S op addOffset 0 net1.outputs net d.2
    let net := connectOps addOffset 0 id 0 net1.outputEdge p.1
    let net := connectOps addOffset 1 (shiftPort offset g) 0 d.1.outputEdge net
    (resolveFrontend net d.1).map (fun n => (n, p.2))

/-- `Net::bus`, `net.rs:1681-1755`. -/
def bus (S : Units U α) (net1 net2 : Net U α) (next : NodeId) : Option (Net U α × NodeId) := do
  if net1.inputs ≠ net2.inputs then none
  else if net1.outputs ≠ net2.outputs then none
  else do
    let d := disambiguate net2 net1 next
    let offset := net1.vertex.length
    let net := appendVertices net1 d.1 .glob
    let addOffset := net.vertex.length
    let p := pushOps S .add addOffset 0 net1.outputs net d.2
    let net := connectOps addOffset 0 id 0 net1.outputEdge p.1
    let net := connectOps addOffset 1 (shiftPort offset .glob) 0 d.1.outputEdge net
    (resolveFrontend net d.1).map (fun n => (n, p.2))

/-- `Net::pipe`, `net.rs:1770-1819`. -/
def pipe (net1 net2 : Net U α) (next : NodeId) : Option (Net U α × NodeId) := do
  if net1.outputs ≠ net2.inputs then none
  else do
    let d := disambiguate net2 net1 next
    let offset := net1.vertex.length
    let g := fun p => ((net1.outputEdge[p]?).map (·.source)).getD .zero
    let net := appendVertices net1 d.1 g
    let net := { net with
      outputs := d.1.outputs
      outputEdge := d.1.outputEdge.mapIdx (fun i e =>
        match e.source with
        | .zero => e
        | p => ⟨shiftPort offset g p, .glob i⟩) }
    (resolveFrontend net d.1).map (fun n => (n, d.2))

/-- `Net::wrap`, `net.rs:930-941`. -/
def wrap (S : Units U α) (sr : α) (id : NodeId) (unit : U) : Option (Net U α) := do
  let net := push S (new sr (S.ins unit) (S.outs unit)) id unit
  let net ← if net.inputs > 0 then pipeInput net id else some net
  if net.outputs > 0 then pipeOutput net id else some net

/-- `Net::scalar`, `net.rs:963-970`. -/
def scalar (S : Units U α) (sr : α) (id : NodeId) (channels : Nat) (x : α) : Option (Net U α) :=
  (List.range channels).foldlM (fun net i => connectOutput net id 0 i)
    (push S (new sr 0 channels) id (S.const x))

/-- `impl Neg for Net`, `net.rs:1830-1838`: `Net::scalar(n, 0) - self`. -/
def neg (S : Units U α) (sr : α) (net : Net U α) (next : NodeId) : Option (Net U α × NodeId) := do
  let z ← scalar S sr next net.outputs S.zero
  binary S .sub z net (next + 1)

/-! ## Sample processing -/

/-- `Vertex::next_phase`, `vertex.rs:127-137` (the retired unit is sent away). -/
def Eng.nextPhase (S : Units U α) (e : Eng U α) : Eng U α :=
  match e.next.unit with
  | none => e
  | some u =>
    { unit := u, phase := S.zero,
      next := { e.next with unit := e.latest.unit, fade := e.latest.fade, time := e.latest.time },
      latest := { e.latest with unit := none } }

/-- `Vertex::tick`, `vertex.rs:141-159`. -/
def Eng.tick (S : Units U α) (sr : α) (e : Eng U α) (x : List α) : Eng U α × List α :=
  let r := S.utick e.unit x
  match e.next.unit with
  | none => ({ e with unit := r.1 }, r.2)
  | some n =>
    let f1 := S.fadeAt e.next.fade (S.sub S.one e.phase)
    let q := S.utick n x
    let f2 := S.fadeAt e.next.fade e.phase
    let out := List.zipWith (fun a b => S.add (S.mul a f1) (S.mul b f2)) r.2 q.2
    let phase := S.add e.phase (S.div S.one (S.mul e.next.time sr))
    let e' : Eng U α := { e with unit := r.1, next := { e.next with unit := some q.1 }, phase := phase }
    (if S.ge phase S.one then e'.nextPhase S else e', out)

/-- Value on a port while ticking: `net.rs:1196-1205` and `net.rs:1212-1218`. -/
def readPort (S : Units U α) (vs : List (Vertex U α)) (input : List α) : Port → α
  | .zero => S.zero
  | .glob p => input.getD p S.zero
  | .loc i p => ((vs[i]?).map (fun v => v.tickOut.getD p S.zero)).getD S.zero

/-- Loop body of `tick_2`, `net.rs:1195-1208`. -/
def tickNode (S : Units U α) (sr : α) (input : List α) (vs : List (Vertex U α)) (ni : Nat) : List (Vertex U α) :=
  vs.modify ni (fun v =>
    let r := v.eng.tick S sr ((v.source.take v.ins).map (fun e => readPort S vs input e.source))
    { v with eng := r.1, tickOut := r.2 })

/-- `tick_2` on an ordered net, `net.rs:1183-1218`. -/
def tickOrdered (S : Units U α) (net : Net U α) (input : List α) : Net U α × List α :=
  let vs := (net.order.getD []).foldl (tickNode S net.sampleRate input) net.vertex
  ({ net with vertex := vs },
   (net.outputEdge.take net.outputs).map (fun e => readPort S vs input e.source))

/-- `Net::tick`, `net.rs:1349-1351` with `tick_2`. -/
def tick (S : Units U α) (seed : Nat → Nat) (hash0 : Nat) (net : Net U α) (input : List α) : Net U α × List α :=
  tickOrdered S (if net.order.isSome then net else determineOrder S seed hash0 net) input

/-- `Net::reset`, `net.rs:1334-1347`. -/
def reset (S : Units U α) (seed : Nat → Nat) (hash0 : Nat) (net : Net U α) : Net U α :=
  let net := { net with vertex := net.vertex.map (fun v =>
    { v with eng := { v.eng with unit := S.reset v.eng.unit }, changed := net.revision }) }
  if net.order.isSome then net else determineOrder S seed hash0 net

/-- `Net::set_sample_rate`, `net.rs:1315-1332`. -/
def setSampleRate [DecidableEq α] (S : Units U α) (seed : Nat → Nat) (hash0 : Nat) (net : Net U α) (sr : α) :
    Net U α :=
  if net.sampleRate = sr then net
  else
    let net := { net with sampleRate := sr, vertex := net.vertex.map (fun v =>
      { v with eng := { v.eng with unit := S.setSR sr v.eng.unit }, changed := net.revision }) }
    if net.order.isSome then net else determineOrder S seed hash0 net

end Fundsp.Net
