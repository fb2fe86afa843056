import Verif.Net.FadeProps

/-!
# Frontend, backend and the channel between them

Model of `Net::clone`, `Net::backend`, `Net::commit`, `Net::migrate`, `Net::apply_edits`, `Net::apply_foreign_edits`
(`/repo/src/net.rs`) and of `NetBackend` (`/repo/src/realnet.rs`). The channel is `thingbuf`'s bounded queue, trusted to be a FIFO; a
list of messages is what `handle_messages` finds in it. Cloning a unit gives an equal unit (`dyn_clone` is trusted), so the exchange of the
vertices between the clone and the frontend (`net.rs:1105,1151`) has no effect here (it is modelled in `Net/Live`); `allocate` changes nothing observable.
Returning nets to the frontend for deallocation (`NetReturn`) is modelled in `Mail/Net`.
-/
namespace Fundsp.Net
variable {U α : Type}

/-- `impl Clone for Net`, `net.rs:150-171`. -/
def clone (net : Net U α) : Net U α := { net with hasBackend := false, editQueue := [] }

/-- `Net::backend`, `net.rs:1094-1111`: frontend and net of the backend; panics if there is a backend already. -/
def backend (E : Env U α) (net : Net U α) : Option (Net U α × Net U α) :=
  if net.hasBackend then none
  else
    let net := { net with hasBackend := true, backendInputs := net.inputs, backendOutputs := net.outputs }
    let net := ready E.S E.seed E.hash0 net
    some ({ net with revision := net.revision + 1 }, clone net)

/-- `Net::commit`, `net.rs:1121-1164`: frontend and message; panics without backend or if the arity has changed. Edits of nodes that are gone
are dropped, the others get the present index of their node. -/
def commit (E : Env U α) (net : Net U α) : Option (Net U α × Net U α) :=
  if !net.hasBackend then none
  else if net.inputs ≠ net.backendInputs then none
  else if net.outputs ≠ net.backendOutputs then none
  else
    let net := ready E.S E.seed E.hash0 net
    some ({ net with editQueue := [], revision := net.revision + 1 },
      { clone net with editQueue := net.editQueue.filterMap (fun ed => (net.nodeIndex.get ed.id).map (fun i => { ed with index := i })) })

/-- Loop body of `Net::migrate`, `net.rs:1054-1075`, for the id and old index `p`. `vertex[index]` of the old net is read once per id, so
the swaps are written as a copy. -/
def migrateStep (old new : Net U α) (vs : List (Vertex U α)) (p : NodeId × Nat) : List (Vertex U α) :=
  match new.nodeIndex.get p.1, old.vertex[p.2]? with
  | some j, some w => vs.modify j (fun v => if v.changed ≤ old.revision then { v with eng := w.eng } else v)
  | _, _ => vs

/-- `Net::migrate`, `net.rs:1053-1076`: `new` takes over the units of `old`. -/
def migrate (old new : Net U α) : Net U α :=
  { new with vertex := old.nodeIndex.foldl (migrateStep old new) new.vertex }

/-- `self.vertex[index].enqueue(edit)` for a list of pairs of index and edit. -/
def enqueueAt (S : Units U α) (vs : List (Vertex U α)) (p : Nat × NodeEdit U α) : List (Vertex U α) :=
  vs.modify p.1 (fun v => { v with eng := v.eng.enqueue S p.2 })

/-- `Net::apply_edits`, `net.rs:1286-1291`. -/
def applyEdits (S : Units U α) (net : Net U α) : Net U α :=
  { net with vertex := (net.editQueue.map (fun ed => (ed.index, ed))).foldl (enqueueAt S) net.vertex, editQueue := [] }

/-- `Net::apply_foreign_edits`, `net.rs:1294-1304`. -/
def applyForeign (S : Units U α) (net source : Net U α) : Net U α :=
  { net with vertex :=
      (source.editQueue.filterMap (fun ed => (net.nodeIndex.get ed.id).map (fun i => (i, ed)))).foldl (enqueueAt S) net.vertex }

/-- `Net::set` of a net without backend, `net.rs:1361-1365`: the unit of node `id` gets the peeled setting, whose effect on the unit is `f`. -/
def set (net : Net U α) (id : NodeId) (f : U → U) : Net U α :=
  match net.nodeIndex.get id with
  | some i => { net with vertex := net.vertex.modify i (fun v => { v with eng := { v.eng with unit := f v.eng.unit } }) }
  | none => net

/-- `NetMessage`, `realnet.rs:15-20`. -/
inductive Msg (U α : Type)
  | net (n : Net U α)
  | setting (id : NodeId) (f : U → U)

/-- Body of the loop of `handle_messages`, `realnet.rs:67-92`; the state is `(self.net, latest_net)`. -/
def recv (S : Units U α) (st : Net U α × Option (Net U α)) : Msg U α → Net U α × Option (Net U α)
  | .net n => (match st.2 with | some l => applyForeign S st.1 l | none => st.1, some n)
  | .setting id f => (set st.1 id f, st.2)

/-- `NetBackend::handle_messages`, `realnet.rs:63-107`. -/
def handle (S : Units U α) (back : Net U α) (queue : List (Msg U α)) : Net U α :=
  let st := queue.foldl (recv S) (back, none)
  match st.2 with
  | none => st.1
  | some n => applyEdits S (migrate st.1 n)

end Fundsp.Net
