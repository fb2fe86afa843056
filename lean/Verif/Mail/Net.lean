import Verif.Mail.Slot
import Verif.Net.Block
import Verif.Net.Backend

/-!
# C114: units are not freed on the audio thread, in networks

The channel that returns networks and units in `/repo/src/realnet.rs`, `/repo/src/net.rs` and `/repo/src/vertex.rs`. A message on it is recorded as the list
of the units in it. Exchanging values (`core::mem::swap`) is modelled on both sides here, so that no unit can get lost in the model. Networks of the backend
are ordered (`backend` and `commit` order them), so calls do not order them.
-/

namespace Fundsp.Mail
open Fundsp.Net Fundsp.Slot
variable {U α : Type}

/-! ## Model -/

/-- The units of a node: the present one, the one fading in and the one that waits. -/
def engUnits (e : Eng U α) : List U := e.unit :: (e.next.unit.toList ++ e.latest.unit.toList)

/-- The units in an edit. -/
def editUnits (d : NodeEdit U α) : List U := d.unit.toList

/-- The units of a network, which are freed with it. -/
def netUnits (n : Net U α) : List U := n.vertex.flatMap (fun v => engUnits v.eng) ++ n.editQueue.flatMap editUnits

/-- What `enqueue` sends back: `vertex.rs:234-240`. -/
def Eng.unseated (e : Eng U α) : Option U := if e.next.unit.isSome then e.latest.unit else none

/-- Send a unit back, if there is one. -/
def Post.sendUnit (m : Post (List U)) : Option U → Post (List U)
  | some u => m.send [u]
  | none => m

/-- `self.vertex[index].enqueue(edit, sender)`: `vertex.rs:233-248`. -/
def enqBack (S : Units U α) (p : List (Vertex U α) × Post (List U)) (i : Nat) (d : NodeEdit U α) : List (Vertex U α) × Post (List U) :=
  match p.1[i]? with
  | some v => (p.1.set i { v with eng := v.eng.enqueue S d }, p.2.sendUnit (Eng.unseated v.eng))
  | none => p

/-- `apply_edits`: `net.rs:1286-1291`. -/
def applyEditsBack (S : Units U α) (n : Net U α) (m : Post (List U)) : Net U α × Post (List U) :=
  let r := n.editQueue.foldl (fun p d => enqBack S p d.index d) (n.vertex, m)
  ({ n with vertex := r.1, editQueue := [] }, r.2)

/-- Loop of `apply_foreign_edits`, `net.rs:1294-1304`: the edits that are left in the source have no units, if they were applied. -/
def foreignBack (S : Units U α) (ix : IdMap) : List (NodeEdit U α) → List (Vertex U α) × Post (List U) →
    (List (Vertex U α) × Post (List U)) × List (NodeEdit U α)
  | [], p => (p, [])
  | d :: ds, p =>
    match ix.get d.id with
    | some i => ((foreignBack S ix ds (enqBack S p i d)).1, { d with unit := none } :: (foreignBack S ix ds (enqBack S p i d)).2)
    | none => ((foreignBack S ix ds p).1, d :: (foreignBack S ix ds p).2)

/-- Loop body of `migrate`, `net.rs:1054-1075`, for the id and old index `p`: the vertices of the old and of the new network. -/
def swapStep (old new : Net U α) (vs : List (Vertex U α) × List (Vertex U α)) (p : Nat × Nat) : List (Vertex U α) × List (Vertex U α) :=
  match new.nodeIndex.get p.1 with
  | none => vs
  | some j =>
    match vs.1[p.2]?, vs.2[j]? with
    | some w, some v =>
      if v.changed ≤ old.revision then
        (vs.1.set p.2 { w with eng := { w.eng with unit := v.eng.unit, next := v.eng.next, latest := v.eng.latest } },
          vs.2.set j { v with eng := { unit := w.eng.unit, next := w.eng.next, latest := w.eng.latest, phase := w.eng.phase } })
      else vs
    | _, _ => vs

/-- `migrate`: `net.rs:1053-1076`: the old and the new network. -/
def swapNets (old new : Net U α) : Net U α × Net U α :=
  let r := old.nodeIndex.foldl (swapStep old new) (old.vertex, new.vertex)
  ({ old with vertex := r.1 }, { new with vertex := r.2 })

/-- State of the loop of `handle_messages`: the network, the latest network and the channel. -/
structure Hd (U α : Type) where
  net : Net U α
  latest : Option (Net U α)
  post : Post (List U)

/-- `realnet.rs:67-92`. -/
def Hd.recv (S : Units U α) (h : Hd U α) : Net.Msg U α → Hd U α
  | .net n =>
    match h.latest with
    | some l =>
      let r := foreignBack S h.net.nodeIndex l.editQueue (h.net.vertex, h.post)
      ⟨{ h.net with vertex := r.1.1 }, some n, r.1.2.send (netUnits { l with editQueue := r.2 })⟩
    | none => ⟨h.net, some n, h.post⟩
  | .setting id f => { h with net := Net.set h.net id f }

/-- `handle_messages`: `realnet.rs:63-107`. -/
def netHandle (S : Units U α) (q : List (Net.Msg U α)) (n : Net U α) (m : Post (List U)) : Net U α × Post (List U) :=
  let h := q.foldl (Hd.recv S) ⟨n, none, m⟩
  match h.latest with
  | none => (h.net, h.post)
  | some l =>
    let sw := swapNets h.net l
    let r := applyEditsBack S sw.2 h.post
    (r.1, r.2.send (netUnits sw.1))

/-- The unit that `next_phase` sends back in `tick`: `vertex.rs:127-133, 155-158`. -/
def Eng.retiredTick (S : Units U α) (sr : α) (e : Eng U α) (x : List α) : Option U :=
  if e.next.unit.isSome ∧ S.ge (S.add e.phase (S.div S.one (S.mul e.next.time sr))) S.one then some (S.utick e.unit x).1 else none

/-- The unit that `next_phase` sends back in `process`: `vertex.rs:175, 222-226`. -/
def Eng.retiredBlock (S : Units U α) (P : Proc U α) (sr : α) (e : Eng U α) (size : Nat) (x old : CBuf α) : Option U :=
  if e.next.unit.isSome ∧ S.toNat (S.mul (S.mul (S.sub S.one e.phase) e.next.time) sr) ≤ size then some (P e.unit size x old).1 else none

/-- Loop body of `tick_2`, `net.rs:1195-1208`. -/
def tickBack (S : Units U α) (sr : α) (input : List α) (p : List (Vertex U α) × Post (List U)) (ni : Nat) : List (Vertex U α) × Post (List U) :=
  (tickNode S sr input p.1 ni,
    match p.1[ni]? with
    | some v => p.2.sendUnit (Eng.retiredTick S sr v.eng ((v.source.take v.ins).map (fun e => readPort S p.1 input e.source)))
    | none => p.2)

/-- Loop body of `process_2`, `net.rs:1237-1277`. -/
def blockBack (S : Units U α) (P : Proc U α) (sr : α) (input : CBuf α) (size : Nat) (tmp : Nat → CBuf α) (p : List (Vertex U α) × Post (List U)) (ni : Nat) :
    List (Vertex U α) × Post (List U) :=
  (procNode S P sr input size tmp p.1 ni,
    match p.1[ni]? with
    | some v => p.2.sendUnit (Eng.retiredBlock S P sr v.eng size (match v.srcVertex with
        | some (sn, sp) => fun c k => ((p.1[sn]?).map (fun w => w.buf (sp + c) k)).getD S.zero
        | none => gather S p.1 input size v) v.buf)
    | none => p.2)

/-- Frontend and backend with both channels: the messages on the way to the backend, the network of the backend, the returning channel. -/
structure NetSt (U α : Type) where
  queue : List (Net.Msg U α)
  net : Net U α
  post : Post (List U)

/-- Calls. The frontend is not modelled further (`Net/Backend` does): it may commit any networks. -/
inductive NCall (U α : Type) where
  | commit (n : Net U α)
  | setting (id : Nat) (f : U → U)
  | tick (x : List α)
  | block (size : Nat) (x : CBuf α) (tmp : Nat → CBuf α)
  | reset
  | rate (sr : α)

/-- One call. `cap` is the capacity of the channel to the backend. `commit`: `net.rs:1148-1161`, a network that cannot be sent is dropped by the frontend;
`set`: `net.rs:1361-1363`; calls of the backend: `realnet.rs:119-137`. -/
def NetSt.step [DecidableEq α] (S : Units U α) (P : Proc U α) (cap : Nat) (s : NetSt U α) : NCall U α → NetSt U α
  | .commit n => if s.queue.length < cap then ⟨s.queue ++ [.net n], s.net, s.post.drain⟩ else ⟨s.queue, s.net, s.post.drain.free (netUnits n)⟩
  | .setting id f => if s.queue.length < cap then ⟨s.queue ++ [.setting id f], s.net, s.post⟩ else s
  | .tick x =>
    let h := netHandle S s.queue s.net s.post
    let r := (h.1.order.getD []).foldl (tickBack S h.1.sampleRate x) (h.1.vertex, h.2)
    ⟨[], { h.1 with vertex := r.1 }, r.2⟩
  | .block size x tmp =>
    let h := netHandle S s.queue s.net s.post
    let r := (h.1.order.getD []).foldl (blockBack S P h.1.sampleRate x size tmp) (h.1.vertex, h.2)
    ⟨[], { h.1 with vertex := r.1 }, r.2⟩
  | .reset =>
    let n := { s.net with vertex := s.net.vertex.map fun v => { v with eng := { v.eng with unit := S.reset v.eng.unit }, changed := s.net.revision } }
    let h := netHandle S s.queue n s.post
    ⟨[], h.1, h.2⟩
  | .rate sr =>
    let n := if s.net.sampleRate = sr then s.net else { s.net with
      sampleRate := sr
      vertex := s.net.vertex.map fun v => { v with eng := { v.eng with unit := S.setSR sr v.eng.unit }, changed := s.net.revision } }
    let h := netHandle S s.queue n s.post
    ⟨[], h.1, h.2⟩

def NetSt.run [DecidableEq α] (S : Units U α) (P : Proc U α) (cap : Nat) (cs : List (NCall U α)) (s : NetSt U α) : NetSt U α :=
  cs.foldl (NetSt.step S P cap) s

/-- `backend`: `net.rs:1094-1111`. -/
def NetSt.new (cap : Nat) (n : Net U α) : NetSt U α := ⟨[], n, .new cap⟩

/-- The frontend is dropped. -/
def NetSt.close (s : NetSt U α) : NetSt U α := { s with post := s.post.close }

/-! ## Labels are kept -/

variable {S : Units U α} {P : Proc U α} {lab : U → ℕ}

/-- Labels of all units that went through a returning channel. -/
def postLabs (lab : U → ℕ) (m : Post (List U)) : Multiset ℕ := labs lab m.all.flatten

theorem postLabs_send (m : Post (List U)) (x : List U) : postLabs lab (m.send x) = postLabs lab m + labs lab x := by
  unfold Post.send postLabs Post.all
  split <;> simp only [List.flatten_append, List.flatten_cons, List.flatten_nil, List.append_nil, labs_append] <;> abel

theorem postLabs_drain (m : Post (List U)) : postLabs lab m.drain = postLabs lab m := by
  unfold Post.drain postLabs Post.all
  simp only [List.flatten_append, List.flatten_nil, labs_append, labs_nil]; abel

theorem postLabs_free (m : Post (List U)) (x : List U) : postLabs lab (m.free x) = postLabs lab m + labs lab x := by
  unfold Post.free postLabs Post.all
  simp only [List.flatten_append, List.flatten_cons, List.flatten_nil, List.append_nil, labs_append]; abel

theorem postLabs_unit (m : Post (List U)) (o : Option U) : postLabs lab (m.sendUnit o) = postLabs lab m + labs lab o.toList := by
  cases o with
  | none => simp [Post.sendUnit, labs_nil]
  | some u => exact postLabs_send m [u]

/-- Labels of a list of vertices. -/
def vLabs (lab : U → ℕ) (vs : List (Vertex U α)) : Multiset ℕ := labs lab (vs.flatMap fun v => engUnits v.eng)

theorem vLabs_set (vs : List (Vertex U α)) (i : Nat) (v w : Vertex U α) (h : vs[i]? = some v) :
    vLabs lab (vs.set i w) + labs lab (engUnits v.eng) = vLabs lab vs + labs lab (engUnits w.eng) := by
  induction vs generalizing i with
  | nil => simp at h
  | cons x vs ih =>
    cases i with
    | zero =>
      simp only [List.getElem?_cons_zero, Option.some.injEq] at h
      subst h
      simp only [List.set_cons_zero, vLabs, List.flatMap_cons, labs_append]; abel
    | succ i =>
      have := ih i (by simpa using h)
      simp only [List.set_cons_succ, vLabs, List.flatMap_cons, labs_append] at this ⊢
      rw [add_assoc, this]; abel

theorem vLabs_modify (vs : List (Vertex U α)) (i : Nat) (f : Vertex U α → Vertex U α) (v : Vertex U α) (h : vs[i]? = some v) :
    vLabs lab (vs.modify i f) + labs lab (engUnits v.eng) = vLabs lab vs + labs lab (engUnits (f v).eng) := by
  have e : vs.modify i f = vs.set i (f v) := by
    refine List.ext_getElem? fun k => ?_
    rw [List.getElem?_modify, List.getElem?_set]
    have hi : i < vs.length := (List.getElem?_eq_some_iff.1 h).1
    by_cases hk : i = k
    · subst hk; rw [h]; simp [hi]
    · simp [hk]
  rw [e]; exact vLabs_set vs i v _ h

theorem modify_out (vs : List (Vertex U α)) (i : Nat) (f : Vertex U α → Vertex U α) (h : vs[i]? = none) : vs.modify i f = vs := by
  refine List.ext_getElem? fun k => ?_
  rw [List.getElem?_modify]
  by_cases hk : i = k
  · subst hk; simp [h]
  · cases vs[k]? <;> simp [hk]

theorem enqueue_labs (e : Eng U α) (d : NodeEdit U α) :
    labs lab (engUnits (e.enqueue S d)) + labs lab (Eng.unseated e).toList = labs lab (engUnits e) + labs lab (editUnits d) := by
  obtain ⟨u, ph, ⟨nu, _, _, _, _⟩, ⟨lu, _, _, _, _⟩⟩ := e
  have hs : ∀ x : U, labs lab (some x).toList = {lab x} := fun _ => rfl
  have h0 : labs lab (none : Option U).toList = 0 := rfl
  cases nu <;> cases lu <;> simp only [Eng.enqueue, Eng.unseated, engUnits, editUnits, labs_cons, labs_append, Option.isSome_none, Option.isSome_some,
    Bool.false_eq_true, if_false, if_true, hs, h0, add_zero, zero_add] <;> abel

theorem enqBack_labs (p : List (Vertex U α) × Post (List U)) (i : Nat) (d : NodeEdit U α) (hi : i < p.1.length) :
    vLabs lab (enqBack S p i d).1 + postLabs lab (enqBack S p i d).2 = vLabs lab p.1 + postLabs lab p.2 + labs lab (editUnits d) := by
  have hv : p.1[i]? = some p.1[i] := List.getElem?_eq_getElem hi
  have h1 := vLabs_set (lab := lab) p.1 i p.1[i] { p.1[i] with eng := p.1[i].eng.enqueue S d } hv
  have h2 := enqueue_labs (S := S) (lab := lab) p.1[i].eng d
  simp only [enqBack, hv, postLabs_unit]
  refine add_right_cancel (b := labs lab (engUnits p.1[i].eng)) ?_
  have e : vLabs lab (p.1.set i { p.1[i] with eng := p.1[i].eng.enqueue S d }) + (postLabs lab p.2 + labs lab (Eng.unseated p.1[i].eng).toList) +
      labs lab (engUnits p.1[i].eng) = (vLabs lab (p.1.set i { p.1[i] with eng := p.1[i].eng.enqueue S d }) + labs lab (engUnits p.1[i].eng)) +
        postLabs lab p.2 + labs lab (Eng.unseated p.1[i].eng).toList := by abel
  rw [e, h1]
  have e2 : vLabs lab p.1 + labs lab (engUnits (p.1[i].eng.enqueue S d)) + postLabs lab p.2 + labs lab (Eng.unseated p.1[i].eng).toList =
      vLabs lab p.1 + postLabs lab p.2 + (labs lab (engUnits (p.1[i].eng.enqueue S d)) + labs lab (Eng.unseated p.1[i].eng).toList) := by abel
  rw [e2, h2]; abel

theorem enqBack_length (p : List (Vertex U α) × Post (List U)) (i : Nat) (d : NodeEdit U α) : (enqBack S p i d).1.length = p.1.length := by
  unfold enqBack
  split <;> simp

theorem enqs_labs (ds : List (NodeEdit U α)) (p : List (Vertex U α) × Post (List U)) (hi : ∀ d ∈ ds, d.index < p.1.length) :
    vLabs lab (ds.foldl (fun p d => enqBack S p d.index d) p).1 + postLabs lab (ds.foldl (fun p d => enqBack S p d.index d) p).2 =
      vLabs lab p.1 + postLabs lab p.2 + labs lab (ds.flatMap editUnits) := by
  induction ds generalizing p with
  | nil => simp [labs_nil]
  | cons d ds ih =>
    rw [List.foldl_cons, ih (enqBack S p d.index d) (fun x hx => by rw [enqBack_length]; exact hi x (List.mem_cons_of_mem _ hx)),
      enqBack_labs p d.index d (hi d (List.mem_cons_self ..)), List.flatMap_cons, labs_append]
    abel

theorem foreign_labs (ix : IdMap) (ds : List (NodeEdit U α)) (p : List (Vertex U α) × Post (List U))
    (hi : ∀ d ∈ ds, ∀ i, ix.get d.id = some i → i < p.1.length) :
    vLabs lab (foreignBack S ix ds p).1.1 + postLabs lab (foreignBack S ix ds p).1.2 + labs lab ((foreignBack S ix ds p).2.flatMap editUnits) =
      vLabs lab p.1 + postLabs lab p.2 + labs lab (ds.flatMap editUnits) := by
  induction ds generalizing p with
  | nil => simp [foreignBack, labs_nil]
  | cons d ds ih =>
    simp only [foreignBack]
    split
    · rename_i i hget
      have h1 := ih (enqBack S p i d) (fun x hx j hj => by rw [enqBack_length]; exact hi x (List.mem_cons_of_mem _ hx) j hj)
      have h2 := enqBack_labs (S := S) (lab := lab) p i d (hi d (List.mem_cons_self ..) i hget)
      simp only [List.flatMap_cons, labs_append]
      have e : labs lab (editUnits { d with unit := none }) = 0 := rfl
      rw [e, zero_add, h1, h2]; abel
    · have h1 := ih p (fun x hx => hi x (List.mem_cons_of_mem _ hx))
      simp only [List.flatMap_cons, labs_append]
      rw [show ∀ a b c d : Multiset ℕ, a + b + (c + d) = a + b + d + c from fun a b c d => by abel, h1]; abel

theorem foreign_length (ix : IdMap) (ds : List (NodeEdit U α)) (p : List (Vertex U α) × Post (List U)) :
    (foreignBack S ix ds p).1.1.length = p.1.length ∧ (foreignBack S ix ds p).2.length = ds.length := by
  induction ds generalizing p with
  | nil => exact ⟨rfl, rfl⟩
  | cons d ds ih =>
    simp only [foreignBack]
    split
    · rename_i i _
      exact ⟨(ih (enqBack S p i d)).1.trans (enqBack_length p i d), by simp [(ih (enqBack S p i d)).2]⟩
    · exact ⟨(ih p).1, by simp [(ih p).2]⟩

theorem swapStep_labs (old new : Net U α) (vs : List (Vertex U α) × List (Vertex U α)) (p : Nat × Nat) :
    vLabs lab (swapStep old new vs p).1 + vLabs lab (swapStep old new vs p).2 = vLabs lab vs.1 + vLabs lab vs.2 ∧
    (swapStep old new vs p).1.length = vs.1.length ∧ (swapStep old new vs p).2.length = vs.2.length := by
  unfold swapStep
  split
  · exact ⟨rfl, rfl, rfl⟩
  · rename_i j _
    split
    · rename_i w v hw hv
      split
      · refine ⟨?_, by simp, by simp⟩
        have h1 := vLabs_set (lab := lab) vs.1 p.2 w { w with eng := { w.eng with unit := v.eng.unit, next := v.eng.next, latest := v.eng.latest } } hw
        have h2 := vLabs_set (lab := lab) vs.2 j v
          { v with eng := { unit := w.eng.unit, next := w.eng.next, latest := w.eng.latest, phase := w.eng.phase } } hv
        simp only [engUnits] at h1 h2
        refine add_right_cancel (b := labs lab (engUnits w.eng) + labs lab (engUnits v.eng)) ?_
        simp only [engUnits]
        rw [show ∀ a b c d : Multiset ℕ, a + b + (c + d) = (a + c) + (b + d) from fun a b c d => by abel, h1, h2]
        abel
      · exact ⟨rfl, rfl, rfl⟩
    · exact ⟨rfl, rfl, rfl⟩

theorem swap_labs (old new : Net U α) (l : List (Nat × Nat)) (vs : List (Vertex U α) × List (Vertex U α)) :
    vLabs lab (l.foldl (swapStep old new) vs).1 + vLabs lab (l.foldl (swapStep old new) vs).2 = vLabs lab vs.1 + vLabs lab vs.2 ∧
    (l.foldl (swapStep old new) vs).1.length = vs.1.length ∧ (l.foldl (swapStep old new) vs).2.length = vs.2.length := by
  induction l generalizing vs with
  | nil => exact ⟨rfl, rfl, rfl⟩
  | cons p l ih =>
    obtain ⟨a, b, c⟩ := ih (swapStep old new vs p)
    obtain ⟨a', b', c'⟩ := swapStep_labs (lab := lab) old new vs p
    exact ⟨a.trans a', b.trans b', c.trans c'⟩

end Fundsp.Mail
