import Verif.Mail.Net

/-! Lemmas for C114: networks keep units, and have room for what they send back. -/

namespace Fundsp.Mail
open Fundsp.Net Fundsp.Slot
variable {U α : Type} {S : Net.Units U α} {P : Proc U α} {lab : U → ℕ}

/-! ## Playing -/

theorem nextPhase_labs (e : Eng U α) (h : e.next.unit.isSome) :
    labs lab (engUnits (e.nextPhase S)) + {lab e.unit} = labs lab (engUnits e) := by
  obtain ⟨u, ph, ⟨nu, _, _, _, _⟩, ⟨lu, _, _, _, _⟩⟩ := e
  cases nu with
  | none => simp at h
  | some n =>
    have hs : labs lab (some n).toList = {lab n} := rfl
    have h0 : labs lab (none : Option U).toList = 0 := rfl
    simp only [Eng.nextPhase, engUnits, labs_cons, labs_append, hs, h0]
    abel

theorem tick_labs (hL : Lab S P lab) (sr : α) (e : Eng U α) (x : List α) :
    labs lab (engUnits (e.tick S sr x).1) + labs lab (Eng.retiredTick S sr e x).toList = labs lab (engUnits e) := by
  obtain ⟨u, ph, ⟨nu, nid, nix, nf, nt⟩, l⟩ := e
  cases nu with
  | none => simp only [Eng.tick, Eng.retiredTick, engUnits, labs_cons, hL.tick]; simp [labs_nil]
  | some n =>
    simp only [Eng.tick, Eng.retiredTick, Option.isSome_some, true_and]
    split
    · have := nextPhase_labs (S := S) (lab := lab) ⟨(S.utick u x).1, S.add ph (S.div S.one (S.mul nt sr)), ⟨some (S.utick n x).1, nid, nix, nf, nt⟩, l⟩ rfl
      refine Eq.trans ?_ (this.trans ?_)
      · rfl
      · simp only [engUnits, labs_cons, labs_append, hL.tick]
        have hs : ∀ y : U, labs lab (some y).toList = {lab y} := fun _ => rfl
        simp only [hs, hL.tick]
    · have hs : ∀ y : U, labs lab (some y).toList = {lab y} := fun _ => rfl
      simp only [engUnits, labs_cons, labs_append, hL.tick, hs]
      simp [labs_nil]

theorem block_labs (hL : Lab S P lab) (sr : α) (outs : Nat) (e : Eng U α) (size : Nat) (x old tmp : CBuf α) :
    labs lab (engUnits (e.process S P sr outs size x old tmp).1) + labs lab (Eng.retiredBlock S P sr e size x old).toList = labs lab (engUnits e) := by
  obtain ⟨u, ph, ⟨nu, nid, nix, nf, nt⟩, l⟩ := e
  cases nu with
  | none => simp only [Eng.process, Eng.retiredBlock, engUnits, labs_cons, hL.proc]; simp [labs_nil]
  | some n =>
    have hs : ∀ y : U, labs lab (some y).toList = {lab y} := fun _ => rfl
    simp only [Eng.process, Eng.retiredBlock, Option.isSome_some, true_and]
    split
    · have := nextPhase_labs (S := S) (lab := lab) ⟨(P u size x old).1,
        S.add ph (S.div (S.ofNat (min size (S.toNat (S.mul (S.mul (S.sub S.one ph) nt) sr)))) (S.mul nt sr)), ⟨some (P n size x tmp).1, nid, nix, nf, nt⟩, l⟩ rfl
      refine Eq.trans ?_ (this.trans ?_)
      · rfl
      · simp only [engUnits, labs_cons, labs_append, hL.proc, hs]
    · simp only [engUnits, labs_cons, labs_append, hL.proc, hs]
      simp [labs_nil]

theorem tickBack_labs (hL : Lab S P lab) (sr : α) (input : List α) (p : List (Vertex U α) × Post (List U)) (ni : Nat) :
    vLabs lab (tickBack S sr input p ni).1 + postLabs lab (tickBack S sr input p ni).2 = vLabs lab p.1 + postLabs lab p.2 := by
  unfold tickBack tickNode
  cases hv : p.1[ni]? with
  | none => simp only [modify_out _ _ _ hv]
  | some v =>
    simp only [postLabs_unit]
    have h1 := vLabs_modify (lab := lab) p.1 ni (fun v =>
      { v with eng := (v.eng.tick S sr ((v.source.take v.ins).map (fun e => readPort S p.1 input e.source))).1,
               tickOut := (v.eng.tick S sr ((v.source.take v.ins).map (fun e => readPort S p.1 input e.source))).2 }) v hv
    have h2 := tick_labs hL sr v.eng ((v.source.take v.ins).map (fun e => readPort S p.1 input e.source))
    refine add_right_cancel (b := labs lab (engUnits v.eng)) ?_
    rw [show ∀ a b c d : Multiset ℕ, a + (b + c) + d = (a + d) + b + c from fun a b c d => by abel, h1, ← h2]
    abel

theorem blockBack_labs (hL : Lab S P lab) (sr : α) (input : CBuf α) (size : Nat) (tmp : Nat → CBuf α) (p : List (Vertex U α) × Post (List U)) (ni : Nat) :
    vLabs lab (blockBack S P sr input size tmp p ni).1 + postLabs lab (blockBack S P sr input size tmp p ni).2 = vLabs lab p.1 + postLabs lab p.2 := by
  unfold blockBack procNode
  cases hv : p.1[ni]? with
  | none => simp only [modify_out _ _ _ hv]
  | some v =>
    simp only [postLabs_unit]
    refine add_right_cancel (b := labs lab (engUnits v.eng)) ?_
    rw [show ∀ a b c d : Multiset ℕ, a + (b + c) + d = (a + d) + b + c from fun a b c d => by abel, vLabs_modify (lab := lab) p.1 ni _ v hv]
    cases hs : v.srcVertex with
    | none =>
      simp only
      rw [← block_labs hL sr v.outs v.eng size (gather S p.1 input size v) v.buf (tmp ni)]
      abel
    | some q =>
      simp only
      rw [← block_labs hL sr v.outs v.eng size (fun c k => ((p.1[q.1]?).map (fun w => w.buf (q.2 + c) k)).getD S.zero) v.buf (tmp ni)]
      abel

theorem fold_labs {A : Type} (f : List (Vertex U α) × Post (List U) → A → List (Vertex U α) × Post (List U))
    (h : ∀ p a, vLabs lab (f p a).1 + postLabs lab (f p a).2 = vLabs lab p.1 + postLabs lab p.2) (l : List A) (p : List (Vertex U α) × Post (List U)) :
    vLabs lab (l.foldl f p).1 + postLabs lab (l.foldl f p).2 = vLabs lab p.1 + postLabs lab p.2 := by
  induction l generalizing p with
  | nil => rfl
  | cons a l ih => rw [List.foldl_cons, ih, h]

/-! ## Messages -/

/-- Indices in a network are those of nodes: `C01`. -/
def Fit (n : Net U α) : Prop :=
  (∀ d ∈ n.editQueue, d.index < n.vertex.length) ∧ ∀ id i, n.nodeIndex.get id = some i → i < n.vertex.length

/-- Units in a message. -/
def msgUnits : Net.Msg U α → List U
  | .net n => netUnits n
  | .setting _ _ => []

/-- A message that does not change labels and whose indices are those of nodes. -/
def MsgOk (lab : U → ℕ) : Net.Msg U α → Prop
  | .net n => Fit n
  | .setting _ f => ∀ u, lab (f u) = lab u

theorem netUnits_labs (n : Net U α) : labs lab (netUnits n) = vLabs lab n.vertex + labs lab (n.editQueue.flatMap editUnits) := labs_append _ _ _

theorem set_labs (n : Net U α) (id : Nat) (f : U → U) (hf : ∀ u, lab (f u) = lab u) :
    labs lab (netUnits (Net.set n id f)) = labs lab (netUnits n) ∧ (Fit n → Fit (Net.set n id f)) := by
  unfold Net.set
  split
  · rename_i i _
    constructor
    · rw [netUnits_labs, netUnits_labs]
      congr 1
      cases hv : n.vertex[i]? with
      | none => simp only [modify_out _ _ _ hv]
      | some v =>
        refine add_right_cancel (b := labs lab (engUnits v.eng)) ?_
        simp only
        rw [vLabs_modify (lab := lab) n.vertex i _ v hv]
        simp only [engUnits, labs_cons, hf]
    · rintro ⟨h1, h2⟩
      exact ⟨fun d hd => by simpa using h1 d hd, fun id j hj => by simpa using h2 id j hj⟩
  · exact ⟨rfl, fun h => h⟩

/-- Labels in the state of the loop of `handle_messages`. -/
def Hd.labels (lab : U → ℕ) (h : Hd U α) : Multiset ℕ :=
  labs lab (netUnits h.net) + (match h.latest with | some l => labs lab (netUnits l) | none => 0) + postLabs lab h.post

def Hd.Fit (h : Hd U α) : Prop := Mail.Fit h.net ∧ ∀ l, h.latest = some l → Mail.Fit l

theorem recv_labs (h : Hd U α) (m : Net.Msg U α) (hh : h.Fit) (hm : MsgOk lab m) :
    (h.recv S m).labels lab = h.labels lab + labs lab (msgUnits m) ∧ (h.recv S m).Fit := by
  obtain ⟨net, latest, post⟩ := h
  cases m with
  | setting id f =>
    obtain ⟨h1, h2⟩ := set_labs (lab := lab) net id f hm
    refine ⟨?_, h2 hh.1, hh.2⟩
    simp only [Hd.recv, Hd.labels, h1, msgUnits, labs_nil, add_zero]
  | net n =>
    cases latest with
    | none =>
      refine ⟨?_, hh.1, fun l hl => by cases hl; exact hm⟩
      simp only [Hd.recv, Hd.labels, msgUnits]; abel
    | some l =>
      have hf := foreign_labs (S := S) (lab := lab) net.nodeIndex l.editQueue (net.vertex, post) (fun d _ i hi => hh.1.2 d.id i hi)
      have hlen := foreign_length (S := S) net.nodeIndex l.editQueue (net.vertex, post)
      refine ⟨?_, ⟨?_, ?_⟩, fun l hl => by cases hl; exact hm⟩
      · simp only [Hd.recv, Hd.labels, msgUnits, postLabs_send, netUnits_labs] at hf ⊢
        rw [show ∀ a b c d e : Multiset ℕ, ∀ f g, a + b + (c + d) + (e + (f + g)) = (a + e + g) + b + (c + d) + f from
          fun a b c d e f g => by abel, hf]
        abel
      · intro d hd
        have := hh.1.1 d hd
        simpa only [Hd.recv, hlen.1] using this
      · intro id i hi
        have := hh.1.2 id i hi
        simpa only [Hd.recv, hlen.1] using this

theorem recvs_labs (q : List (Net.Msg U α)) (h : Hd U α) (hh : h.Fit) (hq : ∀ m ∈ q, MsgOk lab m) :
    (q.foldl (Hd.recv S) h).labels lab = h.labels lab + labs lab (q.flatMap msgUnits) ∧ (q.foldl (Hd.recv S) h).Fit := by
  induction q generalizing h with
  | nil => exact ⟨by simp [labs_nil], hh⟩
  | cons m q ih =>
    obtain ⟨a, b⟩ := recv_labs (S := S) h m hh (hq m (List.mem_cons_self ..))
    obtain ⟨c, d⟩ := ih (h.recv S m) b (fun x hx => hq x (List.mem_cons_of_mem _ hx))
    refine ⟨?_, d⟩
    rw [List.foldl_cons, c, a, List.flatMap_cons, labs_append]; abel

theorem enqs_length (ds : List (NodeEdit U α)) (p : List (Vertex U α) × Post (List U)) :
    (ds.foldl (fun p d => enqBack S p d.index d) p).1.length = p.1.length := by
  induction ds generalizing p with
  | nil => rfl
  | cons d ds ih => rw [List.foldl_cons, ih, enqBack_length]

theorem netHandle_labs (q : List (Net.Msg U α)) (n : Net U α) (m : Post (List U)) (hn : Fit n) (hq : ∀ m ∈ q, MsgOk lab m) :
    labs lab (netUnits (netHandle S q n m).1) + postLabs lab (netHandle S q n m).2 = labs lab (netUnits n) + postLabs lab m + labs lab (q.flatMap msgUnits) ∧
    Fit (netHandle S q n m).1 := by
  obtain ⟨a, b⟩ := recvs_labs (S := S) q ⟨n, none, m⟩ ⟨hn, fun l hl => by cases hl⟩ hq
  unfold netHandle
  generalize q.foldl (Hd.recv S) ⟨n, none, m⟩ = h at a b
  obtain ⟨net, latest, post⟩ := h
  cases latest with
  | none =>
    refine ⟨?_, b.1⟩
    simp only [Hd.labels, add_zero] at a ⊢
    exact a
  | some l =>
    have hl := b.2 l rfl
    obtain ⟨s1, s2, s3⟩ := swap_labs (lab := lab) net l net.nodeIndex (net.vertex, l.vertex)
    have he := enqs_labs (S := S) (lab := lab) l.editQueue ((net.nodeIndex.foldl (swapStep net l) (net.vertex, l.vertex)).2, post)
      (fun d hd => by simp only [s3]; exact hl.1 d hd)
    have hlen := enqs_length (S := S) l.editQueue ((net.nodeIndex.foldl (swapStep net l) (net.vertex, l.vertex)).2, post)
    refine ⟨?_, fun d hd => by simp [applyEditsBack] at hd, fun id i hi => ?_⟩
    · simp only [Hd.labels, add_zero, netUnits_labs, swapNets, applyEditsBack, postLabs_send, List.flatMap_nil, labs_nil] at a he s1 ⊢
      rw [← a, show ∀ a b c d : Multiset ℕ, a + (b + (c + d)) = (a + b) + c + d from fun a b c d => by abel, he,
        show ∀ a b c d e : Multiset ℕ, a + b + c + d + e = (d + a) + b + c + e from fun a b c d e => by abel, s1]
      abel
    · have := hl.2 id i hi
      simpa only [swapNets, applyEditsBack, hlen, s3] using this

/-! ## Room in the channel -/

/-- Units of a node that are fading in or waiting. -/
def engPend (e : Eng U α) : Nat := e.next.unit.toList.length + e.latest.unit.toList.length

def vPend (vs : List (Vertex U α)) : Nat := (vs.map fun v => engPend v.eng).sum

def ePend (ds : List (NodeEdit U α)) : Nat := (ds.map fun d => d.unit.toList.length).sum

theorem vPend_set (vs : List (Vertex U α)) (i : Nat) (v w : Vertex U α) (h : vs[i]? = some v) :
    vPend (vs.set i w) + engPend v.eng = vPend vs + engPend w.eng ∧ engPend v.eng ≤ vPend vs := by
  induction vs generalizing i with
  | nil => simp at h
  | cons x vs ih =>
    cases i with
    | zero =>
      simp only [List.getElem?_cons_zero, Option.some.injEq] at h
      subst h
      simp only [List.set_cons_zero, vPend, List.map_cons, List.sum_cons]; omega
    | succ i =>
      have := ih i (by simpa using h)
      simp only [List.set_cons_succ, vPend, List.map_cons, List.sum_cons] at this ⊢
      omega

theorem vPend_modify (vs : List (Vertex U α)) (i : Nat) (f : Vertex U α → Vertex U α) (v : Vertex U α) (h : vs[i]? = some v) :
    vPend (vs.modify i f) + engPend v.eng = vPend vs + engPend (f v).eng ∧ engPend v.eng ≤ vPend vs := by
  have e : vs.modify i f = vs.set i (f v) := by
    refine List.ext_getElem? fun k => ?_
    rw [List.getElem?_modify, List.getElem?_set]
    have hi : i < vs.length := (List.getElem?_eq_some_iff.1 h).1
    by_cases hk : i = k
    · subst hk; rw [h]; simp [hi]
    · simp [hk]
  rw [e]; exact vPend_set vs i v _ h

/-- The channel is open, nothing was freed by the backend, and there is room for `k` messages. -/
def Room (m : Post (List U)) (k : Nat) : Prop := m.isOpen = true ∧ m.lost = [] ∧ m.box.length + k ≤ m.cap

/-- Only the contents of the channel may differ. -/
def Same (m m' : Post (List U)) : Prop := m'.cap = m.cap ∧ m'.taken = m.taken

theorem room_send {m : Post (List U)} {k : Nat} (h : Room m (k + 1)) (x : List U) : Room (m.send x) k ∧ Same m (m.send x) := by
  obtain ⟨h1, h2, h3⟩ := h
  obtain ⟨a, b, c, d⟩ := send_ok (m := m) h1 h2 (show m.box.length < m.cap by omega) x
  have ht : (m.send x).taken = m.taken := by unfold Post.send; split <;> rfl
  exact ⟨⟨a, b, by omega⟩, by omega, ht⟩

theorem room_unit {m : Post (List U)} {k : Nat} (o : Option U) (h : Room m (k + o.toList.length)) : Room (m.sendUnit o) k ∧ Same m (m.sendUnit o) := by
  cases o with
  | none => exact ⟨h, rfl, rfl⟩
  | some u => exact room_send h [u]

theorem Room.mono {m : Post (List U)} {k k' : Nat} (h : Room m k) (hk : k' ≤ k) : Room m k' := ⟨h.1, h.2.1, by have := h.2.2; omega⟩

theorem Same.trans {a b c : Post (List U)} (h : Same a b) (h' : Same b c) : Same a c := ⟨h'.1.trans h.1, h'.2.trans h.2⟩

theorem enq_room (p : List (Vertex U α) × Post (List U)) (i : Nat) (d : NodeEdit U α) (k : Nat) (h : Room p.2 (vPend p.1 + d.unit.toList.length + k)) :
    Room (enqBack S p i d).2 (vPend (enqBack S p i d).1 + k) ∧ Same p.2 (enqBack S p i d).2 := by
  unfold enqBack
  cases hv : p.1[i]? with
  | none => exact ⟨h.mono (by simp only; omega), rfl, rfl⟩
  | some v =>
    simp only
    obtain ⟨h1, h2⟩ := vPend_set p.1 i v { v with eng := v.eng.enqueue S d } hv
    have he : engPend (v.eng.enqueue S d) + (Eng.unseated v.eng).toList.length = engPend v.eng + d.unit.toList.length := by
      obtain ⟨⟨u, ph, ⟨nu, _, _, _, _⟩, ⟨lu, _, _, _, _⟩⟩, _⟩ := v
      cases nu <;> cases lu <;> simp [Eng.enqueue, Eng.unseated, engPend] <;> omega
    simp only at h1
    exact room_unit _ (h.mono (by omega))

theorem enqs_room (ds : List (NodeEdit U α)) (p : List (Vertex U α) × Post (List U)) (k : Nat) (h : Room p.2 (vPend p.1 + ePend ds + k)) :
    Room (ds.foldl (fun p d => enqBack S p d.index d) p).2 (vPend (ds.foldl (fun p d => enqBack S p d.index d) p).1 + k) ∧
    Same p.2 (ds.foldl (fun p d => enqBack S p d.index d) p).2 := by
  induction ds generalizing p with
  | nil => exact ⟨h.mono (by simp [ePend]), rfl, rfl⟩
  | cons d ds ih =>
    simp only [ePend, List.map_cons, List.sum_cons] at h
    obtain ⟨a, b⟩ := enq_room (S := S) p d.index d (ePend ds + k) (h.mono (by simp only [ePend]; omega))
    obtain ⟨a', b'⟩ := ih (enqBack S p d.index d) (a.mono (by omega))
    exact ⟨a', b.trans b'⟩

theorem foreign_room (ix : IdMap) (ds : List (NodeEdit U α)) (p : List (Vertex U α) × Post (List U)) (k : Nat) (h : Room p.2 (vPend p.1 + ePend ds + k)) :
    Room (foreignBack S ix ds p).1.2 (vPend (foreignBack S ix ds p).1.1 + k) ∧ Same p.2 (foreignBack S ix ds p).1.2 := by
  induction ds generalizing p with
  | nil => exact ⟨h.mono (by simp [ePend, foreignBack]), rfl, rfl⟩
  | cons d ds ih =>
    simp only [ePend, List.map_cons, List.sum_cons] at h
    simp only [foreignBack]
    split
    · rename_i i _
      obtain ⟨a, b⟩ := enq_room (S := S) p i d (ePend ds + k) (h.mono (by simp only [ePend]; omega))
      obtain ⟨a', b'⟩ := ih (enqBack S p i d) (a.mono (by omega))
      exact ⟨a', b.trans b'⟩
    · exact ih p (h.mono (by simp only [ePend]; omega))

theorem swap_pend (old new : Net U α) (l : List (Nat × Nat)) (vs : List (Vertex U α) × List (Vertex U α)) :
    vPend (l.foldl (swapStep old new) vs).1 + vPend (l.foldl (swapStep old new) vs).2 = vPend vs.1 + vPend vs.2 := by
  induction l generalizing vs with
  | nil => rfl
  | cons p l ih =>
    rw [List.foldl_cons, ih]
    unfold swapStep
    split
    · rfl
    · rename_i j _
      split
      · rename_i w v hw hv
        split
        · have h1 := vPend_set vs.1 p.2 w { w with eng := { w.eng with unit := v.eng.unit, next := v.eng.next, latest := v.eng.latest } } hw
          have h2 := vPend_set vs.2 j v { v with eng := { unit := w.eng.unit, next := w.eng.next, latest := w.eng.latest, phase := w.eng.phase } } hv
          simp only [engPend] at h1 h2 ⊢
          omega
        · rfl
      · rfl

/-- Units of a network that are fading in, waiting or in edits. -/
def netPend (n : Net U α) : Nat := vPend n.vertex + ePend n.editQueue

/-- What a message may make the backend send: a network, and the units in it that are not yet in place. -/
def msgLoad : Net.Msg U α → Nat
  | .net n => 1 + netPend n
  | .setting _ _ => 0

def qLoad (q : List (Net.Msg U α)) : Nat := (q.map msgLoad).sum

def Hd.load (h : Hd U α) : Nat := vPend h.net.vertex + (match h.latest with | some l => 1 + netPend l | none => 0)

theorem set_pend (n : Net U α) (id : Nat) (f : U → U) : vPend (Net.set n id f).vertex = vPend n.vertex := by
  unfold Net.set
  split
  · rename_i i _
    cases hv : n.vertex[i]? with
    | none => simp only [modify_out _ _ _ hv]
    | some v =>
      obtain ⟨h1, h2⟩ := vPend_modify n.vertex i (fun v => { v with eng := { v.eng with unit := f v.eng.unit } }) v hv
      simp only [engPend] at h1 h2 ⊢
      omega
  · rfl

theorem recv_room (h : Hd U α) (m : Net.Msg U α) (k : Nat) (hr : Room h.post (h.load + msgLoad m + k)) :
    Room (h.recv S m).post ((h.recv S m).load + k) ∧ Same h.post (h.recv S m).post := by
  obtain ⟨net, latest, post⟩ := h
  cases m with
  | setting id f =>
    refine ⟨?_, rfl, rfl⟩
    simp only [Hd.recv, Hd.load, msgLoad, set_pend] at hr ⊢
    exact hr.mono (by omega)
  | net n =>
    cases latest with
    | none =>
      refine ⟨?_, rfl, rfl⟩
      simp only [Hd.recv, Hd.load, msgLoad] at hr ⊢
      exact hr.mono (by omega)
    | some l =>
      simp only [Hd.recv, Hd.load, msgLoad, netPend] at hr ⊢
      obtain ⟨a, b⟩ := foreign_room (S := S) net.nodeIndex l.editQueue (net.vertex, post) (1 + (vPend n.vertex + ePend n.editQueue) + k + 1)
        (hr.mono (by simp only; omega))
      obtain ⟨c, d⟩ := room_send (a.mono (show vPend (foreignBack S net.nodeIndex l.editQueue (net.vertex, post)).1.1 +
        (1 + (vPend n.vertex + ePend n.editQueue)) + k + 1 ≤ _ by omega)) (netUnits { l with editQueue := (foreignBack S net.nodeIndex l.editQueue (net.vertex, post)).2 })
      exact ⟨c, b.trans d⟩

theorem recvs_room (q : List (Net.Msg U α)) (h : Hd U α) (k : Nat) (hr : Room h.post (h.load + qLoad q + k)) :
    Room (q.foldl (Hd.recv S) h).post ((q.foldl (Hd.recv S) h).load + k) ∧ Same h.post (q.foldl (Hd.recv S) h).post := by
  induction q generalizing h with
  | nil => exact ⟨hr.mono (by simp [qLoad]), rfl, rfl⟩
  | cons m q ih =>
    simp only [qLoad, List.map_cons, List.sum_cons] at hr
    obtain ⟨a, b⟩ := recv_room (S := S) h m (qLoad q + k) (hr.mono (by simp only [qLoad]; omega))
    obtain ⟨c, d⟩ := ih (h.recv S m) (a.mono (by omega))
    exact ⟨c, b.trans d⟩

theorem netHandle_room (q : List (Net.Msg U α)) (n : Net U α) (m : Post (List U)) (hr : Room m (vPend n.vertex + qLoad q)) :
    Room (netHandle S q n m).2 (vPend (netHandle S q n m).1.vertex) ∧ Same m (netHandle S q n m).2 := by
  obtain ⟨a, b⟩ := recvs_room (S := S) q ⟨n, none, m⟩ 0 (hr.mono (by simp [Hd.load]))
  unfold netHandle
  generalize q.foldl (Hd.recv S) ⟨n, none, m⟩ = h at a b
  obtain ⟨net, latest, post⟩ := h
  cases latest with
  | none => exact ⟨a.mono (by simp [Hd.load]), b⟩
  | some l =>
    have hs := swap_pend net l net.nodeIndex (net.vertex, l.vertex)
    simp only [Hd.load, netPend] at a
    obtain ⟨c, d⟩ := enqs_room (S := S) l.editQueue ((net.nodeIndex.foldl (swapStep net l) (net.vertex, l.vertex)).2, post) 1
      (a.mono (by simp only at hs ⊢; omega))
    obtain ⟨e, f⟩ := room_send c (netUnits (swapNets net l).1)
    exact ⟨e, (b.trans d).trans f⟩

theorem nextPhase_pend (e : Eng U α) (h : e.next.unit.isSome) : engPend (e.nextPhase S) + 1 = engPend e := by
  obtain ⟨u, ph, ⟨nu, _, _, _, _⟩, ⟨lu, _, _, _, _⟩⟩ := e
  cases nu with
  | none => simp at h
  | some n => simp only [Eng.nextPhase, engPend, Option.toList, List.length_cons, List.length_nil]; omega

theorem tick_pend (sr : α) (e : Eng U α) (x : List α) : engPend (e.tick S sr x).1 + (Eng.retiredTick S sr e x).toList.length = engPend e := by
  obtain ⟨u, ph, ⟨nu, nid, nix, nf, nt⟩, l⟩ := e
  cases nu with
  | none => simp [Eng.tick, Eng.retiredTick, engPend]
  | some n =>
    simp only [Eng.tick, Eng.retiredTick, Option.isSome_some, true_and]
    split
    · exact nextPhase_pend (S := S) ⟨(S.utick u x).1, S.add ph (S.div S.one (S.mul nt sr)), ⟨some (S.utick n x).1, nid, nix, nf, nt⟩, l⟩ rfl
    · simp [engPend]

theorem block_pend (sr : α) (outs : Nat) (e : Eng U α) (size : Nat) (x old tmp : CBuf α) :
    engPend (e.process S P sr outs size x old tmp).1 + (Eng.retiredBlock S P sr e size x old).toList.length = engPend e := by
  obtain ⟨u, ph, ⟨nu, nid, nix, nf, nt⟩, l⟩ := e
  cases nu with
  | none => simp [Eng.process, Eng.retiredBlock, engPend]
  | some n =>
    simp only [Eng.process, Eng.retiredBlock, Option.isSome_some, true_and]
    split
    · exact nextPhase_pend (S := S) ⟨(P u size x old).1, S.add ph (S.div (S.ofNat (min size (S.toNat (S.mul (S.mul (S.sub S.one ph) nt) sr)))) (S.mul nt sr)),
          ⟨some (P n size x tmp).1, nid, nix, nf, nt⟩, l⟩ rfl
    · simp [engPend]

theorem tickBack_room (sr : α) (input : List α) (p : List (Vertex U α) × Post (List U)) (ni : Nat) (h : Room p.2 (vPend p.1)) :
    Room (tickBack S sr input p ni).2 (vPend (tickBack S sr input p ni).1) ∧ Same p.2 (tickBack S sr input p ni).2 := by
  unfold tickBack tickNode
  cases hv : p.1[ni]? with
  | none => simp only [modify_out _ _ _ hv]; exact ⟨h, rfl, rfl⟩
  | some v =>
    obtain ⟨h1, h2⟩ := vPend_modify p.1 ni (fun v =>
      { v with eng := (v.eng.tick S sr ((v.source.take v.ins).map (fun e => readPort S p.1 input e.source))).1,
               tickOut := (v.eng.tick S sr ((v.source.take v.ins).map (fun e => readPort S p.1 input e.source))).2 }) v hv
    have h3 := tick_pend (S := S) sr v.eng ((v.source.take v.ins).map (fun e => readPort S p.1 input e.source))
    simp only at h1 ⊢
    exact room_unit _ (h.mono (by omega))

theorem blockBack_room (sr : α) (input : CBuf α) (size : Nat) (tmp : Nat → CBuf α) (p : List (Vertex U α) × Post (List U)) (ni : Nat)
    (h : Room p.2 (vPend p.1)) :
    Room (blockBack S P sr input size tmp p ni).2 (vPend (blockBack S P sr input size tmp p ni).1) ∧ Same p.2 (blockBack S P sr input size tmp p ni).2 := by
  unfold blockBack procNode
  cases hv : p.1[ni]? with
  | none => simp only [modify_out _ _ _ hv]; exact ⟨h, rfl, rfl⟩
  | some v =>
    simp only
    refine room_unit _ (h.mono ?_)
    refine le_of_eq (Nat.add_right_cancel (m := engPend v.eng) ?_)
    rw [add_right_comm, (vPend_modify p.1 ni _ v hv).1]
    cases hs : v.srcVertex with
    | none =>
      simp only
      rw [← block_pend (S := S) (P := P) sr v.outs v.eng size (gather S p.1 input size v) v.buf (tmp ni)]
      omega
    | some q =>
      simp only
      rw [← block_pend (S := S) (P := P) sr v.outs v.eng size (fun c k => ((p.1[q.1]?).map (fun w => w.buf (q.2 + c) k)).getD S.zero) v.buf (tmp ni)]
      omega

theorem fold_room {A : Type} (f : List (Vertex U α) × Post (List U) → A → List (Vertex U α) × Post (List U))
    (hf : ∀ p a, Room p.2 (vPend p.1) → Room (f p a).2 (vPend (f p a).1) ∧ Same p.2 (f p a).2) (l : List A) (p : List (Vertex U α) × Post (List U))
    (h : Room p.2 (vPend p.1)) : Room (l.foldl f p).2 (vPend (l.foldl f p).1) ∧ Same p.2 (l.foldl f p).2 := by
  induction l generalizing p with
  | nil => exact ⟨h, rfl, rfl⟩
  | cons a l ih =>
    obtain ⟨b, c⟩ := hf p a h
    obtain ⟨d, e⟩ := ih (f p a) b
    exact ⟨d, c.trans e⟩

end Fundsp.Mail
