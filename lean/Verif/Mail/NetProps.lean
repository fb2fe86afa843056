import Verif.Mail.NetLemmas

/-! # C114: units are not freed on the audio thread, in networks: properties -/

namespace Fundsp.Mail
open Fundsp.Net Fundsp.Slot
variable {U α : Type} {S : Net.Units U α} {P : Proc U α} {lab : U → ℕ}

/-! ## The networks are those of C11 -/

theorem modify_eq_set (vs : List (Vertex U α)) (i : Nat) (f : Vertex U α → Vertex U α) (v : Vertex U α) (h : vs[i]? = some v) :
    vs.modify i f = vs.set i (f v) := by
  refine List.ext_getElem? fun k => ?_
  rw [List.getElem?_modify, List.getElem?_set]
  have hi : i < vs.length := (List.getElem?_eq_some_iff.1 h).1
  by_cases hk : i = k
  · subst hk; rw [h]; simp [hi]
  · simp [hk]

theorem enqBack_fst (p : List (Vertex U α) × Post (List U)) (i : Nat) (d : NodeEdit U α) : (enqBack S p i d).1 = enqueueAt S p.1 (i, d) := by
  unfold enqBack enqueueAt
  cases hv : p.1[i]? with
  | none => exact (modify_out _ _ _ hv).symm
  | some v => exact (modify_eq_set p.1 i (fun v => { v with eng := v.eng.enqueue S d }) v hv).symm

theorem enqs_fst (ds : List (NodeEdit U α)) (p : List (Vertex U α) × Post (List U)) :
    (ds.foldl (fun p d => enqBack S p d.index d) p).1 = (ds.map fun ed => (ed.index, ed)).foldl (enqueueAt S) p.1 := by
  induction ds generalizing p with
  | nil => rfl
  | cons d ds ih => rw [List.foldl_cons, ih, enqBack_fst]; rfl

theorem foreign_fst (ix : IdMap) (ds : List (NodeEdit U α)) (p : List (Vertex U α) × Post (List U)) :
    (foreignBack S ix ds p).1.1 = (ds.filterMap fun ed => (ix.get ed.id).map fun i => (i, ed)).foldl (enqueueAt S) p.1 := by
  induction ds generalizing p with
  | nil => rfl
  | cons d ds ih =>
    simp only [foreignBack]
    cases h : ix.get d.id with
    | none => simp only [List.filterMap_cons, h, Option.map_none]; exact ih p
    | some i => simp only [List.filterMap_cons, h, Option.map_some, List.foldl_cons]; rw [ih, enqBack_fst]

theorem swap_snd (old new : Net U α) (l : List (Nat × Nat)) (vs : List (Vertex U α) × List (Vertex U α)) (hn : (l.map Prod.snd).Nodup)
    (hv : ∀ p ∈ l, vs.1[p.2]? = old.vertex[p.2]?) : (l.foldl (swapStep old new) vs).2 = l.foldl (migrateStep old new) vs.2 := by
  induction l generalizing vs with
  | nil => rfl
  | cons p l ih =>
    rw [List.map_cons, List.nodup_cons] at hn
    have h0 := hv p (List.mem_cons_self ..)
    have hstep : (swapStep old new vs p).2 = migrateStep old new vs.2 p ∧ ∀ q ∈ l, (swapStep old new vs p).1[q.2]? = vs.1[q.2]? := by
      unfold swapStep migrateStep
      cases new.nodeIndex.get p.1 with
      | none => exact ⟨rfl, fun _ _ => rfl⟩
      | some j =>
        simp only
        rw [← h0]
        cases vs.1[p.2]? with
        | none => exact ⟨rfl, fun _ _ => rfl⟩
        | some w =>
          cases hj : vs.2[j]? with
          | none => exact ⟨(modify_out _ _ _ hj).symm, fun _ _ => rfl⟩
          | some v =>
            simp only
            rw [modify_eq_set vs.2 j _ v hj]
            split
            · refine ⟨rfl, fun q hq => ?_⟩
              simp only
              rw [List.getElem?_set_ne]
              intro h
              exact hn.1 (h ▸ List.mem_map_of_mem hq)
            · refine ⟨?_, fun _ _ => rfl⟩
              have : vs.2.set j v = vs.2 := by
                refine List.ext_getElem? fun k => ?_
                rw [List.getElem?_set]
                have hi : j < vs.2.length := (List.getElem?_eq_some_iff.1 hj).1
                by_cases hk : j = k
                · subst hk; simp [hi, ← hj]
                · simp [hk]
              exact this.symm
    rw [List.foldl_cons, List.foldl_cons, ih (swapStep old new vs p) hn.2 (fun q hq => (hstep.2 q hq).trans (hv q (List.mem_cons_of_mem _ hq))), hstep.1]

/-- `nodeIndex` gives different nodes different indices: `C01`. -/
def Inj (n : Net U α) : Prop := (n.nodeIndex.map Prod.snd).Nodup

theorem recvs_same (q : List (Net.Msg U α)) (h : Hd U α) :
    ((q.foldl (Hd.recv S) h).net, (q.foldl (Hd.recv S) h).latest) = q.foldl (Net.recv S) (h.net, h.latest) ∧
    (q.foldl (Hd.recv S) h).net.nodeIndex = h.net.nodeIndex := by
  induction q generalizing h with
  | nil => exact ⟨rfl, rfl⟩
  | cons m q ih =>
    obtain ⟨a, b⟩ := ih (h.recv S m)
    have hs : ((h.recv S m).net, (h.recv S m).latest) = Net.recv S (h.net, h.latest) m ∧ (h.recv S m).net.nodeIndex = h.net.nodeIndex := by
      obtain ⟨net, latest, post⟩ := h
      cases m with
      | setting id f => refine ⟨rfl, ?_⟩; simp only [Hd.recv, Net.set]; split <;> rfl
      | net n =>
        cases latest with
        | none => exact ⟨rfl, rfl⟩
        | some l =>
          refine ⟨?_, rfl⟩
          simp only [Hd.recv, Net.recv, Net.applyForeign, foreign_fst]
    refine ⟨?_, b.trans hs.2⟩
    rw [List.foldl_cons, a, List.foldl_cons, hs.1]

/-- **C114** (same networks): handling messages with the returning channel gives the network of C11. -/
theorem C114_net_same_handle (q : List (Net.Msg U α)) (n : Net U α) (m : Post (List U)) (hn : Inj n) : (netHandle S q n m).1 = Net.handle S n q := by
  obtain ⟨a, b⟩ := recvs_same (S := S) q ⟨n, none, m⟩
  unfold netHandle Net.handle
  simp only at a
  rw [← a]
  generalize q.foldl (Hd.recv S) ⟨n, none, m⟩ = h at b
  obtain ⟨net, latest, post⟩ := h
  simp only at b
  cases latest with
  | none => rfl
  | some l =>
    have hs := swap_snd net l net.nodeIndex (net.vertex, l.vertex) (by rw [b]; exact hn) (fun _ _ => rfl)
    simp only [applyEditsBack, Net.applyEdits, Net.migrate, swapNets, enqs_fst, hs]

/-- **C114** (same networks): playing with the returning channel is playing as in C07 and C08. -/
theorem C114_net_same_play [DecidableEq α] (cap : Nat) (s : NetSt U α) :
    (∀ x, (s.step S P cap (.tick x)).net = (tickOrdered S (netHandle S s.queue s.net s.post).1 x).1) ∧
    ∀ size x tmp old, (s.step S P cap (.block size x tmp)).net = (processOrdered S P (netHandle S s.queue s.net s.post).1 size x old tmp).1 := by
  have h1 : ∀ (sr : α) (x : List α) (l : List Nat) (p : List (Vertex U α) × Post (List U)), (l.foldl (tickBack S sr x) p).1 = l.foldl (tickNode S sr x) p.1 := by
    intro sr x l
    induction l with
    | nil => intro p; rfl
    | cons i l ih => intro p; rw [List.foldl_cons, ih]; rfl
  have h2 : ∀ (sr : α) (x : CBuf α) (size : Nat) (tmp : Nat → CBuf α) (l : List Nat) (p : List (Vertex U α) × Post (List U)),
      (l.foldl (blockBack S P sr x size tmp) p).1 = l.foldl (procNode S P sr x size tmp) p.1 := by
    intro sr x size tmp l
    induction l with
    | nil => intro p; rfl
    | cons i l ih => intro p; rw [List.foldl_cons, ih]; rfl
  exact ⟨fun x => by simp only [NetSt.step, tickOrdered, h1], fun size x tmp old => by simp only [NetSt.step, processOrdered, h2]⟩

/-! ## Units are kept -/

/-- The units in networks that were committed. -/
def sentUnits : List (NCall U α) → List U
  | [] => []
  | .commit n :: cs => netUnits n ++ sentUnits cs
  | _ :: cs => sentUnits cs

/-- Calls with networks whose indices are those of nodes, and with settings that do not change labels. -/
def CallOk (lab : U → ℕ) : NCall U α → Prop
  | .commit n => Fit n
  | .setting _ f => ∀ u, lab (f u) = lab u
  | _ => True

def NetSt.labels (lab : U → ℕ) (s : NetSt U α) : Multiset ℕ := labs lab (netUnits s.net) + labs lab (s.queue.flatMap msgUnits) + postLabs lab s.post

def NetSt.Ok (lab : U → ℕ) (s : NetSt U α) : Prop := Fit s.net ∧ ∀ m ∈ s.queue, MsgOk lab m

theorem map_labs (n : Net U α) (f : Vertex U α → Vertex U α) (hf : ∀ v, labs lab (engUnits (f v).eng) = labs lab (engUnits v.eng)) :
    vLabs lab (n.vertex.map f) = vLabs lab n.vertex := by
  generalize n.vertex = vs
  induction vs with
  | nil => rfl
  | cons v vs ih =>
    simp only [vLabs, List.map_cons, List.flatMap_cons, labs_append, hf] at ih ⊢
    rw [ih]

theorem net_step_labs [DecidableEq α] (hL : Lab S P lab) (cap : Nat) (s : NetSt U α) (hs : s.Ok lab) (c : NCall U α) (hc : CallOk lab c) :
    (s.step S P cap c).labels lab = s.labels lab + labs lab (sentUnits [c]) ∧ (s.step S P cap c).Ok lab := by
  have hfit : ∀ (n : Net U α) (vs : List (Vertex U α)), Fit n → vs.length = n.vertex.length → Fit { n with vertex := vs } := by
    rintro n vs ⟨h1, h2⟩ hl
    exact ⟨fun d hd => by simp only [hl]; exact h1 d hd, fun id i hi => by simp only [hl]; exact h2 id i hi⟩
  cases c with
  | commit n =>
    simp only [NetSt.step]
    split
    · refine ⟨?_, hs.1, fun m hm => ?_⟩
      · simp only [NetSt.labels, List.flatMap_append, List.flatMap_cons, List.flatMap_nil, List.append_nil, labs_append, postLabs_drain, sentUnits, msgUnits]
        abel
      · rcases List.mem_append.1 hm with h | h
        · exact hs.2 m h
        · rw [List.mem_singleton.1 h]; exact hc
    · refine ⟨?_, hs⟩
      simp only [NetSt.labels, postLabs_free, postLabs_drain, sentUnits, List.append_nil]
      abel
  | setting id f =>
    simp only [NetSt.step, sentUnits, labs_nil, add_zero]
    split
    · refine ⟨?_, hs.1, fun m hm => ?_⟩
      · simp only [NetSt.labels, List.flatMap_append, List.flatMap_cons, List.flatMap_nil, List.append_nil, msgUnits]
      · rcases List.mem_append.1 hm with h | h
        · exact hs.2 m h
        · rw [List.mem_singleton.1 h]; exact hc
    · exact ⟨rfl, hs⟩
  | tick x =>
    obtain ⟨h1, h2⟩ := netHandle_labs (S := S) s.queue s.net s.post hs.1 hs.2
    have h3 := fold_labs (lab := lab) (tickBack S (netHandle S s.queue s.net s.post).1.sampleRate x) (tickBack_labs hL _ _)
      ((netHandle S s.queue s.net s.post).1.order.getD []) ((netHandle S s.queue s.net s.post).1.vertex, (netHandle S s.queue s.net s.post).2)
    refine ⟨?_, hfit _ _ h2 ?_, fun m hm => by cases hm⟩
    · simp only [NetSt.step, NetSt.labels, netUnits_labs, List.flatMap_nil, labs_nil, add_zero, sentUnits] at h1 h3 ⊢
      rw [add_right_comm, h3, add_right_comm, h1]; abel
    · have hlen : ∀ (l : List Nat) (p : List (Vertex U α) × Post (List U)),
          (l.foldl (tickBack S (netHandle S s.queue s.net s.post).1.sampleRate x) p).1.length = p.1.length := by
        intro l
        induction l with
        | nil => intro p; rfl
        | cons i l ih => intro p; rw [List.foldl_cons, ih]; simp [tickBack, tickNode]
      exact hlen _ _
  | block size x tmp =>
    obtain ⟨h1, h2⟩ := netHandle_labs (S := S) s.queue s.net s.post hs.1 hs.2
    have h3 := fold_labs (lab := lab) (blockBack S P (netHandle S s.queue s.net s.post).1.sampleRate x size tmp) (blockBack_labs hL _ _ _ _)
      ((netHandle S s.queue s.net s.post).1.order.getD []) ((netHandle S s.queue s.net s.post).1.vertex, (netHandle S s.queue s.net s.post).2)
    refine ⟨?_, hfit _ _ h2 ?_, fun m hm => by cases hm⟩
    · simp only [NetSt.step, NetSt.labels, netUnits_labs, List.flatMap_nil, labs_nil, add_zero, sentUnits] at h1 h3 ⊢
      rw [add_right_comm, h3, add_right_comm, h1]; abel
    · have hlen : ∀ (l : List Nat) (p : List (Vertex U α) × Post (List U)),
          (l.foldl (blockBack S P (netHandle S s.queue s.net s.post).1.sampleRate x size tmp) p).1.length = p.1.length := by
        intro l
        induction l with
        | nil => intro p; rfl
        | cons i l ih => intro p; rw [List.foldl_cons, ih]; simp [blockBack, procNode]
      exact hlen _ _
  | reset =>
    obtain ⟨h1, h2⟩ := netHandle_labs (S := S) s.queue
      { s.net with vertex := s.net.vertex.map fun v => { v with eng := { v.eng with unit := S.reset v.eng.unit }, changed := s.net.revision } } s.post
      (hfit _ _ hs.1 (by simp)) hs.2
    refine ⟨?_, h2, fun m hm => by cases hm⟩
    simp only [NetSt.step, NetSt.labels, netUnits_labs, List.flatMap_nil, labs_nil, add_zero, sentUnits] at h1 ⊢
    rw [h1, map_labs s.net _ (fun v => by simp only [engUnits, labs_cons, hL.reset])]
    abel
  | rate sr =>
    obtain ⟨h1, h2⟩ := netHandle_labs (S := S) (lab := lab) s.queue
      (if s.net.sampleRate = sr then s.net else { s.net with
        sampleRate := sr
        vertex := s.net.vertex.map fun v => { v with eng := { v.eng with unit := S.setSR sr v.eng.unit }, changed := s.net.revision } }) s.post
      (by
        split
        · exact hs.1
        · exact hfit _ (s.net.vertex.map fun v => { v with eng := { v.eng with unit := S.setSR sr v.eng.unit }, changed := s.net.revision }) hs.1 (by simp)) hs.2
    refine ⟨?_, h2, fun m hm => by cases hm⟩
    have e : labs lab (netUnits (if s.net.sampleRate = sr then s.net else { s.net with
        sampleRate := sr
        vertex := s.net.vertex.map fun v => { v with eng := { v.eng with unit := S.setSR sr v.eng.unit }, changed := s.net.revision } })) =
        labs lab (netUnits s.net) := by
      split
      · rfl
      · simp only [netUnits_labs]
        rw [map_labs s.net _ (fun v => by simp only [engUnits, labs_cons, hL.setSR])]
    rw [e] at h1
    simp only [NetSt.step, NetSt.labels, List.flatMap_nil, labs_nil, add_zero, sentUnits]
    rw [h1]; abel

theorem net_run_labs [DecidableEq α] (hL : Lab S P lab) (cap : Nat) (cs : List (NCall U α)) (s : NetSt U α) (hs : s.Ok lab) (hc : ∀ c ∈ cs, CallOk lab c) :
    (s.run S P cap cs).labels lab = s.labels lab + labs lab (sentUnits cs) := by
  induction cs generalizing s with
  | nil => simp [NetSt.run, sentUnits, labs_nil]
  | cons c cs ih =>
    obtain ⟨a, b⟩ := net_step_labs hL cap s hs c (hc c (List.mem_cons_self ..))
    have := ih (s.step S P cap c) b (fun x hx => hc x (List.mem_cons_of_mem _ hx))
    simp only [NetSt.run, List.foldl_cons] at this ⊢
    rw [this, a]
    cases c <;> simp only [sentUnits, labs_append, labs_nil, add_zero, List.append_nil]
    abel

/-- **C114** (networks keep units): after any calls, every unit of the network the backend was made with and of the networks that were committed is in exactly
one place: in the network of the backend, in a network on the way to it, on the way back, or freed by one of the two threads. `lab` gives units any labels that
playing and settings do not change. -/
theorem C114_net_kept [DecidableEq α] (hL : Lab S P lab) (cap : Nat) (n0 : Net U α) (h0 : Fit n0) (cs : List (NCall U α)) (hc : ∀ c ∈ cs, CallOk lab c) :
    let s := (NetSt.new cap n0).run S P cap cs
    ((netUnits s.net ++ s.queue.flatMap msgUnits ++ s.post.box.flatten ++ s.post.taken.flatten ++ s.post.lost.flatten).map lab).Perm
      ((netUnits n0 ++ sentUnits cs).map lab) := by
  intro s
  have h := net_run_labs hL cap cs (NetSt.new cap n0) ⟨h0, fun m hm => by cases hm⟩ hc
  rw [← Multiset.coe_eq_coe]
  have e0 : (NetSt.new cap n0).labels lab = labs lab (netUnits n0) := by simp [NetSt.labels, NetSt.new, Post.new, postLabs, Post.all, labs_nil]
  rw [e0] at h
  refine Eq.trans ?_ (h.trans (labs_append lab (netUnits n0) (sentUnits cs)).symm)
  change labs lab _ = s.labels lab
  simp only [NetSt.labels, postLabs, Post.all, List.flatten_append, labs_append]; abel

/-! ## With room, nothing is freed by the backend -/

/-- What the backend may still have to send back: units that are fading in or waiting in it, and the networks on the way to it with the units that
crossfade in them. -/
def NetSt.due (s : NetSt U α) : Nat :=
  (s.net.vertex.map fun v => v.eng.next.unit.toList.length + v.eng.latest.unit.toList.length).sum +
  (s.queue.map fun m => match m with
    | .net n => 1 + ((n.vertex.map fun v => v.eng.next.unit.toList.length + v.eng.latest.unit.toList.length).sum +
        (n.editQueue.map fun d => d.unit.toList.length).sum)
    | .setting _ _ => 0).sum

theorem due_eq (s : NetSt U α) : s.due = vPend s.net.vertex + qLoad s.queue := by
  unfold NetSt.due qLoad vPend engPend
  congr 3

theorem net_step_room [DecidableEq α] (cap : Nat) (s : NetSt U α) (hs : Room s.post s.due) (c : NCall U α) (hc : ∀ n, c ≠ .commit n) :
    Room (s.step S P cap c).post (s.step S P cap c).due ∧ Same s.post (s.step S P cap c).post := by
  rw [due_eq] at hs
  simp only [due_eq]
  cases c with
  | commit n => exact absurd rfl (hc n)
  | setting id f =>
    simp only [NetSt.step]
    split
    · refine ⟨hs.mono ?_, rfl, rfl⟩
      simp [qLoad, msgLoad]
    · exact ⟨hs, rfl, rfl⟩
  | tick x =>
    obtain ⟨a, b⟩ := netHandle_room (S := S) s.queue s.net s.post hs
    obtain ⟨c, d⟩ := fold_room (tickBack S (netHandle S s.queue s.net s.post).1.sampleRate x) (fun p i => tickBack_room _ _ p i)
      ((netHandle S s.queue s.net s.post).1.order.getD []) ((netHandle S s.queue s.net s.post).1.vertex, (netHandle S s.queue s.net s.post).2) a
    exact ⟨c.mono (by simp [NetSt.step, qLoad]), b.trans d⟩
  | block size x tmp =>
    obtain ⟨a, b⟩ := netHandle_room (S := S) s.queue s.net s.post hs
    obtain ⟨c, d⟩ := fold_room (blockBack S P (netHandle S s.queue s.net s.post).1.sampleRate x size tmp) (fun p i => blockBack_room _ _ _ _ p i)
      ((netHandle S s.queue s.net s.post).1.order.getD []) ((netHandle S s.queue s.net s.post).1.vertex, (netHandle S s.queue s.net s.post).2) a
    exact ⟨c.mono (by simp [NetSt.step, qLoad]), b.trans d⟩
  | reset =>
    obtain ⟨a, b⟩ := netHandle_room (S := S) s.queue
      { s.net with vertex := s.net.vertex.map fun v => { v with eng := { v.eng with unit := S.reset v.eng.unit }, changed := s.net.revision } } s.post
      (hs.mono (by simp [vPend, Function.comp_def, engPend]))
    exact ⟨a.mono (by simp [NetSt.step, qLoad]), b⟩
  | rate sr =>
    obtain ⟨a, b⟩ := netHandle_room (S := S) s.queue
      (if s.net.sampleRate = sr then s.net else { s.net with
        sampleRate := sr
        vertex := s.net.vertex.map fun v => { v with eng := { v.eng with unit := S.setSR sr v.eng.unit }, changed := s.net.revision } }) s.post
      (hs.mono (by
        split
        · exact le_rfl
        · simp [vPend, Function.comp_def, engPend]))
    exact ⟨a.mono (by simp [NetSt.step, qLoad]), b⟩

theorem net_run_append [DecidableEq α] (cap : Nat) (cs ds : List (NCall U α)) (s : NetSt U α) :
    s.run S P cap (cs ++ ds) = (s.run S P cap cs).run S P cap ds := by
  simp [NetSt.run, List.foldl_append]

theorem net_run_room [DecidableEq α] (cap : Nat) (n0 : Net U α) (cs : List (NCall U α)) (h0 : (NetSt.new cap n0).due ≤ cap)
    (hc : ∀ pre n, pre ++ [.commit n] <+: cs → ((NetSt.new cap n0).run S P cap (pre ++ [.commit n])).due ≤ cap) :
    Room ((NetSt.new cap n0).run S P cap cs).post ((NetSt.new cap n0).run S P cap cs).due ∧ ((NetSt.new cap n0).run S P cap cs).post.cap = cap := by
  induction cs using List.reverseRecOn with
  | nil => exact ⟨⟨rfl, rfl, by simpa [NetSt.run, NetSt.new, Post.new] using h0⟩, rfl⟩
  | append_singleton cs c ih =>
    obtain ⟨i1, i2⟩ := ih (fun pre n hpre => hc pre n (hpre.trans (List.prefix_append _ _)))
    have e : (NetSt.new cap n0).run S P cap (cs ++ [c]) = ((NetSt.new cap n0).run S P cap cs).step S P cap c := by rw [net_run_append]; rfl
    by_cases hcm : ∃ n, c = .commit n
    · obtain ⟨n, rfl⟩ := hcm
      have hd := hc cs n (List.prefix_refl _)
      rw [e] at hd ⊢
      generalize (NetSt.new cap n0).run S P cap cs = s at *
      obtain ⟨j1, j2, j3⟩ := i1
      simp only [NetSt.step] at hd ⊢
      split at hd
      · rename_i hq
        simp only [if_pos hq]
        exact ⟨⟨j1, j2, by show 0 + _ ≤ s.post.cap; omega⟩, i2⟩
      · rename_i hq
        simp only [if_neg hq]
        exact ⟨⟨j1, j2, by show 0 + _ ≤ s.post.cap; omega⟩, i2⟩
    · rw [e]
      obtain ⟨a, b⟩ := net_step_room (S := S) (P := P) cap _ i1 c (fun n h => hcm ⟨n, h⟩)
      exact ⟨a, b.1.trans i2⟩

/-- **C114** (networks): if at each commit the networks on the way, the crossfades in them and the crossfades not yet finished in the backend are at most `cap`
(1024) together, the backend frees no unit and no network, whatever is called in whatever order. Missing: more of them, see `C114_violation_net`, and a
frontend that is dropped, see `C114_violation_net_dropped`. -/
theorem C114_net_partial [DecidableEq α] (cap : Nat) (n0 : Net U α) (cs : List (NCall U α)) (h0 : (NetSt.new cap n0).due ≤ cap)
    (hc : ∀ pre n, pre ++ [.commit n] <+: cs → ((NetSt.new cap n0).run S P cap (pre ++ [.commit n])).due ≤ cap) :
    ((NetSt.new cap n0).run S P cap cs).post.lost = [] := (net_run_room cap n0 cs h0 hc).1.2.1

/-! ## Without crossfades -/

/-- Crossfades in a message. -/
def msgPend : Net.Msg U α → Nat
  | .net n => netPend n
  | .setting _ _ => 0

theorem enq_pend (p : List (Vertex U α) × Post (List U)) (i : Nat) (d : NodeEdit U α) : vPend (enqBack S p i d).1 ≤ vPend p.1 + d.unit.toList.length := by
  unfold enqBack
  cases hv : p.1[i]? with
  | none => exact Nat.le_add_right _ _
  | some v =>
    simp only
    obtain ⟨h1, h2⟩ := vPend_set p.1 i v { v with eng := v.eng.enqueue S d } hv
    have he : engPend (v.eng.enqueue S d) ≤ engPend v.eng + d.unit.toList.length := by
      obtain ⟨⟨u, ph, ⟨nu, _, _, _, _⟩, ⟨lu, _, _, _, _⟩⟩, _⟩ := v
      cases nu <;> cases lu <;> simp [Eng.enqueue, engPend] <;> omega
    simp only at h1
    omega

theorem enqs_pend (ds : List (NodeEdit U α)) (p : List (Vertex U α) × Post (List U)) :
    vPend (ds.foldl (fun p d => enqBack S p d.index d) p).1 ≤ vPend p.1 + ePend ds := by
  induction ds generalizing p with
  | nil => simp [ePend]
  | cons d ds ih =>
    have h1 := ih (enqBack S p d.index d)
    have h2 := enq_pend (S := S) p d.index d
    simp only [ePend, List.map_cons, List.sum_cons, List.foldl_cons] at h1 ⊢
    omega

theorem foreign_pend (ix : IdMap) (ds : List (NodeEdit U α)) (p : List (Vertex U α) × Post (List U)) :
    vPend (foreignBack S ix ds p).1.1 ≤ vPend p.1 + ePend ds := by
  induction ds generalizing p with
  | nil => simp [ePend, foreignBack]
  | cons d ds ih =>
    simp only [foreignBack]
    split
    · rename_i i _
      have h1 := ih (enqBack S p i d)
      have h2 := enq_pend (S := S) p i d
      simp only [ePend, List.map_cons, List.sum_cons] at h1 ⊢
      omega
    · have h1 := ih p
      simp only [ePend, List.map_cons, List.sum_cons] at h1 ⊢
      omega

/-- Crossfades in the latest network. -/
def optPend : Option (Net U α) → Nat
  | some l => netPend l
  | none => 0

theorem recvs_pend (q : List (Net.Msg U α)) (h : Hd U α) :
    vPend (q.foldl (Hd.recv S) h).net.vertex + optPend (q.foldl (Hd.recv S) h).latest ≤
      vPend h.net.vertex + optPend h.latest + (q.map msgPend).sum := by
  induction q generalizing h with
  | nil => simp
  | cons m q ih =>
    have h1 := ih (h.recv S m)
    have h2 : vPend (h.recv S m).net.vertex + optPend (h.recv S m).latest ≤
        vPend h.net.vertex + optPend h.latest + msgPend m := by
      obtain ⟨net, latest, post⟩ := h
      cases m with
      | setting id f => simp only [Hd.recv, set_pend, msgPend]; omega
      | net n =>
        cases latest with
        | none => simp only [Hd.recv, msgPend, optPend]; omega
        | some l =>
          have := foreign_pend (S := S) net.nodeIndex l.editQueue (net.vertex, post)
          simp only [Hd.recv, msgPend, netPend, optPend] at this ⊢
          omega
    rw [List.foldl_cons, List.map_cons, List.sum_cons]
    omega

theorem netHandle_pend (q : List (Net.Msg U α)) (n : Net U α) (m : Post (List U)) :
    vPend (netHandle S q n m).1.vertex ≤ vPend n.vertex + (q.map msgPend).sum := by
  have a := recvs_pend (S := S) q ⟨n, none, m⟩
  unfold netHandle
  generalize q.foldl (Hd.recv S) ⟨n, none, m⟩ = h at a
  obtain ⟨net, latest, post⟩ := h
  cases latest with
  | none => simpa [optPend] using a
  | some l =>
    have hs := swap_pend net l net.nodeIndex (net.vertex, l.vertex)
    have he := enqs_pend (S := S) l.editQueue ((net.nodeIndex.foldl (swapStep net l) (net.vertex, l.vertex)).2, post)
    simp only [netPend, optPend, applyEditsBack, swapNets] at a hs he ⊢
    omega

/-- Crossfades in a call. -/
def callPend : NCall U α → Nat
  | .commit n => netPend n
  | _ => 0

theorem net_step_pend [DecidableEq α] (cap : Nat) (s : NetSt U α) (c : NCall U α) :
    vPend (s.step S P cap c).net.vertex + ((s.step S P cap c).queue.map msgPend).sum ≤
      vPend s.net.vertex + (s.queue.map msgPend).sum + callPend c ∧
    (s.queue.length ≤ cap → (s.step S P cap c).queue.length ≤ cap) := by
  cases c with
  | commit n =>
    simp only [NetSt.step]
    split
    · simp only [List.map_append, List.map_cons, List.map_nil, List.sum_append, List.sum_cons, List.sum_nil, msgPend, List.length_append, List.length_cons,
        List.length_nil]
      simp only [callPend]; omega
    · simp only [callPend]; omega
  | setting id f =>
    simp only [NetSt.step]
    split
    · simp only [List.map_append, List.map_cons, List.map_nil, List.sum_append, List.sum_cons, List.sum_nil, msgPend, List.length_append, List.length_cons,
        List.length_nil]
      simp only [callPend]; omega
    · simp only [callPend]; omega
  | tick x =>
    refine ⟨?_, fun _ => Nat.zero_le _⟩
    have h1 := netHandle_pend (S := S) s.queue s.net s.post
    have h2 : ∀ (sr : α) (l : List Nat) (p : List (Vertex U α) × Post (List U)), vPend (l.foldl (tickBack S sr x) p).1 ≤ vPend p.1 := by
      intro sr l
      induction l with
      | nil => intro p; exact le_rfl
      | cons i l ih =>
        intro p
        refine (ih _).trans ?_
        simp only [tickBack, tickNode]
        cases hv : p.1[i]? with
        | none => rw [modify_out _ _ _ hv]
        | some v =>
          obtain ⟨h3, _⟩ := vPend_modify p.1 i (fun v =>
            { v with eng := (v.eng.tick S sr ((v.source.take v.ins).map (fun e => readPort S p.1 x e.source))).1,
                     tickOut := (v.eng.tick S sr ((v.source.take v.ins).map (fun e => readPort S p.1 x e.source))).2 }) v hv
          have h4 := tick_pend (S := S) sr v.eng ((v.source.take v.ins).map (fun e => readPort S p.1 x e.source))
          simp only at h3
          omega
    have h3 := h2 (netHandle S s.queue s.net s.post).1.sampleRate ((netHandle S s.queue s.net s.post).1.order.getD [])
      ((netHandle S s.queue s.net s.post).1.vertex, (netHandle S s.queue s.net s.post).2)
    simp only [NetSt.step, List.map_nil, List.sum_nil] at h3 ⊢
    omega
  | block size x tmp =>
    refine ⟨?_, fun _ => Nat.zero_le _⟩
    have h1 := netHandle_pend (S := S) s.queue s.net s.post
    have h2 : ∀ (sr : α) (l : List Nat) (p : List (Vertex U α) × Post (List U)), vPend (l.foldl (blockBack S P sr x size tmp) p).1 ≤ vPend p.1 := by
      intro sr l
      induction l with
      | nil => intro p; exact le_rfl
      | cons i l ih =>
        intro p
        refine (ih _).trans ?_
        simp only [blockBack, procNode]
        cases hv : p.1[i]? with
        | none => rw [modify_out _ _ _ hv]
        | some v =>
          refine Nat.le_of_add_le_add_right (b := engPend v.eng) ?_
          rw [(vPend_modify p.1 i _ v hv).1]
          refine Nat.add_le_add_left ?_ _
          cases hs : v.srcVertex with
          | none =>
            have := block_pend (S := S) (P := P) sr v.outs v.eng size (gather S p.1 x size v) v.buf (tmp i)
            simp only; omega
          | some q =>
            have := block_pend (S := S) (P := P) sr v.outs v.eng size (fun c k => ((p.1[q.1]?).map (fun w => w.buf (q.2 + c) k)).getD S.zero) v.buf (tmp i)
            simp only; omega
    have h3 := h2 (netHandle S s.queue s.net s.post).1.sampleRate ((netHandle S s.queue s.net s.post).1.order.getD [])
      ((netHandle S s.queue s.net s.post).1.vertex, (netHandle S s.queue s.net s.post).2)
    simp only [NetSt.step, List.map_nil, List.sum_nil] at h3 ⊢
    omega
  | reset =>
    refine ⟨?_, fun _ => Nat.zero_le _⟩
    have h1 := netHandle_pend (S := S) s.queue
      { s.net with vertex := s.net.vertex.map fun v => { v with eng := { v.eng with unit := S.reset v.eng.unit }, changed := s.net.revision } } s.post
    have e : vPend (s.net.vertex.map fun v => { v with eng := { v.eng with unit := S.reset v.eng.unit }, changed := s.net.revision }) = vPend s.net.vertex := by
      simp [vPend, Function.comp_def, engPend]
    simp only [e] at h1
    simp only [NetSt.step, List.map_nil, List.sum_nil]
    omega
  | rate sr =>
    refine ⟨?_, fun _ => Nat.zero_le _⟩
    have h1 := netHandle_pend (S := S) s.queue
      (if s.net.sampleRate = sr then s.net else { s.net with
        sampleRate := sr
        vertex := s.net.vertex.map fun v => { v with eng := { v.eng with unit := S.setSR sr v.eng.unit }, changed := s.net.revision } }) s.post
    have e : vPend (if s.net.sampleRate = sr then s.net else { s.net with
        sampleRate := sr
        vertex := s.net.vertex.map fun v => { v with eng := { v.eng with unit := S.setSR sr v.eng.unit }, changed := s.net.revision } }).vertex =
        vPend s.net.vertex := by
      split
      · rfl
      · simp [vPend, Function.comp_def, engPend]
    rw [e] at h1
    exact h1

/-- The crossfades in a network: units that are fading in, waiting or in edits. -/
def fadesIn (n : Net U α) : Nat :=
  (n.vertex.map fun v => v.eng.next.unit.toList.length + v.eng.latest.unit.toList.length).sum + (n.editQueue.map fun d => d.unit.toList.length).sum

/-- The crossfades in all networks that were committed. -/
def fadesSent : List (NCall U α) → Nat
  | [] => 0
  | .commit n :: cs => fadesIn n + fadesSent cs
  | _ :: cs => fadesSent cs

/-- **C114** (networks, few crossfades): if the crossfades ever made and the messages on the way to the backend are never more than `cap` (1024) together, the
backend frees no unit and no network. -/
theorem C114_net_few [DecidableEq α] (cap : Nat) (n0 : Net U α) (cs : List (NCall U α))
    (hc : ∀ pre, pre <+: cs → fadesIn n0 + fadesSent pre + ((NetSt.new cap n0).run S P cap pre).queue.length ≤ cap) :
    ((NetSt.new cap n0).run S P cap cs).post.lost = [] := by
  have hinv : ∀ cs : List (NCall U α), vPend ((NetSt.new cap n0).run S P cap cs).net.vertex + (((NetSt.new cap n0).run S P cap cs).queue.map msgPend).sum ≤
      fadesIn n0 + fadesSent cs := by
    intro cs
    induction cs using List.reverseRecOn with
    | nil => simp only [NetSt.run, NetSt.new, List.foldl_nil, List.map_nil, List.sum_nil, fadesSent, fadesIn, vPend, engPend]; omega
    | append_singleton cs c ih =>
      have e : (NetSt.new cap n0).run S P cap (cs ++ [c]) = ((NetSt.new cap n0).run S P cap cs).step S P cap c := by rw [net_run_append]; rfl
      have h1 := (net_step_pend (S := S) (P := P) cap ((NetSt.new cap n0).run S P cap cs) c).1
      have h2 : ∀ cs : List (NCall U α), fadesSent (cs ++ [c]) = fadesSent cs + callPend c := by
        intro cs
        induction cs with
        | nil => cases c <;> simp [fadesSent, fadesIn, netPend, vPend, engPend, ePend, callPend]
        | cons d cs ih => cases d <;> simp only [List.cons_append, fadesSent, ih]; omega
      rw [e, h2]
      omega
  have hq : ∀ q : List (Net.Msg U α), qLoad q ≤ q.length + (q.map msgPend).sum := by
    intro q
    induction q with
    | nil => simp [qLoad]
    | cons m q ih =>
      have : msgLoad m ≤ 1 + msgPend m := by cases m <;> simp [msgLoad, msgPend]
      simp only [qLoad, List.map_cons, List.sum_cons, List.length_cons] at ih ⊢
      omega
  have hd : ∀ pre, pre <+: cs → ((NetSt.new cap n0).run S P cap pre).due ≤ cap := by
    intro pre hpre
    rw [due_eq]
    have h1 := hinv pre
    have h2 := hc pre hpre
    have h3 := hq ((NetSt.new cap n0).run S P cap pre).queue
    omega
  exact C114_net_partial cap n0 cs (hd [] (List.nil_prefix)) (fun pre n h => hd _ h)

/-- **C114** (networks without crossfades): as long as nodes are only added, removed, replaced and connected, the backend frees no unit and no network, however
often the frontend commits. -/
theorem C114_net_plain [DecidableEq α] (cap : Nat) (n0 : Net U α) (h0 : fadesIn n0 = 0) (cs : List (NCall U α)) (hc : ∀ n, .commit n ∈ cs → fadesIn n = 0) :
    ((NetSt.new cap n0).run S P cap cs).post.lost = [] := by
  refine C114_net_few cap n0 cs fun pre hpre => ?_
  have h1 : ∀ cs : List (NCall U α), (∀ n, .commit n ∈ cs → fadesIn n = 0) → fadesSent cs = 0 := by
    intro cs
    induction cs with
    | nil => intro _; rfl
    | cons c cs ih =>
      intro h
      have := ih (fun n hn => h n (List.mem_cons_of_mem _ hn))
      cases c <;> simp only [fadesSent, this, Nat.add_zero]
      exact h _ (List.mem_cons_self ..)
  rw [h0, h1 pre (fun n hn => hc n (hpre.subset hn))]
  have h2 : ∀ cs : List (NCall U α), ((NetSt.new cap n0).run S P cap cs).queue.length ≤ cap := by
    intro cs
    induction cs using List.reverseRecOn with
    | nil => exact Nat.zero_le _
    | append_singleton cs c ih =>
      rw [net_run_append]
      exact (net_step_pend (S := S) (P := P) cap ((NetSt.new cap n0).run S P cap cs) c).2 ih
  simpa using h2 pre

/-! ## Violations -/

theorem sendAll_lost {T : Type} (w : List T) (m : Post T) (hm : m.box.length ≤ m.cap) :
    m.box.length + w.length + m.lost.length ≤ m.cap + (m.sendAll w).lost.length := by
  induction w generalizing m with
  | nil => simp only [Post.sendAll, List.foldl_nil, List.length_nil]; omega
  | cons x w ih =>
    by_cases h : m.isOpen = true ∧ m.box.length < m.cap
    · have e : m.send x = { m with box := m.box ++ [x] } := by unfold Post.send; rw [if_pos h]
      have := ih (m.send x) (by rw [e]; simp only [List.length_append, List.length_cons, List.length_nil]; omega)
      simp only [Post.sendAll, List.foldl_cons] at this ⊢
      rw [e] at this ⊢
      simp only [List.length_append, List.length_cons, List.length_nil] at this ⊢
      omega
    · have e : m.send x = { m with lost := m.lost ++ [x] } := by unfold Post.send; rw [if_neg h]
      have := ih (m.send x) (by rw [e]; exact hm)
      simp only [Post.sendAll, List.foldl_cons] at this ⊢
      rw [e] at this ⊢
      simp only [List.length_append, List.length_cons, List.length_nil] at this ⊢
      omega

theorem enqs_count (ds : List (NodeEdit U α)) (p : List (Vertex U α) × Post (List U)) (hi : ∀ d ∈ ds, d.index < p.1.length) :
    ∃ w, (ds.foldl (fun p d => enqBack S p d.index d) p).2 = p.2.sendAll w ∧
      w.length + vPend (ds.foldl (fun p d => enqBack S p d.index d) p).1 = vPend p.1 + ePend ds := by
  induction ds generalizing p with
  | nil => exact ⟨[], rfl, by simp [ePend]⟩
  | cons d ds ih =>
    obtain ⟨w, h1, h2⟩ := ih (enqBack S p d.index d) (fun x hx => by rw [enqBack_length]; exact hi x (List.mem_cons_of_mem _ hx))
    have hlt := hi d (List.mem_cons_self ..)
    have hv : p.1[d.index]? = some p.1[d.index] := List.getElem?_eq_getElem hlt
    obtain ⟨h3, h4⟩ := vPend_set p.1 d.index p.1[d.index] { p.1[d.index] with eng := p.1[d.index].eng.enqueue S d } hv
    have he : engPend (p.1[d.index].eng.enqueue S d) + (Eng.unseated p.1[d.index].eng).toList.length = engPend p.1[d.index].eng + d.unit.toList.length := by
      generalize p.1[d.index] = v
      obtain ⟨⟨u, ph, ⟨nu, _, _, _, _⟩, ⟨lu, _, _, _, _⟩⟩, _⟩ := v
      cases nu <;> cases lu <;> simp [Eng.enqueue, Eng.unseated, engPend] <;> omega
    have e1 : enqBack S p d.index d = (p.1.set d.index { p.1[d.index] with eng := p.1[d.index].eng.enqueue S d }, p.2.sendUnit (Eng.unseated p.1[d.index].eng)) := by
      simp only [enqBack, hv]
    have h3' : vPend (enqBack S p d.index d).1 + engPend p.1[d.index].eng = vPend p.1 + engPend (p.1[d.index].eng.enqueue S d) := by rw [e1]; exact h3
    have h5 : (enqBack S p d.index d).2 = p.2.sendUnit (Eng.unseated p.1[d.index].eng) := by rw [e1]
    refine ⟨(Eng.unseated p.1[d.index].eng).toList.map ([·]) ++ w, ?_, ?_⟩
    · rw [List.foldl_cons, h1, h5]
      cases Eng.unseated p.1[d.index].eng <;> rfl
    · rw [List.foldl_cons]
      simp only [ePend, List.map_cons, List.sum_cons, List.length_append, List.length_map] at h2 ⊢
      omega

theorem vPend_le (vs : List (Vertex U α)) : vPend vs ≤ 2 * vs.length := by
  induction vs with
  | nil => simp [vPend]
  | cons v vs ih =>
    have : engPend v.eng ≤ 2 := by
      unfold engPend
      cases v.eng.next.unit <;> cases v.eng.latest.unit <;> simp
    simp only [vPend, List.map_cons, List.sum_cons, List.length_cons] at ih ⊢
    omega

theorem send_lost {T : Type} (m : Post T) (x : T) (h : m.lost ≠ []) : (m.send x).lost ≠ [] := by
  unfold Post.send
  split
  · exact h
  · simp

theorem ticks_lost (sr : α) (x : List α) (l : List Nat) (p : List (Vertex U α) × Post (List U)) (h : p.2.lost ≠ []) :
    (l.foldl (tickBack S sr x) p).2.lost ≠ [] := by
  induction l generalizing p with
  | nil => exact h
  | cons i l ih =>
    refine ih _ ?_
    simp only [tickBack]
    split
    · rename_i v _
      cases Eng.retiredTick S sr v.eng ((v.source.take v.ins).map (fun e => readPort S p.1 x e.source)) with
      | none => exact h
      | some u => exact send_lost _ _ h
    · exact h

/-- **C114, the code violates it** (full channel): whenever one commit has at least `cap` (1024) crossfades and two more for each node before and after it, the
next sample frees units in the thread of the backend. For all networks. -/
theorem C114_violation_net [DecidableEq α] (cap : Nat) (hcap : 0 < cap) (n0 n : Net U α) (hn : Fit n)
    (hf : cap + 2 * (n0.vertex.length + n.vertex.length) ≤ fadesIn n) (x : List α) :
    ((NetSt.new cap n0).run S P cap [.commit n, .tick x]).post.lost ≠ [] := by
  have e : (NetSt.new cap n0).step S P cap (.commit n) = ⟨[.net n], n0, .new cap⟩ := by
    exact (if_pos (show ([] : List (Net.Msg U α)).length < cap from hcap)).trans rfl
  show (((NetSt.new cap n0).step S P cap (.commit n)).step S P cap (.tick x)).post.lost ≠ []
  rw [e]
  refine ticks_lost _ _ _ _ ?_
  have hlen := (swap_labs (lab := fun _ : U => 0) n0 n n0.nodeIndex (n0.vertex, n.vertex)).2
  have hs := swap_pend n0 n n0.nodeIndex (n0.vertex, n.vertex)
  obtain ⟨w, h1, h2⟩ := enqs_count (S := S) n.editQueue ((swapNets n0 n).2.vertex, Post.new cap) (fun d hd => by
    have := hn.1 d hd
    simpa only [swapNets, hlen.2] using this)
  have hl := enqs_length (S := S) n.editQueue ((swapNets n0 n).2.vertex, Post.new (T := List U) cap)
  have hb := vPend_le (n.editQueue.foldl (fun p d => enqBack S p d.index d) ((swapNets n0 n).2.vertex, Post.new (T := List U) cap)).1
  have hb2 := vPend_le (swapNets n0 n).1.vertex
  have hlost := sendAll_lost (w ++ [netUnits (swapNets n0 n).1]) (Post.new (T := List U) cap) (Nat.zero_le _)
  have hfin : (netHandle S [.net n] n0 (.new cap)).2 = (Post.new cap).sendAll (w ++ [netUnits (swapNets n0 n).1]) := by
    show (n.editQueue.foldl (fun p d => enqBack S p d.index d) ((swapNets n0 n).2.vertex, Post.new cap)).2.send (netUnits (swapNets n0 n).1) = _
    rw [h1]
    simp [Post.sendAll, List.foldl_append]
  simp only
  rw [hfin]
  intro h0
  rw [h0] at hlost
  simp only [List.length_append, List.length_cons, List.length_nil, Post.new] at hlost
  have hfi : fadesIn n = vPend n.vertex + ePend n.editQueue := rfl
  rw [hl] at hb
  simp only [swapNets, hlen.1, hlen.2] at hs hb hb2 h2
  omega

/-- **C114, the code violates it** (frontend dropped): the first commit that is handled after the frontend is gone frees the previous network in the thread
of the backend. For all networks. -/
theorem C114_violation_net_dropped [DecidableEq α] (cap : Nat) (hcap : 0 < cap) (n0 n : Net U α) (x : List α) :
    (((NetSt.new cap n0).run S P cap [.commit n]).close.run S P cap [.tick x]).post.lost ≠ [] := by
  have e : ((NetSt.new cap n0).run S P cap [.commit n]).close = ⟨[.net n], n0, (Post.new cap).close⟩ := by
    have e0 : (NetSt.new cap n0).step S P cap (.commit n) = ⟨[.net n], n0, .new cap⟩ :=
      (if_pos (show ([] : List (Net.Msg U α)).length < cap from hcap)).trans rfl
    show ((NetSt.new cap n0).step S P cap (.commit n)).close = _
    rw [e0]; rfl
  rw [e]
  refine ticks_lost _ _ _ _ ?_
  have hopen : ∀ (ds : List (NodeEdit U α)) (p : List (Vertex U α) × Post (List U)), p.2.isOpen = false →
      (ds.foldl (fun p d => enqBack S p d.index d) p).2.isOpen = false := by
    intro ds
    induction ds with
    | nil => intro p h; exact h
    | cons d ds ih =>
      intro p h
      refine ih _ ?_
      show (enqBack S p d.index d).2.isOpen = false
      unfold enqBack
      split
      · rename_i v _
        cases Eng.unseated v.eng with
        | none => exact h
        | some u =>
          show (p.2.send [u]).isOpen = false
          unfold Post.send
          split <;> exact h
      · exact h
  show ((n.editQueue.foldl (fun p d => enqBack S p d.index d) ((swapNets n0 n).2.vertex, (Post.new cap).close)).2.send (netUnits (swapNets n0 n).1)).lost ≠ []
  have := hopen n.editQueue ((swapNets n0 n).2.vertex, (Post.new cap).close) rfl
  unfold Post.send
  rw [if_neg (by rw [this]; simp)]
  simp

/-- **C114** (networks, the frontend frees): in whatever state, every commit frees all networks and units that have come back, in the thread of the
frontend: none is left in the channel. -/
theorem C114_net_freed [DecidableEq α] (cap : Nat) (s : NetSt U α) (n : Net U α) :
    let t := s.step S P cap (.commit n)
    t.post.box = [] ∧ t.post.lost = s.post.lost ∧ ∀ l ∈ s.post.taken ++ s.post.box, l ∈ t.post.taken := by
  intro t
  have ht : t = if s.queue.length < cap then ⟨s.queue ++ [.net n], s.net, s.post.drain⟩ else ⟨s.queue, s.net, s.post.drain.free (netUnits n)⟩ := rfl
  rw [ht]
  split
  · exact ⟨rfl, rfl, fun l hl => hl⟩
  · exact ⟨rfl, rfl, fun l hl => List.mem_append_left _ hl⟩

end Fundsp.Mail
