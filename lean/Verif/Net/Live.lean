import Verif.Net.RateProps

/-!
# Clones of units with a live connection

Units that hold the receiving end of a channel — `Ring` (`ring.rs:14-20`), `SettingListener` (`setting.rs:248-257`), `SlotBackend`
(`slot.rs:110-132`), `SequencerBackend` (`realseq.rs:34-45`), `NetBackend` (`realnet.rs:39-50`) — get a dummy channel when they are cloned: a clone
is not connected to anything. `Net::backend` and `Net::commit` clone the net and exchange the vertices (`net.rs:1105,1151`), so that the originals
go to the backend and the frontend keeps the clones. `Net/Backend` leaves that out; here the exchange is modelled on top of it.
-/
namespace Fundsp.Net
variable {U α : Type}

/-- Cloning the units of a vertex, `#[derive(Clone)]` of `Vertex` (`vertex.rs:13`): `c` is what `Clone` makes of a unit. -/
def Eng.clone (c : U → U) (e : Eng U α) : Eng U α :=
  { e with unit := c e.unit, next := { e.next with unit := e.next.unit.map c }, latest := { e.latest with unit := e.latest.unit.map c } }

/-- The frontend after the vertices were exchanged with those of its clone, `net.rs:1102-1105` and `net.rs:1133,1151`. -/
def cloneFront (c : U → U) (net : Net U α) : Net U α :=
  { net with vertex := net.vertex.map (fun v => { v with eng := v.eng.clone c }) }

/-- What the units do does not make an original a clone; a dummy unit counts as original. -/
structure Originals (S : Units U α) (P : Proc U α) (org : U → Prop) : Prop where
  setSR : ∀ r u, org u → org (S.setSR r u)
  reset : ∀ u, org u → org (S.reset u)
  ping : ∀ p h u, org u → org (S.ping p h u).1
  tick : ∀ u x, org u → org (S.utick u x).1
  proc : ∀ u size x old, org u → org (P u size x old).1
  dummy : ∀ i o, org (S.dummy i o)

/-- The unit of a node and the units that are to be faded in there are originals. -/
def EngOrg (org : U → Prop) (e : Eng U α) : Prop :=
  org e.unit ∧ (∀ u, e.next.unit = some u → org u) ∧ ∀ u, e.latest.unit = some u → org u

/-- No unit waits to be faded in. -/
def Idle (e : Eng U α) : Prop := e.next.unit = none ∧ e.latest.unit = none

theorem Idle.org {org : U → Prop} {e : Eng U α} (h : Idle e) (hu : org e.unit) : EngOrg org e :=
  ⟨hu, fun u hu => (by rw [h.1] at hu; cases hu), fun u hu => (by rw [h.2] at hu; cases hu)⟩

theorem Idle.clone {e : Eng U α} (h : Idle e) (c : U → U) : Idle (e.clone c) := by
  refine ⟨?_, ?_⟩
  · show e.next.unit.map c = none; rw [h.1]; rfl
  · show e.latest.unit.map c = none; rw [h.2]; rfl

/-! ## Frontend -/

/-- Nodes of the frontend are idle, and have their original unit or satisfy `L`. Queued edits bring originals. -/
structure FrontInv (org : U → Prop) (L : NodeId → Nat → Prop) (net : Net U α) : Prop where
  back : net.hasBackend = true
  idle : ∀ v ∈ net.vertex, Idle v.eng
  node : ∀ v ∈ net.vertex, org v.eng.unit ∨ L v.id v.changed
  queue : ∀ d ∈ net.editQueue, ∀ u, d.unit = some u → org u

theorem FrontInv.heard {org : U → Prop} {L : NodeId → Nat → Prop} {a b : Net U α} (h : FrontInv org L a) (hh : Heard a b)
    (hb : b.hasBackend = a.hasBackend) : FrontInv org L b := by
  refine ⟨hb.trans h.back, fun v hv => ?_, fun v hv => ?_, fun d hd => h.queue d (hh.queue d hd)⟩
  · obtain ⟨w, hw, e⟩ := hh.vertex v hv
    rw [e.eng]; exact h.idle w hw
  · obtain ⟨w, hw, e⟩ := hh.vertex v hv
    rw [e.eng, e.id, e.changed]; exact h.node w hw

/-- The units that a call passes to the net. -/
def Edit.given : Edit U α → List U
  | .push u => [u]
  | .fadeIn _ _ u => [u]
  | .chain u => [u]
  | .replace _ u => [u]
  | .crossfade _ _ _ u => [u]
  | _ => []

/-- Calls that make the whole net be sent anew: `reset`, and a change of sample rate. -/
def Edit.Renews [DecidableEq α] (net : Net U α) : Edit U α → Prop
  | .reset => True
  | .setSampleRate r => net.sampleRate ≠ r
  | _ => False

theorem front_push {S : Units U α} {P : Proc U α} {org : U → Prop} (ho : Originals S P org) {L : NodeId → Nat → Prop} {net : Net U α}
    (h : FrontInv org L net) (id : NodeId) {u : U} (hu : org u) : FrontInv org L (push S net id u) := by
  refine ⟨h.back, fun v hv => ?_, fun v hv => ?_, h.queue⟩
  · rcases List.mem_append.1 hv with hv | hv
    · exact h.idle v hv
    · rw [List.mem_singleton] at hv; subst hv; exact ⟨rfl, rfl⟩
  · rcases List.mem_append.1 hv with hv | hv
    · exact h.node v hv
    · rw [List.mem_singleton] at hv; subst hv; exact Or.inl (ho.setSR _ _ hu)

theorem front_crossfade {S : Units U α} {P : Proc U α} {org : U → Prop} (ho : Originals S P org) {L : NodeId → Nat → Prop} {net net' : Net U α}
    (h : FrontInv org L net) {id : NodeId} {f : Fade} {t : α} {u : U} (hu : org u) (he : crossfade S net id f t u = some net') :
    FrontInv org L net' := by
  simp only [crossfade, Option.bind_eq_bind, Option.bind_eq_some_iff] at he
  obtain ⟨i, _, v, hv, he⟩ := he
  split at he
  · rw [if_pos h.back] at he
    cases he
    refine ⟨h.back, h.idle, h.node, fun d hd => ?_⟩
    rcases List.mem_append.1 hd with hd | hd
    · exact h.queue d hd
    · rw [List.mem_singleton] at hd; subst hd
      intro u hu'; cases hu'; exact ho.setSR _ _ hu
  · cases he

theorem front_chain {S : Units U α} {P : Proc U α} {org : U → Prop} (ho : Originals S P org) {L : NodeId → Nat → Prop} {net net' : Net U α}
    (h : FrontInv org L net) {id : NodeId} {u : U} (hu : org u) (he : chain S net id u = some net') : FrontInv org L net' := by
  simp only [chain, Option.bind_eq_bind, Option.bind_eq_some_iff] at he
  obtain ⟨i, _, he⟩ := he
  have hp := front_push ho h id hu
  by_cases h1 : (push S net id u).vertex.length = 1
  · rw [if_pos h1] at he
    by_cases h0 : (push S net id u).inputs > 0
    · rw [if_pos h0, Option.bind_eq_some_iff] at he
      obtain ⟨y, hy, he⟩ := he
      have := hp.heard (heard_pipeInput hy) (rest_pipeInput hy).1.back
      exact this.heard (heard_pipeOutput he) (rest_pipeOutput he).1.back
    · rw [if_neg h0] at he
      exact hp.heard (heard_pipeOutput he) (rest_pipeOutput he).1.back
  · rw [if_neg h1] at he
    rw [Option.bind_some] at he
    have hb := (rest_pipeOutput he).1.back
    refine FrontInv.heard ?_ (heard_pipeOutput he) hb
    refine hp.heard (heard_modify (push S net id u) i _ ?_ rfl rfl rfl) rfl
    intro v; exact ⟨rfl, rfl, rfl⟩

theorem front_replace {S : Units U α} {P : Proc U α} {org : U → Prop} (ho : Originals S P org) {L : NodeId → Nat → Prop} {net net' : Net U α}
    (h : FrontInv org L net) {n : NodeId} {u old : U} (hu : org u) (he : replace S net n u = some (net', old)) : FrontInv org L net' := by
  simp only [replace, Option.bind_eq_bind, Option.bind_eq_some_iff] at he
  obtain ⟨i, _, v, hv, he⟩ := he
  split at he
  · cases he
    refine ⟨h.back, fun w hw => ?_, fun w hw => ?_, h.queue⟩
    · rcases List.mem_or_eq_of_mem_set hw with hw | rfl
      · exact h.idle w hw
      · exact h.idle v (List.mem_of_getElem? hv)
    · rcases List.mem_or_eq_of_mem_set hw with hw | rfl
      · exact h.node w hw
      · exact Or.inl (ho.setSR _ _ hu)
  · cases he

/-- A step of the vertices that keeps ids and stamps, keeps idle nodes idle and originals originals. -/
def Mild (org : U → Prop) (vs ws : List (Vertex U α)) : Prop :=
  ∀ w ∈ ws, ∃ v ∈ vs, w.id = v.id ∧ w.changed = v.changed ∧ (Idle v.eng → Idle w.eng ∧ (org v.eng.unit → org w.eng.unit))

theorem Mild.refl (org : U → Prop) (vs : List (Vertex U α)) : Mild org vs vs := fun w hw => ⟨w, hw, rfl, rfl, fun h => ⟨h, fun h => h⟩⟩
theorem Mild.trans {org : U → Prop} {a b c : List (Vertex U α)} (h : Mild org a b) (h' : Mild org b c) : Mild org a c := by
  intro w hw
  obtain ⟨v, hv, e1, e2, e3⟩ := h' w hw
  obtain ⟨u, hu, f1, f2, f3⟩ := h v hv
  refine ⟨u, hu, e1.trans f1, e2.trans f2, fun hi => ?_⟩
  obtain ⟨i1, o1⟩ := f3 hi
  obtain ⟨i2, o2⟩ := e3 i1
  exact ⟨i2, fun x => o2 (o1 x)⟩

theorem FrontInv.mild {org : U → Prop} {L : NodeId → Nat → Prop} {a b : Net U α} (h : FrontInv org L a) (hm : Mild org a.vertex b.vertex)
    (hb : b.hasBackend = a.hasBackend) (hq : b.editQueue = a.editQueue) : FrontInv org L b := by
  refine ⟨hb.trans h.back, fun w hw => ?_, fun w hw => ?_, fun d hd => h.queue d (hq ▸ hd)⟩
  · obtain ⟨v, hv, _, _, e⟩ := hm w hw
    exact (e (h.idle v hv)).1
  · obtain ⟨v, hv, e1, e2, e⟩ := hm w hw
    rw [e1, e2]
    exact (h.node v hv).imp (e (h.idle v hv)).2 (fun x => x)

theorem mild_pingAll {S : Units U α} {P : Proc U α} {org : U → Prop} (ho : Originals S P org) (p : Bool) (vs : List (Vertex U α)) :
    ∀ hash, Mild org vs (pingAll S p hash vs).1 := by
  induction vs with
  | nil => intro hash v hv; cases hv
  | cons w vs ih =>
    intro hash v hv
    simp only [pingAll] at hv
    rcases List.mem_cons.1 hv with rfl | hv
    · exact ⟨w, List.mem_cons_self, rfl, rfl, fun h => ⟨h, ho.ping _ _ _⟩⟩
    · obtain ⟨u, hu, e⟩ := ih _ v hv
      exact ⟨u, List.mem_cons_of_mem _ hu, e⟩

theorem mild_ready {S : Units U α} {P : Proc U α} {org : U → Prop} (ho : Originals S P org) (seed : Nat → Nat) (hash0 : Nat) (net : Net U α) :
    Mild org net.vertex (ready S seed hash0 net).vertex := by
  unfold ready
  split
  · exact .refl _ _
  · refine Mild.trans (Mild.trans (fun w hw => ?_) (mild_pingAll ho true _ _)) (mild_pingAll ho false _ _)
    obtain ⟨v, hv, rfl⟩ := List.mem_map.1 hw
    exact ⟨v, hv, rfl, rfl, fun h => ⟨h, fun h => h⟩⟩

theorem ready_queue (S : Units U α) (seed : Nat → Nat) (hash0 : Nat) (net : Net U α) : (ready S seed hash0 net).editQueue = net.editQueue := by
  unfold ready; split <;> rfl

theorem front_ready {S : Units U α} {P : Proc U α} {org : U → Prop} (ho : Originals S P org) {L : NodeId → Nat → Prop} {net : Net U α}
    (h : FrontInv org L net) (seed : Nat → Nat) (hash0 : Nat) : FrontInv org L (ready S seed hash0 net) :=
  h.mild (mild_ready ho seed hash0 net) (rest_ready S seed hash0 net).back (ready_queue S seed hash0 net)

theorem mild_ticks {S : Units U α} {P : Proc U α} {org : U → Prop} (ho : Originals S P org) (sr : α) (x : List α) (is : List Nat) :
    ∀ vs : List (Vertex U α), Mild org vs (is.foldl (tickNode S sr x) vs) := by
  induction is with
  | nil => intro vs; exact .refl _ _
  | cons i is ih =>
    intro vs
    refine Mild.trans (fun w hw => ?_) (ih _)
    rcases mem_modify hw with hw | ⟨v, hv, rfl⟩
    · exact ⟨w, hw, rfl, rfl, fun h => ⟨h, fun h => h⟩⟩
    · refine ⟨v, hv, rfl, rfl, fun hi => ?_⟩
      have key : ∀ y, (v.eng.tick S sr y).1 = { v.eng with unit := (S.utick v.eng.unit y).1 } := by
        intro y; simp only [Eng.tick, hi.1]
      show Idle (v.eng.tick S sr _).1 ∧ (org v.eng.unit → org (v.eng.tick S sr _).1.unit)
      rw [key]
      exact ⟨hi, ho.tick _ _⟩

theorem front_edit [DecidableEq α] {E : Env U α} {P : Proc U α} {org : U → Prop} (ho : Originals E.S P org) {L : NodeId → Nat → Prop}
    {n m : NodeId} {net net' : Net U α} (h : FrontInv org L net) (e : Edit U α) (hg : ∀ u ∈ e.given, org u) (hn : ¬ e.Renews net)
    (ha : e.apply E n net = some (net', m)) (hb : net'.hasBackend = net.hasBackend) : FrontInv org L net' := by
  cases e <;> simp only [Edit.apply, Option.map_eq_some_iff, Option.some.injEq, Prod.mk.injEq] at ha
  case push u => obtain ⟨rfl, _⟩ := ha; exact front_push ho h _ (hg u (by simp [Edit.given]))
  case fadeIn f t u =>
    obtain ⟨x, hx, rfl, _⟩ := ha
    unfold fadeIn at hx
    exact front_crossfade ho (front_push ho h _ (ho.dummy _ _)) (hg u (by simp [Edit.given])) hx
  case chain u => obtain ⟨x, hx, rfl, _⟩ := ha; exact front_chain ho h (hg u (by simp [Edit.given])) hx
  case setSource a b c => obtain ⟨x, hx, rfl, _⟩ := ha; exact h.heard (heard_setSource hx) hb
  case setOutputSource a b => obtain ⟨x, hx, rfl, _⟩ := ha; exact h.heard (heard_setOutputSource hx) hb
  case remove a => obtain ⟨x, hx, rfl, _⟩ := ha; exact h.heard (heard_remove hx) hb
  case removeLink a => obtain ⟨x, hx, rfl, _⟩ := ha; exact h.heard (heard_remove hx) hb
  case replace a u => obtain ⟨x, hx, rfl, _⟩ := ha; exact front_replace ho h (hg u (by simp [Edit.given])) hx
  case crossfade a f t u => obtain ⟨x, hx, rfl, _⟩ := ha; exact front_crossfade ho h (hg u (by simp [Edit.given])) hx
  case connect => obtain ⟨x, hx, rfl, _⟩ := ha; exact h.heard (heard_connect hx) hb
  case disconnect => obtain ⟨x, hx, rfl, _⟩ := ha; exact h.heard (heard_disconnect hx) hb
  case connectInput => obtain ⟨x, hx, rfl, _⟩ := ha; exact h.heard (heard_connectInput hx) hb
  case pipeInput => obtain ⟨x, hx, rfl, _⟩ := ha; exact h.heard (heard_pipeInput hx) hb
  case connectOutput => obtain ⟨x, hx, rfl, _⟩ := ha; exact h.heard (heard_connectOutput hx) hb
  case disconnectOutput => obtain ⟨x, hx, rfl, _⟩ := ha; exact h.heard (heard_disconnectOutput hx) hb
  case pipeOutput => obtain ⟨x, hx, rfl, _⟩ := ha; exact h.heard (heard_pipeOutput hx) hb
  case passThrough => obtain ⟨x, hx, rfl, _⟩ := ha; exact h.heard (heard_passThrough hx) hb
  case pipeAll => obtain ⟨x, hx, rfl, _⟩ := ha; exact h.heard (heard_pipeAll hx) hb
  case thru => obtain ⟨rfl, _⟩ := ha; exact h.heard (heard_same (a := net) (b := thru net) rfl rfl rfl) hb
  case error => obtain ⟨rfl, _⟩ := ha; exact front_ready ho h E.seed E.hash0
  case tick x =>
    obtain ⟨rfl, _⟩ := ha
    exact (front_ready ho h E.seed E.hash0).mild (b := (tick E.S E.seed E.hash0 net x).1) (mild_ticks ho _ _ _ _) rfl rfl
  case reset => exact absurd trivial hn
  case setSampleRate r =>
    obtain ⟨rfl, _⟩ := ha
    have : net.sampleRate = r := not_not.1 hn
    rw [setSampleRate, if_pos this]; exact h

/-! ## Backend -/

/-- All units of the nodes in `F` are originals. -/
def AllOrg (F : NodeId → Prop) (org : U → Prop) (net : Net U α) : Prop := ∀ v ∈ net.vertex, F v.id → EngOrg org v.eng

theorem last_or_settings (q : List (Msg U α)) : (∀ m ∈ q, ∃ k f, m = .setting k f) ∨ ∃ M, LastNet q M := by
  induction q with
  | nil => exact Or.inl (fun _ h => (nomatch h))
  | cons m q ih =>
    rcases ih with h | ⟨M, a, b, e, hb⟩
    · cases m with
      | net N => exact Or.inr ⟨N, [], q, rfl, h⟩
      | setting k f =>
        refine Or.inl (fun m hm => ?_)
        rcases List.mem_cons.1 hm with rfl | hm
        · exact ⟨k, f, rfl⟩
        · exact h m hm
    · exact Or.inr ⟨M, m :: a, b, by rw [e]; rfl, hb⟩

theorem LastNet.mem {q : List (Msg U α)} {M : Net U α} (h : LastNet q M) : .net M ∈ q := by
  obtain ⟨a, b, rfl, _⟩ := h; simp

theorem org_pingAll {S : Units U α} {P : Proc U α} {F : NodeId → Prop} {org : U → Prop} (ho : Originals S P org) (p : Bool) (vs : List (Vertex U α))
    (h : ∀ v ∈ vs, F v.id → EngOrg org v.eng) : ∀ hash, ∀ v ∈ (pingAll S p hash vs).1, F v.id → EngOrg org v.eng := by
  induction vs with
  | nil => intro hash v hv; cases hv
  | cons w vs ih =>
    intro hash v hv hF
    simp only [pingAll] at hv
    rcases List.mem_cons.1 hv with rfl | hv
    · have := h w List.mem_cons_self hF
      exact ⟨ho.ping _ _ _ this.1, this.2⟩
    · exact ih (fun x hx => h x (List.mem_cons_of_mem _ hx)) _ v hv hF

theorem org_ready {S : Units U α} {P : Proc U α} {F : NodeId → Prop} {org : U → Prop} (ho : Originals S P org) (seed : Nat → Nat) (hash0 : Nat) {net : Net U α}
    (h : AllOrg F org net) : AllOrg F org (ready S seed hash0 net) := by
  unfold ready
  split
  · exact h
  · refine org_pingAll ho _ _ (org_pingAll ho _ _ ?_ _) _
    intro v hv hF
    obtain ⟨w, hw, rfl⟩ := List.mem_map.1 hv
    exact h w hw hF

theorem engOrg_tick {S : Units U α} {P : Proc U α} {org : U → Prop} (ho : Originals S P org) {sr : α} {e : Eng U α} (h : EngOrg org e) (x : List α) :
    EngOrg org (e.tick S sr x).1 := by
  obtain ⟨h1, h2, h3⟩ := h
  have hu : org (S.utick e.unit x).1 := ho.tick _ _ h1
  unfold Eng.tick
  cases hn : e.next.unit with
  | none => exact ⟨hu, h2, h3⟩
  | some n =>
    have hq : org (S.utick n x).1 := ho.tick _ _ (h2 n hn)
    simp only
    split
    · exact ⟨hq, h3, fun u hu => (nomatch hu)⟩
    · exact ⟨hu, fun u hu => by cases hu; exact hq, h3⟩

theorem org_ticks {S : Units U α} {P : Proc U α} {F : NodeId → Prop} {org : U → Prop} (ho : Originals S P org) (sr : α) (x : List α) (is : List Nat) :
    ∀ vs : List (Vertex U α), (∀ v ∈ vs, F v.id → EngOrg org v.eng) → ∀ v ∈ is.foldl (tickNode S sr x) vs, F v.id → EngOrg org v.eng := by
  induction is with
  | nil => intro vs h; exact h
  | cons i is ih =>
    intro vs h
    refine ih _ (fun v hv hF => ?_)
    rcases mem_modify hv with hv | ⟨y, hy, rfl⟩
    · exact h v hv hF
    · exact engOrg_tick ho (h y hy hF) _

theorem org_tick {S : Units U α} {P : Proc U α} {F : NodeId → Prop} {org : U → Prop} (ho : Originals S P org) (seed : Nat → Nat) (hash0 : Nat) {net : Net U α}
    (h : AllOrg F org net) (x : List α) : AllOrg F org (tick S seed hash0 net x).1 :=
  org_ticks ho _ _ _ _ (org_ready ho seed hash0 h)

theorem engOrg_process {S : Units U α} {P : Proc U α} {org : U → Prop} (ho : Originals S P org) {sr : α} {e : Eng U α} (h : EngOrg org e)
    (outs size : Nat) (x old tmp : CBuf α) : EngOrg org (e.process S P sr outs size x old tmp).1 := by
  obtain ⟨h1, h2, h3⟩ := h
  have hu : org (P e.unit size x old).1 := ho.proc _ _ _ _ h1
  unfold Eng.process
  cases hn : e.next.unit with
  | none => exact ⟨hu, h2, h3⟩
  | some n =>
    have hq : org (P n size x tmp).1 := ho.proc _ _ _ _ (h2 n hn)
    simp only
    split
    · exact ⟨hq, h3, fun u hu => (nomatch hu)⟩
    · exact ⟨hu, fun u hu => by cases hu; exact hq, h3⟩

theorem org_process {S : Units U α} {P : Proc U α} {F : NodeId → Prop} {org : U → Prop} (ho : Originals S P org) (seed : Nat → Nat) (hash0 : Nat) {net : Net U α}
    (h : AllOrg F org net) (size : Nat) (x old : CBuf α) (tmp : Nat → CBuf α) : AllOrg F org (process S P seed hash0 net size x old tmp).1 := by
  have key : ∀ (is : List Nat) (sr : α) (vs : List (Vertex U α)), (∀ v ∈ vs, F v.id → EngOrg org v.eng) →
      ∀ v ∈ is.foldl (procNode S P sr x size tmp) vs, F v.id → EngOrg org v.eng := by
    intro is sr
    induction is with
    | nil => intro vs h; exact h
    | cons i is ih =>
      intro vs h
      refine ih _ (fun v hv hF => ?_)
      rcases mem_modify hv with hv | ⟨y, hy, rfl⟩
      · exact h v hv hF
      · have hy' := h y hy (by revert hF; split <;> exact fun h => h)
        split
        · exact engOrg_process ho hy' ..
        · exact engOrg_process ho hy' ..
  exact key _ _ _ (org_ready ho seed hash0 h)

theorem org_reset {S : Units U α} {P : Proc U α} {F : NodeId → Prop} {org : U → Prop} (ho : Originals S P org) (seed : Nat → Nat) (hash0 : Nat) {net : Net U α}
    (h : AllOrg F org net) : AllOrg F org (reset S seed hash0 net) := by
  refine org_ready ho seed hash0 (net := { net with vertex := _ }) (fun v hv hF => ?_)
  obtain ⟨w, hw, rfl⟩ := List.mem_map.1 hv
  exact ⟨ho.reset _ (h w hw hF).1, (h w hw hF).2⟩

theorem org_setSampleRate [DecidableEq α] {S : Units U α} {P : Proc U α} {F : NodeId → Prop} {org : U → Prop} (ho : Originals S P org) (seed : Nat → Nat) (hash0 : Nat)
    {net : Net U α} (h : AllOrg F org net) (r : α) : AllOrg F org (setSampleRate S seed hash0 net r) := by
  unfold setSampleRate
  split
  · exact h
  · refine org_ready ho seed hash0 (net := { net with sampleRate := r, vertex := _ }) (fun v hv hF => ?_)
    obtain ⟨w, hw, rfl⟩ := List.mem_map.1 hv
    exact ⟨ho.setSR _ _ (h w hw hF).1, (h w hw hF).2⟩

theorem engOrg_enqueueAll {S : Units U α} {org : U → Prop} (l : List (NodeEdit U α)) (hl : ∀ d ∈ l, ∀ u, d.unit = some u → org u) :
    ∀ e : Eng U α, EngOrg org e → EngOrg org (e.enqueueAll S l) := by
  induction l with
  | nil => intro e h; exact h
  | cons d l ih =>
    intro e h
    refine ih (fun x hx => hl x (List.mem_cons_of_mem _ hx)) _ ?_
    have hd := hl d List.mem_cons_self
    unfold Eng.enqueue
    split
    · exact ⟨h.1, h.2.1, hd⟩
    · exact ⟨h.1, hd, h.2.2⟩

theorem mem_editsIn {id : NodeId} (q : List (Msg U α)) {d : NodeEdit U α} (h : d ∈ editsIn id q) : ∃ M, .net M ∈ q ∧ d ∈ M.editQueue := by
  induction q with
  | nil => cases h
  | cons m q ih =>
    cases m with
    | net n =>
      rcases List.mem_append.1 h with h | h
      · exact ⟨n, List.mem_cons_self, (List.mem_filter.1 h).1⟩
      · obtain ⟨M, hM, hd⟩ := ih h; exact ⟨M, List.mem_cons_of_mem _ hM, hd⟩
    | setting k f => obtain ⟨M, hM, hd⟩ := ih h; exact ⟨M, List.mem_cons_of_mem _ hM, hd⟩

theorem org_settingsIn {org : U → Prop} (id : NodeId) (q : List (Msg U α)) (hq : ∀ k f, .setting k f ∈ q → ∀ u, org u → org (f u)) :
    ∀ u, org u → org (settingsIn id q u) := by
  induction q with
  | nil => intro u h; exact h
  | cons m q ih =>
    have ih := ih (fun k f hf => hq k f (List.mem_cons_of_mem _ hf))
    intro u h
    cases m with
    | net n => exact ih u h
    | setting k f =>
      simp only [settingsIn]
      refine ih _ ?_
      split
      · exact hq k f List.mem_cons_self u h
      · exact h

theorem MapOK.eng {net : Net U α} (h : MapOK net) {v : Vertex U α} (hv : v ∈ net.vertex) :
    ∃ i, net.nodeIndex.get v.id = some i ∧ net.vertex[i]? = some v ∧ engOf net v.id = some v.eng := by
  obtain ⟨i, hi⟩ := List.mem_iff_getElem?.1 hv
  have := (h.map v.id i).2 ⟨v, hi, rfl⟩
  exact ⟨i, this, hi, by simp [engOf, this, hi]⟩

theorem org_set {F : NodeId → Prop} {org : U → Prop} {net : Net U α} (h : AllOrg F org net) (id : NodeId) {f : U → U} (hf : ∀ u, org u → org (f u)) :
    AllOrg F org (set net id f) := by
  unfold set
  split
  · intro v hv hF
    rcases mem_modify hv with hv | ⟨y, hy, rfl⟩
    · exact h v hv hF
    · exact ⟨hf _ (h y hy hF).1, (h y hy hF).2⟩
  · exact h

/-- A message whose nodes in `F` are originals, or are left to the backend. -/
structure MsgInv (F : NodeId → Prop) (org : U → Prop) (back M : Net U α) : Prop where
  map : MapOK M
  index : Indexed M
  queue : ∀ d ∈ M.editQueue, ∀ u, d.unit = some u → org u
  node : ∀ v ∈ M.vertex, F v.id → EngOrg org v.eng ∨ (contains back v.id = true ∧ v.changed ≤ back.revision)

/-- What the channel may hold. -/
structure ChanInv (F : NodeId → Prop) (org : U → Prop) (back : Net U α) (q : List (Msg U α)) : Prop where
  set : ∀ k f, .setting k f ∈ q → ∀ u, org u → org (f u)
  net : ∀ M, .net M ∈ q → MsgInv F org back M

theorem org_handle {S : Units U α} {F : NodeId → Prop} {org : U → Prop} {back : Net U α} {q : List (Msg U α)} (hb : MapOK back)
    (h : AllOrg F org back) (hq : ChanInv F org back q) : AllOrg F org (handle S back q) ∧ MapOK (handle S back q) ∧
      ((∀ m ∈ q, ∃ k f, m = .setting k f) → SameNet back (handle S back q)) ∧ ∀ M, LastNet q M → SameNet M (handle S back q) := by
  rcases last_or_settings q with hs | ⟨M, hM⟩
  · have key : ∀ (q : List (Msg U α)), (∀ m ∈ q, ∃ k f, m = .setting k f) → (∀ k f, .setting k f ∈ q → ∀ u, org u → org (f u)) →
        ∀ b : Net U α, MapOK b → AllOrg F org b → ∃ b', q.foldl (recv S) (b, none) = (b', none) ∧ AllOrg F org b' ∧ SameNet b b' := by
      intro q
      induction q with
      | nil => intro _ _ b _ hb; exact ⟨b, rfl, hb, .refl b⟩
      | cons m q ih =>
        intro h1 h2 b hm hb
        obtain ⟨k, f, rfl⟩ := h1 m List.mem_cons_self
        have hsame := set_same b k f
        obtain ⟨b', e1, e2, e3⟩ := ih (fun m hm => h1 m (List.mem_cons_of_mem _ hm)) (fun k f hf => h2 k f (List.mem_cons_of_mem _ hf))
          (set b k f) (hm.same hsame.toSameWiring) (org_set hb k (h2 k f List.mem_cons_self))
        exact ⟨b', e1, e2, hsame.trans e3⟩
    obtain ⟨b', e1, e2, e3⟩ := key q hs hq.set back hb h
    have : handle S back q = b' := by simp only [handle, e1]
    rw [this]
    refine ⟨e2, hb.same e3.toSameWiring, fun _ => e3, fun M hM => ?_⟩
    obtain ⟨k, f, hk⟩ := hs (.net M) hM.mem
    cases hk
  · have hm := hq.net M hM.mem
    obtain ⟨k1, k2, k3, k4⟩ := handle_spec (S := S) hb hm.map hm.index hM
    have hmap : MapOK (handle S back q) := hm.map.same k1.toSameWiring
    refine ⟨fun v hv hF => ?_, hmap, fun hs => ?_, fun M' hM' =>
      (handle_spec (S := S) hb (hq.net M' hM'.mem).map (hq.net M' hM'.mem).index hM').1⟩
    · obtain ⟨i, hi, hvi, he⟩ := hmap.eng hv
      rw [k1.index] at hi
      obtain ⟨w, hw, hwid⟩ := (hm.map.map v.id i).1 hi
      have hed : ∀ d ∈ editsIn v.id q, ∀ u, d.unit = some u → org u := by
        intro d hd
        obtain ⟨N, hN, hd⟩ := mem_editsIn q hd
        exact (hq.net N hN).queue d hd
      have hed' : ∀ d ∈ editsOf v.id M.editQueue, ∀ u, d.unit = some u → org u := fun d hd => hm.queue d (List.mem_filter.1 hd).1
      have hspec := k4 v.id i w hi hw
      rw [he] at hspec
      have hnode := hm.node w (List.mem_of_getElem? hw) (hwid.symm ▸ hF)
      rw [hwid] at hnode
      have hnew : EngOrg org w.eng → some v.eng = some (w.eng.enqueueAll S (editsOf v.id M.editQueue)) → EngOrg org v.eng := by
        intro ho h
        rw [Option.some.inj h]; exact engOrg_enqueueAll _ hed' _ ho
      cases hx : engOf back v.id with
      | none =>
        rw [hx] at hspec
        have ho : EngOrg org w.eng := by
          refine hnode.resolve_right (fun h => ?_)
          obtain ⟨j, hj⟩ := Option.isSome_iff_exists.1 h.1
          obtain ⟨x, hx', _⟩ := (hb.map v.id j).1 hj
          simp [engOf, hj, hx'] at hx
        refine hnew ho ?_
        split at hspec <;> exact hspec
      | some e =>
        have heo : EngOrg org e := by
          simp only [engOf, Option.bind_eq_some_iff, Option.map_eq_some_iff] at hx
          obtain ⟨j, hj, x, hx', rfl⟩ := hx
          obtain ⟨y, hy, hid⟩ := (hb.map v.id j).1 hj
          rw [hx'] at hy; cases hy
          exact h x (List.mem_of_getElem? hx') (hid.symm ▸ hF)
        rw [hx] at hspec
        by_cases hc : w.changed ≤ back.revision
        · rw [if_pos hc] at hspec
          have := engOrg_enqueueAll (S := S) (editsIn v.id q) hed e heo
          rw [Option.some.inj hspec]
          exact ⟨org_settingsIn _ _ hq.set _ heo.1, this.2⟩
        · rw [if_neg hc] at hspec
          exact hnew (hnode.resolve_right (fun h => hc h.2)) hspec
    · obtain ⟨k, f, hk⟩ := hs (.net M) hM.mem
      cases hk

end Fundsp.Net
