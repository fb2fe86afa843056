import Verif.Net.Live
import Verif.Net.Demo
import Verif.Chan.Model

/-!
# C115: units with a live connection keep it in a net with a backend

`org u` says that `u` is the unit that was handed to the net, in whatever state it now is, and not a clone. What plays in the backend should be
originals only: clones of rings, listeners and backends are not connected to anything.
-/
namespace Fundsp.Net
variable {U α : Type}

/-! ## Specification -/

/-- Executions of the two threads, with the exchange of originals and clones. Units that are passed to the frontend are originals. The frontend is
not reset and its rate is not changed; its calls satisfy `allow`, and it commits in states that satisfy `may`. -/
inductive Sys.Live [DecidableEq α] (E : Env U α) (P : Proc U α) (c : U → U) (org : U → Prop) (may : Sys U α → Prop) (allow : Edit U α → Prop)
    (n0 : NodeId) (s0 : Sys U α) : NodeId → Sys U α → Prop
  | start : Live E P c org may allow n0 s0 n0 s0
  | edit {n m s f'} (h : Live E P c org may allow n0 s0 n s) (e : Edit U α) (hr : InRange s.front e) (hg : ∀ u ∈ e.given, org u)
      (hn : ¬ e.Renews s.front) (hl : allow e) (he : e.apply E n s.front = some (f', m)) :
      Live E P c org may allow n0 s0 m { s with front := f' }
  | commit {n s f' M} (h : Live E P c org may allow n0 s0 n s) (hq : may s) (hc : commit E s.front = some (f', M)) :
      Live E P c org may allow n0 s0 n { s with front := cloneFront c f', chan := s.chan ++ [.net M] }
  | setting {n s} (h : Live E P c org may allow n0 s0 n s) (id : NodeId) (f : U → U) (hf : ∀ u, org u → org (f u)) :
      Live E P c org may allow n0 s0 n { s with chan := s.chan ++ [.setting id f] }
  | tick {n s} (h : Live E P c org may allow n0 s0 n s) (x : List α) :
      Live E P c org may allow n0 s0 n { s with chan := [], back := (tick E.S E.seed E.hash0 (handle E.S s.back s.chan) x).1 }
  | process {n s} (h : Live E P c org may allow n0 s0 n s) (size : Nat) (x old : CBuf α) (tmp : Nat → CBuf α) :
      Live E P c org may allow n0 s0 n
        { s with chan := [], back := (process E.S P E.seed E.hash0 (handle E.S s.back s.chan) size x old tmp).1 }
  | reset {n s} (h : Live E P c org may allow n0 s0 n s) :
      Live E P c org may allow n0 s0 n { s with chan := [], back := handle E.S (reset E.S E.seed E.hash0 s.back) s.chan }
  | setSampleRate {n s} (h : Live E P c org may allow n0 s0 n s) (r : α) :
      Live E P c org may allow n0 s0 n { s with chan := [], back := handle E.S (setSampleRate E.S E.seed E.hash0 s.back r) s.chan }

/-- The backend has read all nets that were sent. -/
def Caught (s : Sys U α) : Prop := ∀ N, .net N ∉ s.chan

/-- The unit of node `id` is not replaced by this call. -/
def Spares (id : NodeId) (e : Edit U α) : Prop := ∀ u, e ≠ .replace id u

/-! ## Lemmas -/

/-- Node `id` with stamp `ch` is known to `K`. -/
def Known (K : Net U α) (id : NodeId) (ch : Nat) : Prop := contains K id = true ∧ ch ≤ K.revision

theorem Known.same {a b : Net U α} (h : SameNet a b) : Known b = Known a := by
  funext id ch
  simp only [Known, contains, h.index, h.rev]

theorem MsgInv.same {F : NodeId → Prop} {org : U → Prop} {a b M : Net U α} (h : SameNet a b) (hm : MsgInv F org a M) : MsgInv F org b M := by
  refine ⟨hm.map, hm.index, hm.queue, fun v hv hF => ?_⟩
  have := hm.node v hv hF
  rw [contains, h.index, h.rev]; exact this

theorem ChanInv.same {F : NodeId → Prop} {org : U → Prop} {a b : Net U α} {q : List (Msg U α)} (h : SameNet a b) (hq : ChanInv F org a q) :
    ChanInv F org b q := ⟨hq.set, fun M hM => (hq.net M hM).same h⟩

/-- The net whose nodes the frontend knows as sent: the one in the channel, or that of the backend. -/
def Latest (s : Sys U α) (K : Net U α) : Prop := ((∀ m ∈ s.chan, ∃ k f, m = .setting k f) ∧ K = s.back) ∨ LastNet s.chan K

structure LiveInv (E : Env U α) (org : U → Prop) (n : NodeId) (s : Sys U α) : Prop where
  wf : WF E.S n s.front
  stamped : Stamped s.front
  map : MapOK s.back
  back : AllOrg (fun _ => True) org s.back
  chan : ChanInv (fun _ => True) org s.back s.chan
  front : ∃ K, Latest s K ∧ FrontInv org (Known K) s.front

theorem latest_handle {S : Units U α} {F : NodeId → Prop} {org : U → Prop} {s : Sys U α} (hb : MapOK s.back) (h : AllOrg F org s.back)
    (hq : ChanInv F org s.back s.chan) {K : Net U α} (hK : Latest s K) : SameNet K (handle S s.back s.chan) := by
  obtain ⟨_, _, h1, h2⟩ := org_handle (S := S) hb h hq
  rcases hK with ⟨hs, rfl⟩ | hK
  · exact h1 hs
  · exact h2 K hK

theorem handle_known {S : Units U α} {F : NodeId → Prop} {org : U → Prop} {s : Sys U α} {b K : Net U α} (hs : SameNet s.back b) (hb : MapOK s.back) (h : AllOrg F org b)
    (hq : ChanInv F org s.back s.chan) (hK : Latest s K) :
    AllOrg F org (handle S b s.chan) ∧ MapOK (handle S b s.chan) ∧ Known (handle S b s.chan) = Known K := by
  obtain ⟨h1, h2, _⟩ := org_handle (S := S) (hb.same hs.toSameWiring) h (hq.same hs)
  refine ⟨h1, h2, ?_⟩
  have hl : ∀ {K}, Latest ⟨s.front, s.chan, b⟩ K → SameNet K (handle S b s.chan) := fun hK =>
    latest_handle (S := S) (s := ⟨s.front, s.chan, b⟩) (hb.same hs.toSameWiring) h (hq.same hs) hK
  rcases hK with ⟨e, rfl⟩ | hK
  · exact Known.same (hs.trans (hl (Or.inl ⟨e, rfl⟩)))
  · exact Known.same (hl (Or.inr hK))

theorem chanInv_nil (F : NodeId → Prop) (org : U → Prop) (b : Net U α) : ChanInv F org b [] := ⟨fun _ _ h => (nomatch h), fun _ h => (nomatch h)⟩

theorem wf_cloneFront {S : Units U α} {n : NodeId} {net : Net U α} (h : WF S n net) {c : U → U} (hc : ∀ u, S.ins (c u) = S.ins u ∧ S.outs (c u) = S.outs u) :
    WF S n (cloneFront c net) := by
  apply h.of_sameWiring
  · refine ⟨rfl, rfl, rfl, rfl, by simp [cloneFront], ?_⟩
    intro i v w hv hw
    simp only [cloneFront, List.getElem?_map, hv, Option.map_some, Option.some.injEq] at hw
    subst hw; exact ⟨rfl, rfl, rfl, rfl⟩
  · intro i w hw
    simp only [cloneFront, List.getElem?_map, Option.map_eq_some_iff] at hw
    obtain ⟨v, hv, rfl⟩ := hw
    obtain ⟨h1, h2⟩ := h.engFits hv
    refine ⟨?_, fun u hu => ?_⟩
    · exact ⟨h1.1.trans (hc _).1.symm, h1.2.trans (hc _).2.symm⟩
    · have : ∃ u', (v.eng.next.unit = some u' ∨ v.eng.latest.unit = some u') ∧ u = c u' := by
        rcases hu with hu | hu
        · obtain ⟨u', h1, h2⟩ := Option.map_eq_some_iff.1 hu
          exact ⟨u', Or.inl h1, h2.symm⟩
        · obtain ⟨u', h1, h2⟩ := Option.map_eq_some_iff.1 hu
          exact ⟨u', Or.inr h1, h2.symm⟩
      obtain ⟨u', hu', rfl⟩ := this
      rw [(hc _).1, (hc _).2]; exact h2 u' hu'

/-- The frontend after a message was sent. -/
theorem front_sent {E : Env U α} (hS : E.S.Lawful) {org : U → Prop} {n : NodeId} {f f' M : Net U α} (hw : WF E.S n f) (hst : Stamped f)
    (hs : Sent E f f' M) {c : U → U} (hc : ∀ u, E.S.ins (c u) = E.S.ins u ∧ E.S.outs (c u) = E.S.outs u) (hb : f'.hasBackend = true)
    (hi : ∀ v ∈ f'.vertex, Idle v.eng) (hq : f'.editQueue = [] ∨ ∀ d ∈ f'.editQueue, ∀ u, d.unit = some u → org u) :
    WF E.S n (cloneFront c f') ∧ Stamped (cloneFront c f') ∧ FrontInv org (Known M) (cloneFront c f') := by
  obtain ⟨a1, a2, a3, a4, a5, a6, a7, a8, a9, a10, a11⟩ := sent_struct hS hw hs
  have hlt := stamped_sent hS hw hst hs
  refine ⟨wf_cloneFront a1 hc, fun v hv => ?_, hb, fun v hv => ?_, fun v hv => ?_, fun d hd u hu => ?_⟩
  · obtain ⟨w, hwm, rfl⟩ := List.mem_map.1 hv
    exact le_of_lt (hlt w hwm)
  · obtain ⟨w, hwm, rfl⟩ := List.mem_map.1 hv
    exact (hi w hwm).clone c
  · obtain ⟨w, hwm, rfl⟩ := List.mem_map.1 hv
    right
    obtain ⟨i, h1, _, _⟩ := a1.valid.mapOK.eng hwm
    refine ⟨?_, ?_⟩
    · rw [contains, a4.index]
      exact Option.isSome_iff_exists.2 ⟨i, h1⟩
    · have := hlt w hwm
      rw [a10] at this
      rw [a9]
      exact Nat.le_of_lt_succ this
  · rcases hq with hq | hq
    · have : d ∈ f'.editQueue := hd
      rw [hq] at this; cases this
    · exact hq d hd u hu

theorem live_inv [DecidableEq α] {E : Env U α} (hS : E.S.Lawful) {P : Proc U α} {org : U → Prop} (ho : Originals E.S P org) {c : U → U}
    (hc : ∀ u, E.S.ins (c u) = E.S.ins u ∧ E.S.outs (c u) = E.S.outs u) {n0 n : NodeId} {f f1 b : Net U α} (hw : WF E.S n0 f) (hst : Stamped f)
    (hso : ∀ v ∈ f.vertex, org v.eng.unit) (hse : Settled f) (hb : backend E f = some (f1, b)) {s : Sys U α}
    (h : Sys.Live E P c org Caught (fun _ => True) n0 ⟨cloneFront c f1, [], b⟩ n s) : LiveInv E org n s := by
  induction h with
  | start =>
    obtain ⟨a1, a2, a3, a4, a5, a6, a7, a8, a9, a10, a11⟩ := sent_struct hS hw (Or.inl hb)
    have hfr : ∃ g : Net U α, g.vertex = f.vertex ∧ g.editQueue = f.editQueue ∧ g.hasBackend = true ∧
        f1 = { ready E.S E.seed E.hash0 g with revision := (ready E.S E.seed E.hash0 g).revision + 1 } ∧ b.vertex = (ready E.S E.seed E.hash0 g).vertex := by
      unfold backend at hb
      split at hb
      · cases hb
      · cases hb
        exact ⟨{ f with hasBackend := true, backendInputs := f.inputs, backendOutputs := f.outputs }, rfl, rfl, rfl, rfl, rfl⟩
    obtain ⟨g, g1, g2, g3, rfl, g5⟩ := hfr
    have hg : FrontInv org (fun _ _ => False) g := by
      refine ⟨g3, fun v hv => ?_, fun v hv => Or.inl (hso v (g1 ▸ hv)), fun d hd u hu => ?_⟩
      · exact hse.1 v (g1 ▸ hv)
      · rw [hse.2 d (g2 ▸ hd)] at hu; cases hu
    have hgr := front_ready ho hg E.seed E.hash0
    obtain ⟨k1, k2, k3⟩ := front_sent (org := org) hS hw hst (Or.inl hb) hc hgr.back hgr.idle (Or.inr hgr.queue)
    refine ⟨k1, k2, a2, fun v hv _ => ?_, chanInv_nil _ _ _, b, Or.inl ⟨fun _ h => (nomatch h), rfl⟩, k3⟩
    rw [g5] at hv
    exact (hgr.idle v hv).org ((hgr.node v hv).resolve_right (fun h => h))
  | edit _ e hr hg hn _ he ih =>
    obtain ⟨K, hK, hf⟩ := ih.front
    refine ⟨(wf_edit hS ih.wf e hr he).1, stamped_edit ih.wf ih.stamped e he, ih.map, ih.back, ih.chan, K, hK, ?_⟩
    exact front_edit ho hf e hg hn he (stamp_edit ih.wf.valid e he).back
  | @commit n s f' M _ hq hcm ih =>
    obtain ⟨K, hK, hf⟩ := ih.front
    have hset : ∀ m ∈ s.chan, ∃ k f, m = .setting k f := by
      intro m hm
      cases m with
      | net N => exact absurd hm (hq N)
      | setting k f => exact ⟨k, f, rfl⟩
    have hKb : K = s.back := by
      rcases hK with ⟨_, rfl⟩ | ⟨a, b, e, _⟩
      · rfl
      · exact absurd (show Msg.net K ∈ s.chan by rw [e]; simp) (hq K)
    subst hKb
    obtain ⟨a1, a2, a3, a4, a5, a6, a7, a8, a9, a10, a11⟩ := sent_struct hS ih.wf (Or.inr hcm)
    have hgr := front_ready ho hf E.seed E.hash0
    have hfr : f' = { ready E.S E.seed E.hash0 s.front with editQueue := [], revision := (ready E.S E.seed E.hash0 s.front).revision + 1 } ∧
        ∀ d ∈ M.editQueue, ∀ u, d.unit = some u → org u := by
      unfold Net.commit at hcm
      split at hcm
      · cases hcm
      · split at hcm
        · cases hcm
        · split at hcm
          · cases hcm
          · cases hcm
            refine ⟨rfl, fun d hd u hu => ?_⟩
            obtain ⟨e, he, hd⟩ := List.mem_filterMap.1 hd
            obtain ⟨i, _, rfl⟩ := Option.map_eq_some_iff.1 hd
            exact hgr.queue e he u hu
    obtain ⟨g1, g2⟩ := hfr
    have hfb : f'.hasBackend = true := by rw [g1]; exact hgr.back
    have hfi : ∀ v ∈ f'.vertex, Idle v.eng := by rw [g1]; exact hgr.idle
    obtain ⟨k1, k2, k3⟩ := front_sent (org := org) hS ih.wf ih.stamped (Or.inr hcm) hc hfb hfi (Or.inl (by rw [g1]))
    have hlast : LastNet (s.chan ++ [.net M]) M := ⟨s.chan, [], rfl, fun _ h => (nomatch h)⟩
    refine ⟨k1, k2, ih.map, ih.back, ⟨fun k f hkf => ?_, fun N hN => ?_⟩, M, Or.inr hlast, k3⟩
    · rcases List.mem_append.1 hkf with h | h
      · exact ih.chan.set k f h
      · rw [List.mem_singleton] at h; cases h
    · rcases List.mem_append.1 hN with h | h
      · exact absurd h (hq N)
      · rw [List.mem_singleton] at h; cases h
        refine ⟨a2, a3, g2, fun v hv _ => ?_⟩
        rw [a6, g1] at hv
        exact (hgr.node v hv).imp (fun h => (hgr.idle v hv).org h) (fun h => h)
  | @setting n s _ id f hf ih =>
    obtain ⟨K, hK, hfr⟩ := ih.front
    have hl : ∀ N, LastNet s.chan N → LastNet (s.chan ++ [.setting id f]) N := by
      rintro N ⟨a, b, e, hb⟩
      refine ⟨a, b ++ [.setting id f], by rw [e]; simp, fun m hm => ?_⟩
      rcases List.mem_append.1 hm with h | h
      · exact hb m h
      · rw [List.mem_singleton] at h; exact ⟨id, f, h⟩
    have hall : (∀ m ∈ s.chan, ∃ k f, m = .setting k f) → ∀ m ∈ s.chan ++ [.setting id f], ∃ k f, m = .setting k f := by
      intro hs m hm
      rcases List.mem_append.1 hm with h | h
      · exact hs m h
      · rw [List.mem_singleton] at h; exact ⟨id, f, h⟩
    refine ⟨ih.wf, ih.stamped, ih.map, ih.back, ⟨fun k g hkg => ?_, fun N hN => ?_⟩, K, ?_, hfr⟩
    · rcases List.mem_append.1 hkg with h | h
      · exact ih.chan.set k g h
      · rw [List.mem_singleton] at h; cases h; exact hf
    · rcases List.mem_append.1 hN with h | h
      · exact ih.chan.net _ h
      · rw [List.mem_singleton] at h; cases h
    · exact hK.imp (fun ⟨h1, h2⟩ => ⟨hall h1, h2⟩) (hl K)
  | tick _ x ih =>
    obtain ⟨K, hK, hf⟩ := ih.front
    have hs := (C11_stays hS P (latest_handle (S := E.S) ih.map ih.back ih.chan hK)).1 x
    obtain ⟨h1, h2, _⟩ := org_handle (S := E.S) ih.map ih.back ih.chan
    have hm := h2.same ((C11_stays hS P (.refl _)).1 x).toSameWiring
    exact ⟨ih.wf, ih.stamped, hm, org_tick ho _ _ h1 x, chanInv_nil _ _ _, _, Or.inl ⟨fun _ h => (nomatch h), rfl⟩, by rw [Known.same hs]; exact hf⟩
  | process _ size x old tmp ih =>
    obtain ⟨K, hK, hf⟩ := ih.front
    have hs := (C11_stays hS P (latest_handle (S := E.S) ih.map ih.back ih.chan hK)).2.1 size x old tmp
    obtain ⟨h1, h2, _⟩ := org_handle (S := E.S) ih.map ih.back ih.chan
    have hm := h2.same ((C11_stays hS P (.refl _)).2.1 size x old tmp).toSameWiring
    exact ⟨ih.wf, ih.stamped, hm, org_process ho _ _ h1 size x old tmp, chanInv_nil _ _ _, _, Or.inl ⟨fun _ h => (nomatch h), rfl⟩,
      by rw [Known.same hs]; exact hf⟩
  | @reset n s _ ih =>
    obtain ⟨K, hK, hf⟩ := ih.front
    have hs0 := (C11_stays hS P (.refl s.back)).2.2.1
    obtain ⟨h1, h2, h3⟩ := handle_known (S := E.S) hs0 ih.map (org_reset ho E.seed E.hash0 ih.back) ih.chan hK
    exact ⟨ih.wf, ih.stamped, h2, h1, chanInv_nil _ _ _, _, Or.inl ⟨fun _ h => (nomatch h), rfl⟩, by rw [h3]; exact hf⟩
  | @setSampleRate n s _ r ih =>
    obtain ⟨K, hK, hf⟩ := ih.front
    have hs0 := (C11_stays hS P (.refl s.back)).2.2.2.1 r
    obtain ⟨h1, h2, h3⟩ := handle_known (S := E.S) hs0 ih.map (org_setSampleRate ho E.seed E.hash0 ih.back r) ih.chan hK
    exact ⟨ih.wf, ih.stamped, h2, h1, chanInv_nil _ _ _, _, Or.inl ⟨fun _ h => (nomatch h), rfl⟩, by rw [h3]; exact hf⟩

/-! ### One node, any number of commits -/

/-- Node `id` is an original in the backend, and no net in the channel or the frontend has a version of it later than `r`. -/
structure NodeInv (E : Env U α) (org : U → Prop) (id : NodeId) (r : Nat) (n : NodeId) (s : Sys U α) : Prop where
  wf : WF E.S n s.front
  stamped : Stamped s.front
  front : FrontInv org (fun _ _ => True) s.front
  old : id < n
  map : MapOK s.back
  back : AllOrg (· = id) org s.back
  rev : r ≤ s.back.revision
  chan : ChanInv (· = id) org s.back s.chan
  msgRev : ∀ M, .net M ∈ s.chan → r ≤ M.revision
  frontRev : r ≤ s.front.revision
  node : ∀ v ∈ s.front.vertex, v.id = id → contains s.back id = true ∧ (∀ M, .net M ∈ s.chan → contains M id = true) ∧ v.changed ≤ r

theorem node_backend {E : Env U α} {org : U → Prop} {id : NodeId} {r : Nat} {n : NodeId} {s : Sys U α}
    (h : NodeInv E org id r n s) {a b : Net U α} (hs : SameNet s.back a) (ha : AllOrg (· = id) org a) (hb : SameNet (handle E.S a s.chan) b)
    (hbo : AllOrg (· = id) org (handle E.S a s.chan) → AllOrg (· = id) org b) : NodeInv E org id r n { s with chan := [], back := b } := by
  have hc := h.chan.same hs
  obtain ⟨h1, h2, h3, h4⟩ := org_handle (S := E.S) (h.map.same hs.toSameWiring) ha hc
  have key : r ≤ (handle E.S a s.chan).revision ∧
      (contains s.back id = true → (∀ M, .net M ∈ s.chan → contains M id = true) → contains (handle E.S a s.chan) id = true) := by
    rcases last_or_settings s.chan with hset | ⟨M, hM⟩
    · have := hs.trans (h3 hset)
      exact ⟨by rw [this.rev]; exact h.rev, fun hx _ => by rw [contains, this.index]; exact hx⟩
    · have := h4 M hM
      exact ⟨by rw [this.rev]; exact h.msgRev M hM.mem, fun _ hx => by rw [contains, this.index]; exact hx M hM.mem⟩
  refine ⟨h.wf, h.stamped, h.front, h.old, h2.same hb.toSameWiring, hbo h1, by rw [hb.rev]; exact key.1, chanInv_nil _ _ _,
    fun M hM => (nomatch hM), h.frontRev, fun v hv hid => ?_⟩
  obtain ⟨k1, k2, k3⟩ := h.node v hv hid
  exact ⟨by rw [contains, hb.index]; exact key.2 k1 k2, fun M hM => (nomatch hM), k3⟩

theorem node_inv [DecidableEq α] {E : Env U α} (hS : E.S.Lawful) {P : Proc U α} {org : U → Prop} (ho : Originals E.S P org) {c : U → U}
    (hc : ∀ u, E.S.ins (c u) = E.S.ins u ∧ E.S.outs (c u) = E.S.outs u) {n0 n : NodeId} {s0 : Sys U α} {id : NodeId} {r : Nat}
    (h0 : NodeInv E org id r n0 s0) {s : Sys U α} (h : Sys.Live E P c org (fun _ => True) (Spares id) n0 s0 n s) : NodeInv E org id r n s := by
  induction h with
  | start => exact h0
  | @edit n m s f' _ e hr hg hn hl he ih =>
    obtain ⟨w1, w2⟩ := wf_edit hS ih.wf e hr he
    have hst := stamp_edit ih.wf.valid e he
    refine ⟨w1, stamped_edit ih.wf ih.stamped e he, front_edit ho ih.front e hg hn he hst.back, lt_of_lt_of_le ih.old w2, ih.map, ih.back, ih.rev,
      ih.chan, ih.msgRev, by rw [hst.rev]; exact ih.frontRev, fun w hw hid => ?_⟩
    rcases hst.node w hw with ⟨h1, _, _⟩ | ⟨v, hv, h1, h2⟩
    · exact absurd ih.old (by rw [← hid, h1]; exact lt_irrefl _)
    · have hnt : ¬ Touches s.front e w.id := by
        cases e <;> first | exact fun h => h | exact fun _ => hn trivial | skip
        · rename_i k u
          intro hk
          have : w.id = k := hk
          exact hl u (by rw [← hid, this])
        · exact fun h => hn h
      obtain ⟨k1, k2, k3⟩ := ih.node v hv (h1.trans hid)
      exact ⟨k1, k2, by rw [(h2.resolve_left (fun h => hnt h.1)).2]; exact k3⟩
  | @commit n s f' M _ _ hcm ih =>
    obtain ⟨a1, a2, a3, a4, a5, a6, a7, a8, a9, a10, a11⟩ := sent_struct hS ih.wf (Or.inr hcm)
    have hgr := front_ready ho ih.front E.seed E.hash0
    have hfr : f' = { ready E.S E.seed E.hash0 s.front with editQueue := [], revision := (ready E.S E.seed E.hash0 s.front).revision + 1 } ∧
        ∀ d ∈ M.editQueue, ∀ u, d.unit = some u → org u := by
      unfold Net.commit at hcm
      split at hcm
      · cases hcm
      · split at hcm
        · cases hcm
        · split at hcm
          · cases hcm
          · cases hcm
            refine ⟨rfl, fun d hd u hu => ?_⟩
            obtain ⟨e, he, hd⟩ := List.mem_filterMap.1 hd
            obtain ⟨i, _, rfl⟩ := Option.map_eq_some_iff.1 hd
            exact hgr.queue e he u hu
    obtain ⟨g1, g2⟩ := hfr
    have hfb : f'.hasBackend = true := by rw [g1]; exact hgr.back
    have hfi : ∀ v ∈ f'.vertex, Idle v.eng := by rw [g1]; exact hgr.idle
    obtain ⟨k1, k2, k3⟩ := front_sent (org := org) hS ih.wf ih.stamped (Or.inr hcm) hc hfb hfi (Or.inl (by rw [g1]))
    have hkeep : ∀ w ∈ f'.vertex, w.id = id → contains s.back id = true ∧ (∀ M, .net M ∈ s.chan → contains M id = true) ∧ w.changed ≤ r := by
      intro w hw hid
      obtain ⟨v, hv, h1, h2⟩ := a11 w hw
      rw [← h2]; exact ih.node v hv (h1.trans hid)
    refine ⟨k1, k2, ⟨k3.back, k3.idle, fun _ _ => Or.inr trivial, k3.queue⟩, ih.old, ih.map, ih.back, ih.rev,
      ⟨fun k f hkf => ?_, fun N hN => ?_⟩, fun N hN => ?_, ?_, fun w hw hid => ?_⟩
    · rcases List.mem_append.1 hkf with h | h
      · exact ih.chan.set k f h
      · rw [List.mem_singleton] at h; cases h
    · rcases List.mem_append.1 hN with h | h
      · exact ih.chan.net N h
      · rw [List.mem_singleton] at h; cases h
        refine ⟨a2, a3, g2, fun v hv hid => Or.inr ?_⟩
        rw [a6] at hv
        obtain ⟨x1, _, x3⟩ := hkeep v hv hid
        exact ⟨by rw [hid]; exact x1, le_trans x3 ih.rev⟩
    · rcases List.mem_append.1 hN with h | h
      · exact ih.msgRev N h
      · rw [List.mem_singleton] at h; cases h
        rw [a9]; exact ih.frontRev
    · show r ≤ f'.revision
      rw [a10]; exact Nat.le_succ_of_le ih.frontRev
    · obtain ⟨v, hv, rfl⟩ := List.mem_map.1 hw
      obtain ⟨x1, x2, x3⟩ := hkeep v hv hid
      refine ⟨x1, fun N hN => ?_, x3⟩
      rcases List.mem_append.1 hN with h | h
      · exact x2 N h
      · rw [List.mem_singleton] at h; cases h
        obtain ⟨i, hi, _⟩ := a1.valid.mapOK.eng hv
        rw [contains, a4.index]
        have hid : v.id = id := hid
        rw [← hid]
        exact Option.isSome_iff_exists.2 ⟨i, hi⟩
  | @setting n s _ k f hf ih =>
    refine ⟨ih.wf, ih.stamped, ih.front, ih.old, ih.map, ih.back, ih.rev, ⟨fun k' g hg => ?_, fun N hN => ?_⟩, fun N hN => ?_, ih.frontRev,
      fun v hv hid => ?_⟩
    · rcases List.mem_append.1 hg with h | h
      · exact ih.chan.set k' g h
      · rw [List.mem_singleton] at h; cases h; exact hf
    · rcases List.mem_append.1 hN with h | h
      · exact ih.chan.net N h
      · rw [List.mem_singleton] at h; cases h
    · rcases List.mem_append.1 hN with h | h
      · exact ih.msgRev N h
      · rw [List.mem_singleton] at h; cases h
    · obtain ⟨x1, x2, x3⟩ := ih.node v hv hid
      refine ⟨x1, fun N hN => ?_, x3⟩
      rcases List.mem_append.1 hN with h | h
      · exact x2 N h
      · rw [List.mem_singleton] at h; cases h
  | tick _ x ih =>
    exact node_backend ih (.refl _) ih.back ((C11_stays hS P (.refl _)).1 x) (fun h => org_tick ho _ _ h x)
  | process _ size x old tmp ih =>
    exact node_backend ih (.refl _) ih.back ((C11_stays hS P (.refl _)).2.1 size x old tmp) (fun h => org_process ho _ _ h size x old tmp)
  | @reset n s _ ih =>
    exact node_backend ih (C11_stays hS P (.refl s.back)).2.2.1 (org_reset ho E.seed E.hash0 ih.back) (.refl _) (fun h => h)
  | @setSampleRate n s _ r' ih =>
    exact node_backend ih ((C11_stays hS P (.refl s.back)).2.2.2.1 r') (org_setSampleRate ho E.seed E.hash0 ih.back r') (.refl _) (fun h => h)

/-- A node that the backend has, when the backend has read everything that was sent. -/
theorem node_start {E : Env U α} {org : U → Prop} {n : NodeId} {s : Sys U α} (h : LiveInv E org n s) (hq : ∀ m, m ∉ s.chan)
    (hv : ∀ v ∈ s.front.vertex, v.changed ≤ s.back.revision) (hr : s.back.revision ≤ s.front.revision) {id : NodeId}
    (hid : contains s.back id = true) (hold : id < n) : NodeInv E org id s.back.revision n s := by
  obtain ⟨K, _, hf⟩ := h.front
  exact ⟨h.wf, h.stamped, ⟨hf.back, hf.idle, fun _ _ => Or.inr trivial, hf.queue⟩, hold, h.map, fun v hvm _ => h.back v hvm trivial, le_refl _,
    ⟨fun k f hkf => absurd hkf (hq _), fun M hM => absurd hM (hq _)⟩, fun M hM => absurd hM (hq _), hr,
    fun v hvm _ => ⟨hid, fun M hM => absurd hM (hq _), hv v hvm⟩⟩

/-! ## C115 -/

/-- **C115**: a net of originals in which no fade is under way gets a backend. Whatever is then done to the frontend — nodes are added, removed,
replaced, rewired, crossfaded — and whatever settings are sent, if each commit is read by the backend before the next is made, every unit that plays
or is being faded in at the backend is the original that was passed to the frontend, never a clone.
Missing: commits that the backend reads together with later ones, and `reset` and changes of the sample rate at the frontend; there the claim is
false, see the violations below. -/
theorem C115_originals_partial [DecidableEq α] {E : Env U α} (hS : E.S.Lawful) {P : Proc U α} {org : U → Prop} (ho : Originals E.S P org) {c : U → U}
    (hc : ∀ u, E.S.ins (c u) = E.S.ins u ∧ E.S.outs (c u) = E.S.outs u) {n0 n : NodeId} {f f1 b : Net U α} (hw : WF E.S n0 f) (hst : Stamped f)
    (hso : ∀ v ∈ f.vertex, org v.eng.unit) (hse : Settled f) (hb : backend E f = some (f1, b)) {s : Sys U α}
    (h : Sys.Live E P c org Caught (fun _ => True) n0 ⟨cloneFront c f1, [], b⟩ n s) :
    (∀ v ∈ s.back.vertex, org v.eng.unit ∧ (∀ u, v.eng.next.unit = some u → org u) ∧ ∀ u, v.eng.latest.unit = some u → org u) ∧
    (∀ id u, unitOf s.back id = some u → org u) ∧ ∀ id u, unitOf (handle E.S s.back s.chan) id = some u → org u := by
  have hi := live_inv hS ho hc hw hst hso hse hb h
  refine ⟨fun v hv => hi.back v hv trivial, fun id u hu => ?_, fun id u hu => ?_⟩
  · obtain ⟨v, hv, rfl⟩ := unitOf_mem hu
    exact (hi.back v hv trivial).1
  · obtain ⟨v, hv, rfl⟩ := unitOf_mem hu
    exact ((org_handle (S := E.S) hi.map hi.back hi.chan).1 v hv trivial).1

/-- **C115** (any number of commits): a node that is in the net when the backend is started, and that is not replaced, plays its original at the
backend for as long as it is there, no matter how often the frontend commits and when the backend reads the commits. -/
theorem C115_stays_partial [DecidableEq α] {E : Env U α} (hS : E.S.Lawful) {P : Proc U α} {org : U → Prop} (ho : Originals E.S P org) {c : U → U}
    (hc : ∀ u, E.S.ins (c u) = E.S.ins u ∧ E.S.outs (c u) = E.S.outs u) {n0 n : NodeId} {f f1 b : Net U α} (hw : WF E.S n0 f) (hst : Stamped f)
    (hso : ∀ v ∈ f.vertex, org v.eng.unit) (hse : Settled f) (hb : backend E f = some (f1, b)) {id : NodeId} (hid : contains f id = true) {s : Sys U α}
    (h : Sys.Live E P c org (fun _ => True) (Spares id) n0 ⟨cloneFront c f1, [], b⟩ n s) {u : U} (hu : unitOf s.back id = some u) : org u := by
  have hi := live_inv hS ho hc hw hst hso hse hb (P := P) (c := c) .start
  have hn := node_inv hS ho hc (node_start hi (fun _ h => (nomatch h)) (by
    obtain ⟨a1, a2, a3, a4, a5, a6, a7, a8, a9, a10, a11⟩ := sent_struct hS hw (Or.inl hb)
    have hlt := stamped_sent hS hw hst (Or.inl hb)
    intro v hv
    obtain ⟨w, hwm, rfl⟩ := List.mem_map.1 hv
    have := hlt w hwm
    rw [a10] at this
    show w.changed ≤ b.revision
    rw [a9]; exact Nat.le_of_lt_succ this) (by
    obtain ⟨a1, a2, a3, a4, a5, a6, a7, a8, a9, a10, a11⟩ := sent_struct hS hw (Or.inl hb)
    show b.revision ≤ f1.revision
    rw [a9, a10]; exact Nat.le_succ _) (show contains b id = true by
    obtain ⟨a1, a2, a3, a4, a5, a6, a7, a8, a9, a10, a11⟩ := sent_struct hS hw (Or.inl hb)
    rw [contains, a4.index, a5.index]; exact hid) (contains_lt hw hw.below hid)) h
  simp only [unitOf, Option.bind_eq_some_iff, Option.map_eq_some_iff] at hu
  obtain ⟨i, hi, v, hv, rfl⟩ := hu
  obtain ⟨w, hw', hwid⟩ := (hn.map.map id i).1 hi
  rw [hv] at hw'; cases hw'
  exact (hn.back v (List.mem_of_getElem? hv) hwid).1

/-- **C115** (any number of commits, nodes added later): when the backend has read a commit that was made with nothing else under way, every node of
that commit plays its original from then on, until it is replaced or removed, no matter how often the frontend commits. -/
theorem C115_stays_later_partial [DecidableEq α] {E : Env U α} (hS : E.S.Lawful) {P : Proc U α} {org : U → Prop} (ho : Originals E.S P org) {c : U → U}
    (hc : ∀ u, E.S.ins (c u) = E.S.ins u ∧ E.S.outs (c u) = E.S.outs u) {n0 n m : NodeId} {f f1 b : Net U α} (hw : WF E.S n0 f) (hst : Stamped f)
    (hso : ∀ v ∈ f.vertex, org v.eng.unit) (hse : Settled f) (hb : backend E f = some (f1, b)) {s : Sys U α}
    (h : Sys.Live E P c org Caught (fun _ => True) n0 ⟨cloneFront c f1, [], b⟩ n s) (hq : Caught s) {f' M : Net U α}
    (hcm : commit E s.front = some (f', M)) (x : List α) {id : NodeId} (hid : contains s.front id = true) {s' : Sys U α}
    (h' : Sys.Live E P c org (fun _ => True) (Spares id) n
      ⟨cloneFront c f', [], (tick E.S E.seed E.hash0 (handle E.S s.back (s.chan ++ [.net M])) x).1⟩ m s') {u : U}
    (hu : unitOf s'.back id = some u) : org u := by
  have hs := live_inv hS ho hc hw hst hso hse hb h
  have hi := live_inv hS ho hc hw hst hso hse hb ((h.commit hq hcm).tick x)
  have hi1 := live_inv hS ho hc hw hst hso hse hb (h.commit hq hcm)
  obtain ⟨a1, a2, a3, a4, a5, a6, a7, a8, a9, a10, a11⟩ := sent_struct hS hs.wf (Or.inr hcm)
  have hlast : LastNet (s.chan ++ [.net M]) M := ⟨s.chan, [], rfl, fun _ h => (nomatch h)⟩
  have hsame := (C11_stays hS P ((org_handle (S := E.S) hi1.map hi1.back hi1.chan).2.2.2 M hlast)).1 x
  have hlt := stamped_sent hS hs.wf hs.stamped (Or.inr hcm)
  have hn := node_inv hS ho hc (node_start hi (fun _ h => (nomatch h)) (by
    intro v hv
    obtain ⟨w, hwm, rfl⟩ := List.mem_map.1 hv
    have := hlt w hwm
    rw [a10] at this
    refine le_trans (Nat.le_of_lt_succ this) ?_
    rw [← a9]; exact le_of_eq hsame.rev.symm) (by
    refine le_trans (le_of_eq hsame.rev) ?_
    show M.revision ≤ f'.revision
    rw [a9, a10]; exact Nat.le_succ _) (id := id) (by
    have : contains M id = true := by rw [contains, a4.index, a5.index]; exact hid
    rw [contains, hsame.index]; exact this) (contains_lt hs.wf hs.wf.below hid)) h'
  simp only [unitOf, Option.bind_eq_some_iff, Option.map_eq_some_iff] at hu
  obtain ⟨i, hi, v, hv, rfl⟩ := hu
  obtain ⟨w, hw', hwid⟩ := (hn.map.map id i).1 hi
  rw [hv] at hw'; cases hw'
  exact (hn.back v (List.mem_of_getElem? hv) hwid).1

/-! ### What a clone is -/

/-- `impl Clone for Ring`, `ring.rs:14-20`: the clone gets a dummy channel whose sender is dropped, so nothing is ever sent to it. -/
def ringClone (_ : Chan.Channel α) : Chan.Channel α := ⟨1, []⟩

/-- **C115** (clones are not connected): the clone of a ring is silent for ever, whatever is in the channel of the original. -/
theorem C115_clone_silent (zero : α) (r : Chan.Channel α) (k : Nat) :
    (Chan.ringTick zero (Nat.iterate (fun q => (Chan.ringTick zero q).1) k (ringClone r))).2 = zero := by
  have : Nat.iterate (fun q => (Chan.ringTick zero q).1) k (ringClone r) = ringClone r := by
    induction k with
    | zero => rfl
    | succ k ih => rw [Function.iterate_succ_apply]; exact ih
  rw [this]; rfl

/-- The original passes on what was sent. -/
example : (Chan.ringTick (0 : Int) ((Chan.ringNew 4).trySend 7).1).2 = 7 ∧
    (Chan.ringTick (0 : Int) (ringClone ((Chan.ringNew 4).trySend 7).1)).2 = 0 := by decide

/-! ## Violations -/

/-- Demo units that carry a mark: `true` for originals. Everything else is done by the unit. -/
def marked : Units (DU × Bool) Int where
  toArith := demo.toArith
  ins := fun u => demo.ins u.1
  outs := fun u => demo.outs u.1
  setSR := fun r u => (demo.setSR r u.1, u.2)
  reset := fun u => (demo.reset u.1, u.2)
  ping := fun p h u => ((demo.ping p h u.1).1, u.2) |> fun v => (v, (demo.ping p h u.1).2)
  utick := fun u x => (((demo.utick u.1 x).1, u.2), (demo.utick u.1 x).2)
  binop := fun o => (demo.binop o, true)
  const := fun x => (demo.const x, true)
  dummy := fun i o => (demo.dummy i o, true)

theorem marked_lawful : marked.Lawful := by
  have h := demo_lawful
  exact ⟨fun r u => h.ins_setSR r u.1, fun r u => h.outs_setSR r u.1, fun _ => h.ins_reset _, fun _ => h.outs_reset _, fun p k u => h.ins_ping p k u.1,
    fun p k u => h.outs_ping p k u.1, fun _ _ => h.ins_tick _ _, fun _ _ => h.outs_tick _ _, fun _ _ => h.tick_length _ _, h.ins_binop,
    h.outs_binop, h.ins_const, h.outs_const, h.ins_dummy, h.outs_dummy⟩

def markEnv : Env (DU × Bool) Int := ⟨marked, fun x => x, 0⟩

/-- Blocks are not used in the examples. -/
def markProc : Proc (DU × Bool) Int := fun u _ _ _ => (u, fun _ _ => 0)

/-- A clone has no mark. -/
def unmark (u : DU × Bool) : DU × Bool := (u.1, false)

theorem marked_originals : Originals marked markProc (fun u => u.2 = true) :=
  ⟨fun _ _ h => h, fun _ h => h, fun _ _ _ h => h, fun _ _ h => h, fun _ _ _ _ h => h, fun _ _ => rfl⟩

def live : DU × Bool := (gen1, true)
def liveFil : DU × Bool := (fil1, true)

/-- Which units of the net are originals, and which of those to be faded in. -/
def marks (net : Net (DU × Bool) Int) : List (Bool × Option Bool) := net.vertex.map fun v => (v.eng.unit.2, v.eng.next.unit.map (·.2))

/-- **C115** is violated: a node is added and committed, and a second commit is made before the backend runs. The backend gets both and keeps the
later net only, which has the clone of the unit; the original is sent back with the first net and is dropped. If one of the two is read first, the
original plays. -/
theorem C115_violation_twice : ∃ f m f1 b f2 k f3 M1 f4 M2, runEdits markEnv 0 (new 44100 0 1) [.push live, .pipeOutput 0] = some (f, m) ∧
    backend markEnv f = some (f1, b) ∧ runEdits markEnv m (cloneFront unmark f1) [.chain liveFil] = some (f2, k) ∧
    commit markEnv f2 = some (f3, M1) ∧ commit markEnv (cloneFront unmark f3) = some (f4, M2) ∧
    marks b = [(true, none)] ∧ marks (handle marked b [.net M1, .net M2]) = [(true, none), (false, none)] ∧
    marks (handle marked (handle marked b [.net M1]) [.net M2]) = [(true, none), (true, none)] :=
  ⟨_, _, _, _, _, _, _, _, _, _, rfl, rfl, rfl, rfl, rfl, rfl, rfl, rfl⟩

/-- **C115** is violated: `reset` at the frontend stamps every node as changed, so the next commit replaces every original in the backend by the
clone that the frontend kept. -/
theorem C115_violation_reset : ∃ f m f1 b f2 k f3 M, runEdits markEnv 0 (new 44100 0 1) [.push live, .pipeOutput 0] = some (f, m) ∧
    backend markEnv f = some (f1, b) ∧ runEdits markEnv m (cloneFront unmark f1) [.reset] = some (f2, k) ∧ commit markEnv f2 = some (f3, M) ∧
    marks b = [(true, none)] ∧ marks (handle marked b [.net M]) = [(false, none)] :=
  ⟨_, _, _, _, _, _, _, _, rfl, rfl, rfl, rfl, rfl, rfl⟩

/-- **C115** is violated: a change of the sample rate at the frontend does the same. -/
theorem C115_violation_rate : ∃ f m f1 b f2 k f3 M, runEdits markEnv 0 (new 44100 0 1) [.push live, .pipeOutput 0] = some (f, m) ∧
    backend markEnv f = some (f1, b) ∧ runEdits markEnv m (cloneFront unmark f1) [.setSampleRate 48000] = some (f2, k) ∧
    commit markEnv f2 = some (f3, M) ∧ marks b = [(true, none)] ∧ marks (handle marked b [.net M]) = [(false, none)] :=
  ⟨_, _, _, _, _, _, _, _, rfl, rfl, rfl, rfl, rfl, rfl⟩

/-- **C115** is violated: a fade is under way when the backend is started. If the fading node is then replaced and committed, the backend goes on
fading to the clone of the unit that was being faded in, and drops the original. -/
theorem C115_violation_fade : ∃ f m f1 b f2 k f3 M,
    runEdits markEnv 0 (new 44100 0 1) [.push live, .pipeOutput 0, .crossfade 0 .smooth 1 live] = some (f, m) ∧
    backend markEnv f = some (f1, b) ∧ runEdits markEnv m (cloneFront unmark f1) [.replace 0 live] = some (f2, k) ∧
    commit markEnv f2 = some (f3, M) ∧ marks b = [(true, some true)] ∧ marks (handle marked b [.net M]) = [(true, some false)] :=
  ⟨_, _, _, _, _, _, _, _, rfl, rfl, rfl, rfl, rfl, rfl⟩

/-- The hypotheses of the theorems hold of a run in which the backend is started, a node is added and committed, the backend plays, and two more
commits are made and read together. -/
example : ∃ f m f1 b f2 k f3 M f4 M2 f5 M3, runEdits markEnv 0 (new 44100 0 1) [.push live, .pipeOutput 0] = some (f, m) ∧ WF marked m f ∧ Stamped f ∧
    (∀ v ∈ f.vertex, v.eng.unit.2 = true) ∧ Settled f ∧ backend markEnv f = some (f1, b) ∧
    Edit.apply markEnv m (cloneFront unmark f1) (.chain liveFil) = some (f2, k) ∧ commit markEnv f2 = some (f3, M) ∧
    Sys.Live markEnv markProc unmark (fun u => u.2 = true) Caught (fun _ => True) m ⟨cloneFront unmark f1, [], b⟩ k ⟨f2, [], b⟩ ∧
    Caught (⟨f2, [], b⟩ : Sys (DU × Bool) Int) ∧ contains f2 1 = true ∧
    commit markEnv (cloneFront unmark f3) = some (f4, M2) ∧ commit markEnv (cloneFront unmark f4) = some (f5, M3) ∧
    Sys.Live markEnv markProc unmark (fun u => u.2 = true) (fun _ => True) (Spares 1) k
      ⟨cloneFront unmark f3, [], (tick marked markEnv.seed markEnv.hash0 (handle marked b [.net M]) []).1⟩ k
      ⟨cloneFront unmark f5, [.net M2, .net M3], (tick marked markEnv.seed markEnv.hash0 (handle marked b [.net M]) []).1⟩ ∧
    marks (handle marked (tick marked markEnv.seed markEnv.hash0 (handle marked b [.net M]) []).1 [.net M2, .net M3]) = [(true, none), (true, none)] := by
  have hr : Reach markEnv InRange 1 (Net.push marked (new 44100 0 1) 0 live) := (Reach.new 0 _ 0 1).edit (.push live) trivial rfl
  have hr2 := hr.edit (.pipeOutput 0) trivial rfl
  refine ⟨_, _, _, _, _, _, _, _, _, _, _, _, rfl, hr2.wf marked_lawful, ?_, ?_, ?_, rfl, rfl, rfl, ?_, ?_, rfl, rfl, rfl, ?_, rfl⟩
  · intro v hv
    exact stamped_edit (E := markEnv) (hr.wf marked_lawful) (stamped_edit (E := markEnv) (n := 0) (wf_new 0 44100 0 1)
      (fun v hv => (nomatch hv)) (.push live) rfl) (.pipeOutput 0) rfl v hv
  · intro v hv
    rcases List.mem_singleton.1 hv with rfl
    rfl
  · refine ⟨fun v hv => ?_, fun d hd => (nomatch hd)⟩
    rcases List.mem_singleton.1 hv with rfl
    exact ⟨rfl, rfl⟩
  · refine Sys.Live.edit (Sys.Live.start) (.chain liveFil) trivial (fun u hu => ?_) (fun h => h) trivial rfl
    rcases List.mem_singleton.1 hu with rfl
    rfl
  · exact fun N hN => (nomatch hN)
  · exact ((Sys.Live.start).commit trivial rfl).commit trivial rfl

end Fundsp.Net
