import Verif.Net.BackendProps
import Verif.Net.OpsProps

/-! # Editing a net that is playing (C117)

The nodes that an edit does not concern should go on playing as if nothing had happened. -/

namespace Fundsp.Net
variable {U α : Type}

theorem Follow.reach [DecidableEq α] {E : Env U α} {id : NodeId} {bad : Edit U α → Prop} {n m : NodeId}
    {net net' : Net U α} (hr : Reach E InRange n net) (h : Follow E id bad n net m net') : Reach E InRange m net' := by
  induction h with
  | start => exact hr
  | later _ hm ih => exact ih.later hm
  | edit _ e hi _ he ih => exact ih.edit e hi he
  | left _ hb o he ih => exact .op ih hb o he
  | right _ hb o _ he ih => exact .op hb ih o he

theorem Follow.cons [DecidableEq α] {E : Env U α} {id : NodeId} {bad : Edit U α → Prop} {n k m : NodeId} {net x net' : Net U α} {e : Edit U α}
    (hir : InRange net e) (hnb : ¬ bad e) (hx : e.apply E n net = some (x, k)) (a : Follow E id bad k x m net') : Follow E id bad n net m net' := by
  induction a with
  | start => exact .edit .start e hir hnb hx
  | later _ hm ih => exact .later ih hm
  | edit _ e' h1 h2 h3 ih => exact .edit ih e' h1 h2 h3
  | left _ hb o he ih => exact .left ih hb o he
  | right _ hb o hne he ih => exact .right ih hb o hne he

/-- Calls that do not concern node `id` and do not run the net: they neither delete it nor give it a new unit. -/
def Edit.concerns (id : NodeId) (e : Edit U α) : Prop := e.deletes id ∨ e.swaps id ∨ e.runs

/-- The unit of a node after the net has found its evaluation order. -/
theorem unitOf_ready {S : Units U α} (hS : S.Lawful) (seed : Nat → Nat) (h0 : Nat) {net : Net U α} {id : NodeId} {u : U}
    (h : unitOf net id = some u) :
    (net.order.isSome = true → unitOf (ready S seed h0 net) id = some u) ∧
    ∃ k k', unitOf (ready S seed h0 net) id = some u ∨
      unitOf (ready S seed h0 net) id = some (S.ping false k' (S.ping true k u).1).1 := by
  have hi := (ready_sameWiring hS seed h0 net).index
  simp only [unitOf, Option.bind_eq_some_iff, Option.map_eq_some_iff] at h
  obtain ⟨i, h1, v, h2, rfl⟩ := h
  refine ⟨fun ho => ?_, ?_⟩
  · unfold ready
    rw [if_pos ho]
    simp [unitOf, h1, h2]
  · unfold ready at hi ⊢
    split
    · exact ⟨0, 0, Or.inl (by simp [unitOf, h1, h2])⟩
    · rename_i hn
      rw [if_neg hn] at hi
      obtain ⟨k, k', hk⟩ := determineOrder_units (S := S) seed h0 net i v h2
      exact ⟨k, k', Or.inr (by simp [unitOf, hi, h1, hk])⟩

/-- **C117** (the calls): a call that does not concern a node leaves it exactly as it is, with its crossfade if it has one. -/
theorem C117_calls [DecidableEq α] (E : Env U α) (hS : E.S.Lawful) {n : NodeId} {net : Net U α} (h : Reach E InRange n net)
    {id : NodeId} {e : Eng U α} (he : engOf net id = some e) {m : NodeId} {net' : Net U α}
    (hf : Follow E id (Edit.concerns id) n net m net') : engOf net' id = some e := by
  have hw := h.wf hS
  obtain ⟨i, v, h1, h2, rfl⟩ := engOf_some he
  obtain ⟨v', h2', hid⟩ := (hw.valid.map id i).1 h1
  rw [h2] at h2'; cases h2'
  have hlt : id < n := hid ▸ hw.below i v h2
  have hk := hf.keeps hS hw Eq (fun _ => rfl) (fun _ _ _ => Eq.trans) (by
    intro m m' x y e hm hx hb he
    exact (keeps_edit hx (fun h => hb (Or.inr (Or.inr h))) (fun h => hb (Or.inl h)) he).2 (fun h => hb (Or.inr (Or.inl h))) (by omega))
  obtain ⟨j, w, g1, g2, _, _, g5⟩ := hk i v h2 hid
  have := (hf.wf hS hw).1.valid.get_of g1
  rw [g2] at this
  simp [engOf, this, g1, g5]

/-- What the next sample of the net makes of node `id` whose unit is in state `u`: the unit takes its next step, from the state it is in, and what it
gives is what is heard of it through the outputs of the net and by other nodes. -/
def Continues (E : Env U α) (net : Net U α) (id : NodeId) (u : U) : Prop :=
  ∀ input : List α, ∃ (val : NodeId → List α) (xs : List α), xs.length = E.S.ins u ∧
    (∀ c, c < E.S.ins u → ∃ s, source net id c = some s ∧ xs[c]? = some (srcVal E.S input val s)) ∧
    unitOf (tick E.S E.seed E.hash0 net input).1 id = some (E.S.utick u xs).1 ∧ val id = (E.S.utick u xs).2 ∧
    ∀ c, c < net.outputs → ∃ s, outputSource net c = some s ∧ (tick E.S E.seed E.hash0 net input).2[c]? = some (srcVal E.S input val s)

theorem continues_of [DecidableEq α] {E : Env U α} (hS : E.S.Lawful) {n : NodeId} {net : Net U α} (h : Reach E InRange n net) (hc : ¬ Cyclic net)
    {id : NodeId} {u : U} (hu : unitOf (ready E.S E.seed E.hash0 net) id = some u) (hf : fading net id = false) : Continues E net id u := by
  intro input
  obtain ⟨val, h1, _, h3⟩ := C07_tick E hS h hc input _ _ rfl
  obtain ⟨xs, a, b, c, d⟩ := h1 id u hu hf
  exact ⟨val, xs, a, b, c, d, h3⟩

theorem fading_engOf (net : Net U α) (id : NodeId) {e : Eng U α} (h : engOf net id = some e) : fading net id = e.next.unit.isSome := by
  obtain ⟨i, v, h1, h2, rfl⟩ := engOf_some h
  simp [fading, h1, h2]

/-- **C117** (without a backend), for units that do not depend on their hash: after any calls that do not concern it, a node goes on from the state it
was in. Missing: units that depend on their hash are restarted by calls that change the wiring, see the violations below. -/
theorem C117_continues_partial [DecidableEq α] (E : Env U α) (hS : E.S.Lawful) {n : NodeId} {net : Net U α} (h : Reach E InRange n net)
    {id : NodeId} {u : U} (hu : unitOf net id = some u) (hf : fading net id = false) (hp : ∀ probe k, (E.S.ping probe k u).1 = u)
    {m : NodeId} {net' : Net U α} (hfo : Follow E id (Edit.concerns id) n net m net') (hc : ¬ Cyclic net') : Continues E net' id u := by
  rw [engOf_unit, Option.map_eq_some_iff] at hu
  obtain ⟨e, he, rfl⟩ := hu
  have he' := C117_calls E hS h he hfo
  rw [fading_engOf _ _ he] at hf
  refine continues_of hS (hfo.reach h) hc ?_ (by rw [fading_engOf _ _ he', hf])
  obtain ⟨_, k, k', hk⟩ := unitOf_ready hS E.seed E.hash0 (net := net') (id := id) (u := e.unit) (by rw [engOf_unit, he']; rfl)
  rw [hp true k, hp false k'] at hk
  rcases hk with hk | hk <;> exact hk

/-- Calls that give another node than `id` a new unit, at once or with a crossfade. -/
def Edit.swapsOther (id : NodeId) : Edit U α → Prop
  | .replace n _ | .crossfade n _ _ _ => n ≠ id
  | _ => False

theorem order_swap [DecidableEq α] {E : Env U α} {n m : NodeId} {net net' : Net U α} {id : NodeId} {e : Edit U α} (hs : e.swapsOther id)
    (he : e.apply E n net = some (net', m)) : net'.order = net.order := by
  cases e <;> simp only [Edit.swapsOther] at hs <;> simp only [Edit.apply, Option.map_eq_some_iff, Prod.mk.injEq] at he
  · obtain ⟨⟨x, old⟩, hx, rfl, rfl⟩ := he
    simp only [Net.replace, Option.bind_eq_bind, Option.bind_eq_some_iff] at hx
    obtain ⟨i, hi, v, hv, hx⟩ := hx
    obtain ⟨_, hx⟩ := ite_none_right hx
    cases hx; rfl
  · obtain ⟨x, hx, rfl, rfl⟩ := he
    simp only [crossfade, Option.bind_eq_bind, Option.bind_eq_some_iff] at hx
    obtain ⟨i, hi, v, hv, hx⟩ := hx
    obtain ⟨_, hx⟩ := ite_none_right hx
    split at hx <;> cases hx <;> rfl

/-- **C117** (without a backend), for every unit: replacing and crossfading other nodes of a net that is playing does not disturb a node, whether its
unit depends on its hash or not. -/
theorem C117_swaps [DecidableEq α] (E : Env U α) (hS : E.S.Lawful) {n : NodeId} {net : Net U α} (h : Reach E InRange n net)
    (ho : net.order.isSome = true) {id : NodeId} {u : U} (hu : unitOf net id = some u) (hf : fading net id = false)
    (es : List (Edit U α)) (hs : ∀ e ∈ es, e.swapsOther id) {m : NodeId} {net' : Net U α} (he : runEdits E n net es = some (net', m))
    (hc : ¬ Cyclic net') : Continues E net' id u := by
  have key : ∀ (es : List (Edit U α)) n (net : Net U α), Reach E InRange n net → net.order.isSome = true → (∀ e ∈ es, e.swapsOther id) →
      runEdits E n net es = some (net', m) → Follow E id (Edit.concerns id) n net m net' ∧ net'.order.isSome = true := by
    intro es
    induction es with
    | nil => intro n net hr ho _ he; simp only [runEdits, Option.some.injEq, Prod.mk.injEq] at he; obtain ⟨rfl, rfl⟩ := he; exact ⟨.start, ho⟩
    | cons e es ih =>
      intro n net hr ho hs he
      simp only [runEdits, Option.bind_eq_some_iff] at he
      obtain ⟨⟨x, k⟩, hx, he⟩ := he
      have hse := hs e (by simp)
      have hir : InRange net e := by cases e <;> simp only [Edit.swapsOther] at hse <;> trivial
      have hnb : ¬ Edit.concerns id e := by
        cases e <;> simp only [Edit.swapsOther] at hse <;> simp [Edit.concerns, Edit.deletes, Edit.swaps, Edit.runs, hse]
      obtain ⟨a, b⟩ := ih k x (hr.edit e hir hx) (by rw [order_swap hse hx]; exact ho) (fun e h => hs e (by simp [h])) he
      exact ⟨Follow.cons hir hnb hx a, b⟩
  obtain ⟨hfo, hon⟩ := key es n net h ho hs he
  rw [engOf_unit, Option.map_eq_some_iff] at hu
  obtain ⟨e, he, rfl⟩ := hu
  have he' := C117_calls E hS h he hfo
  rw [fading_engOf _ _ he] at hf
  exact continues_of hS (hfo.reach h) hc ((unitOf_ready hS E.seed E.hash0 (by rw [engOf_unit, he']; rfl)).1 hon) (by rw [fading_engOf _ _ he', hf])

/-- **C117** (with a backend), for every unit: whatever was edited and committed, a node that was not replaced, crossfaded, reset or set goes on in the
backend from the state it was in there: handling the messages leaves it as it is, and nothing happens to it before the next sample. -/
theorem C117_backend [DecidableEq α] {E : Env U α} (hS : E.S.Lawful) {n0 n : NodeId} {f0 base M0 back f f' M : Net U α} {T : NodeId → Prop}
    (hw : WF E.S n0 f0) (hst : Stamped f0) (hs0 : Sent E f0 base M0) (hb : SameNet M0 back) (hf : Since E n0 base n f T)
    (hc : commit E f = some (f', M)) {q : List (Msg U α)} (hq : LastNet q M) {id : NodeId} {e : Eng U α} (he : engOf back id = some e)
    (hid : contains f id = true) (hT : ¬ T id) (hed : editsIn id q = []) (hset : ∀ u, settingsIn id q u = u) :
    engOf (handle E.S back q) id = some e ∧ ready E.S E.seed E.hash0 (handle E.S back q) = handle E.S back q ∧
    ∀ x, tick E.S E.seed E.hash0 (handle E.S back q) x = tickOrdered E.S (handle E.S back q) x := by
  obtain ⟨a1, a2, _⟩ := sent_struct hS hw hs0
  have hi := since_inv hS a1 (stamped_sent hS hw hst hs0) hf
  have hin : contains back id = true := by
    obtain ⟨i, _, h1, _, _⟩ := engOf_some he
    simp only [contains, h1]; rfl
  have hr := C11_ready (f := f) (f' := f') (M := M) hS hi.wf (Or.inr hc) (a2.same hb.toSameWiring) hq
  refine ⟨(C11_kept_exactly hS hw hst hs0 hb hf hc hq hin hid hT hed hset).trans he, hr.2, fun x => ?_⟩
  obtain ⟨o, ho⟩ := hr.1
  unfold tick
  rw [if_pos (by rw [ho]; rfl)]

/-! ## Violations

A unit like `noise()` (`noise.rs:176-234`): it counts, and a ping that is not a probe starts the count anew from the hash (`set_hash` calls
`reset`), as it does for all oscillators (`oscillator.rs:94-97` and so on) and for the wavetable oscillators (`wavetable.rs:312-315`). Every unit
stirs the hash (`audionode.rs:149-154`). -/

def noisy : Units DU Int := { demo with ping := fun probe h u => (if probe || u.step == 0 then u else { u with k := h }, h + 1) }

theorem noisy_lawful : noisy.Lawful := by
  have h := demo_lawful
  refine ⟨h.ins_setSR, h.outs_setSR, h.ins_reset, h.outs_reset, ?_, ?_, h.ins_tick, h.outs_tick, h.tick_length, h.ins_binop, h.outs_binop,
    h.ins_const, h.outs_const, h.ins_dummy, h.outs_dummy⟩ <;> intro p k u <;> simp only [noisy] <;> split <;> rfl

def noisyEnv : Env DU Int := ⟨noisy, fun x => x, 0⟩

/-- A noise, heard on the only output, and a filter that is not connected; the net has played three samples. -/
def playing : List (Edit DU Int) := [.push gen1, .push fil1, .pipeOutput 0, .tick [], .tick [], .tick []]

/-- **C117** is violated by the code without a backend: adding a node that is not connected to anything, even with a fade-in, or disconnecting an input
of another node that is not connected anyway, makes a noise or an oscillator that is playing jump to another place: the next sample is not 5. -/
theorem C117_violation : ∃ net m, runEdits noisyEnv 0 (new 44100 0 1) playing = some (net, m) ∧ unitOf net 0 = some { gen1 with k := 5 } ∧
    (tick noisy noisyEnv.seed 0 net []).2 = [5] ∧
    ∀ es ∈ [[.push fil1], [.fadeIn .smooth 1 fil1], [.disconnect 1 0]], ∃ net' m', runEdits noisyEnv m net es = some (net', m') ∧
      unitOf net' 0 = some { gen1 with k := 5 } ∧ ∃ k, (tick noisy noisyEnv.seed 0 net' []).2 = [k] ∧ k ≠ 5 := by
  refine ⟨_, _, rfl, rfl, rfl, ?_⟩
  intro es he
  simp only [List.mem_cons, List.not_mem_nil, or_false] at he
  rcases he with rfl | rfl | rfl
  all_goals exact ⟨_, _, rfl, rfl, _, rfl, by decide⟩

/-- **C117** is violated by the code without a backend: a node that is added and removed again leaves the net as it was, and the noise starts over:
it repeats the samples that have been heard. -/
theorem C117_violation_repeats : ∃ net m net' m', runEdits noisyEnv 0 (new 44100 0 1) [.push gen1, .push fil1, .pipeOutput 0] = some (net, m) ∧
    runEdits noisyEnv 0 (new 44100 0 1) (playing ++ [.push fil1, .remove 2]) = some (net', m') ∧
    (tick noisy noisyEnv.seed 0 net []).2 = (tick noisy noisyEnv.seed 0 net' []).2 ∧
    (tick noisy noisyEnv.seed 0 (tick noisy noisyEnv.seed 0 net []).1 []).2 = (tick noisy noisyEnv.seed 0 (tick noisy noisyEnv.seed 0 net' []).1 []).2 ∧
    ¬ Continues noisyEnv net' 0 { gen1 with k := 5 } := by
  refine ⟨_, _, _, _, rfl, rfl, rfl, rfl, ?_⟩
  intro h
  obtain ⟨val, xs, h1, _, h3, _⟩ := h []
  cases xs with
  | nil => exact absurd (h3.trans rfl) (by decide)
  | cons => simp [noisyEnv, noisy, demo, gen1] at h1

/-! ## Cases that meet the hypotheses -/

/-- The net after some calls. -/
def edited (n : NodeId) (net : Net DU Int) (es : List (Edit DU Int)) : Net DU Int := ((runEdits noisyEnv n net es).getD (net, n)).1

def playNet : Net DU Int := edited 0 (new 44100 0 1) playing

theorem playNet_reach : Reach noisyEnv InRange 2 playNet := by
  have h0 : Reach noisyEnv InRange 0 (new 44100 0 1 : Net DU Int) := .new 0 _ 0 1
  have h1 := h0.edit (.push gen1) trivial rfl
  have h2 := h1.edit (.push fil1) trivial rfl
  have h3 := h2.edit (.pipeOutput 0) trivial rfl
  have h4 := h3.edit (.tick []) trivial rfl
  have h5 := h4.edit (.tick []) trivial rfl
  exact h5.edit (.tick []) trivial rfl

/-- The filter of the playing net does not depend on its hash; it goes on after the noise has been connected to it and another noise added. -/
example : unitOf playNet 1 = some fil1 ∧ fading playNet 1 = false ∧ (∀ probe k, (noisy.ping probe k fil1).1 = fil1) ∧
    ∃ net', runEdits noisyEnv 2 playNet [.connect 0 0 1 0, .push gen1] = some (net', 3) ∧
    Follow noisyEnv 1 (Edit.concerns 1) 2 playNet 3 net' ∧ ¬ Cyclic net' ∧ Continues noisyEnv net' 1 fil1 := by
  have hp : ∀ probe k, (noisy.ping probe k fil1).1 = fil1 := fun probe _ => by cases probe <;> rfl
  have hf1 : Follow noisyEnv 1 (Edit.concerns 1) 2 playNet 2 (edited 2 playNet [.connect 0 0 1 0]) := .edit .start (.connect 0 0 1 0)
    (by intro o ho; cases ho; decide) (by simp [Edit.concerns, Edit.deletes, Edit.swaps, Edit.runs]) rfl
  have hf : Follow noisyEnv 1 (Edit.concerns 1) 2 playNet 3 (edited 2 playNet [.connect 0 0 1 0, .push gen1]) := hf1.edit (.push gen1) trivial
    (by simp [Edit.concerns, Edit.deletes, Edit.swaps, Edit.runs]) rfl
  have hc := (C02_error noisyEnv noisy_lawful (hf.reach playNet_reach)).not.1 (by decide)
  exact ⟨rfl, rfl, hp, _, rfl, hf, hc, C117_continues_partial noisyEnv noisy_lawful playNet_reach rfl rfl hp hf hc⟩

/-- The noise goes on when the filter is replaced and crossfaded. -/
example : playNet.order.isSome = true ∧ ∃ net', runEdits noisyEnv 2 playNet [.replace 1 ⟨1, 1, 7, 0, none⟩, .crossfade 1 .smooth 1 fil1] = some (net', 2) ∧
    ¬ Cyclic net' ∧ Continues noisyEnv net' 0 { gen1 with k := 5 } ∧ (tick noisy noisyEnv.seed 0 net' []).2 = [5] := by
  have h1 : Reach noisyEnv InRange 2 (edited 2 playNet [.replace 1 ⟨1, 1, 7, 0, none⟩]) := playNet_reach.edit (.replace 1 ⟨1, 1, 7, 0, none⟩) trivial rfl
  have h2 : Reach noisyEnv InRange 2 (edited 2 playNet [.replace 1 ⟨1, 1, 7, 0, none⟩, .crossfade 1 .smooth 1 fil1]) :=
    h1.edit (.crossfade 1 .smooth 1 fil1) trivial rfl
  have hc := (C02_error noisyEnv noisy_lawful h2).not.1 (by decide)
  refine ⟨rfl, _, rfl, hc, C117_swaps noisyEnv noisy_lawful playNet_reach rfl rfl rfl [.replace 1 ⟨1, 1, 7, 0, none⟩, .crossfade 1 .smooth 1 fil1] ?_ rfl hc, rfl⟩
  intro e he
  simp only [List.mem_cons, List.not_mem_nil, or_false] at he
  rcases he with rfl | rfl <;> simp [Edit.swapsOther]

def nF : Net DU Int := edited 0 (new 1 0 1) [.push gen1, .pipeOutput 0]
def nBase : Net DU Int := ((backend noisyEnv nF).getD (nF, nF)).1
def nM0 : Net DU Int := ((backend noisyEnv nF).getD (nF, nF)).2
def nBack : Net DU Int :=
  (tick noisy noisyEnv.seed 0 (tick noisy noisyEnv.seed 0 (tick noisy noisyEnv.seed 0 nM0 []).1 []).1 []).1
def nNew : Net DU Int := edited 1 nBase [.push fil1, .connect 0 0 1 0, .pipeOutput 1]

/-- With a backend: the noise has played three samples in the backend when a filter is added to the net and connected. -/
example : ∃ (f' M : Net DU Int) (T : NodeId → Prop), WF noisy 1 nF ∧ Stamped nF ∧ Sent noisyEnv nF nBase nM0 ∧ SameNet nM0 nBack ∧
    Since noisyEnv 1 nBase 2 nNew T ∧ commit noisyEnv nNew = some (f', M) ∧ LastNet [.net M] M ∧ ¬ T 0 ∧ contains nNew 0 = true ∧
    unitOf nBack 0 = some { gen1 with k := 4 } ∧ unitOf f' 0 = some { gen1 with k := 2 } ∧
    unitOf (handle noisy nBack [.net M]) 0 = some { gen1 with k := 4 } ∧ (tick noisy noisyEnv.seed 0 (handle noisy nBack [.net M]) []).2 = [4] := by
  have r0 : Reach noisyEnv InRange 0 (new 1 0 1 : Net DU Int) := .new 0 _ 0 1
  have r1 : Reach noisyEnv InRange 1 (edited 0 (new 1 0 1) [.push gen1]) := r0.edit (.push gen1) trivial rfl
  have r2 : Reach noisyEnv InRange 1 nF := r1.edit (.pipeOutput 0) trivial rfl
  have s0 : Stamped (new 1 0 1 : Net DU Int) := by intro v hv; cases hv
  have s1 := stamped_edit (r0.wf noisy_lawful) s0 (.push gen1) rfl
  have s2 : Stamped nF := stamped_edit (r1.wf noisy_lawful) s1 (.pipeOutput 0) rfl
  have b1 := C11_stays (E := noisyEnv) noisy_lawful (fun u _ _ old => (u, old)) (SameNet.refl nM0)
  have b2 := C11_stays (E := noisyEnv) noisy_lawful (fun u _ _ old => (u, old)) (b1.1 [])
  have b3 := C11_stays (E := noisyEnv) noisy_lawful (fun u _ _ old => (u, old)) (b2.1 [])
  have h1 := (Since.start (E := noisyEnv) (n0 := 1) (base := nBase)).edit (.push fil1) trivial rfl
  have h2 := h1.edit (.connect 0 0 1 0) (by intro o ho; cases ho; decide) rfl
  have h3 := h2.edit (.pipeOutput 1) trivial rfl
  refine ⟨_, _, _, r2.wf noisy_lawful, s2, Or.inl rfl, b3.1 [], h3, rfl, ⟨[], [], rfl, by simp⟩, ?_, rfl, rfl, rfl, rfl, rfl⟩
  rintro (((c | c) | c) | c) <;> exact c

end Fundsp.Net
