import Verif.Net.Valid4
import Verif.Net.Demo

/-! # Properties of `Net` wiring (C01) -/

namespace Fundsp.Net
variable {U α : Type}

/-! ## The public interface as a history -/

/-- Calls on one net: all edits and the calls that run it. -/
inductive Edit (U α : Type)
  | push (u : U)
  | fadeIn (f : Fade) (t : α) (u : U)
  | chain (u : U)
  | setSource (node : NodeId) (channel : Nat) (s : Source)
  | setOutputSource (channel : Nat) (s : Source)
  | remove (node : NodeId)
  | removeLink (node : NodeId)
  | replace (node : NodeId) (u : U)
  | crossfade (node : NodeId) (f : Fade) (t : α) (u : U)
  | connect (source : NodeId) (sourcePort : Nat) (target : NodeId) (targetPort : Nat)
  | disconnect (node : NodeId) (port : Nat)
  | connectInput (input : Nat) (target : NodeId) (targetPort : Nat)
  | pipeInput (target : NodeId)
  | connectOutput (source : NodeId) (sourcePort output : Nat)
  | disconnectOutput (output : Nat)
  | pipeOutput (source : NodeId)
  | passThrough (input output : Nat)
  | pipeAll (source target : NodeId)
  | thru
  | error
  | tick (input : List α)
  | reset
  | setSampleRate (sr : α)

/-- Environment of a run: units, hash seeds, default sample rate. -/
structure Env (U α : Type) where
  S : Units U α
  seed : Nat → Nat
  hash0 : Nat

/-- Effect of a call; `next` is the next id that `NodeId::new()` will return. `none` is a panic. -/
def Edit.apply [DecidableEq α] (E : Env U α) (next : NodeId) (net : Net U α) : Edit U α → Option (Net U α × NodeId)
  | .push u => some (Net.push E.S net next u, next + 1)
  | .fadeIn f t u => (Net.fadeIn E.S net next f t u).map (·, next + 1)
  | .chain u => (Net.chain E.S net next u).map (·, next + 1)
  | .setSource n c s => (Net.setSource net n c s).map (·, next)
  | .setOutputSource c s => (Net.setOutputSource net c s).map (·, next)
  | .remove n => (Net.remove2 net n false).map (·.1, next)
  | .removeLink n => (Net.remove2 net n true).map (·.1, next)
  | .replace n u => (Net.replace E.S net n u).map (·.1, next)
  | .crossfade n f t u => (Net.crossfade E.S net n f t u).map (·, next)
  | .connect s sp t tp => (Net.connect net s sp t tp).map (·, next)
  | .disconnect n p => (Net.disconnect net n p).map (·, next)
  | .connectInput i t tp => (Net.connectInput net i t tp).map (·, next)
  | .pipeInput t => (Net.pipeInput net t).map (·, next)
  | .connectOutput s sp o => (Net.connectOutput net s sp o).map (·, next)
  | .disconnectOutput o => (Net.disconnectOutput net o).map (·, next)
  | .pipeOutput s => (Net.pipeOutput net s).map (·, next)
  | .passThrough i o => (Net.passThrough net i o).map (·, next)
  | .pipeAll s t => (Net.pipeAll net s t).map (·, next)
  | .thru => some (Net.thru net, next)
  | .error => some (if net.order.isSome then net else Net.determineOrder E.S E.seed E.hash0 net, next)
  | .tick x => some ((Net.tick E.S E.seed E.hash0 net x).1, next)
  | .reset => some (Net.reset E.S E.seed E.hash0 net, next)
  | .setSampleRate r => some (Net.setSampleRate E.S E.seed E.hash0 net r, next)

/-- Combinations of two nets. -/
inductive Op2 | pipe | stack | branch | bus | binary (o : Op)

def Op2.apply (E : Env U α) (a b : Net U α) (next : NodeId) : Op2 → Option (Net U α × NodeId)
  | .pipe => Net.pipe a b next
  | .stack => Net.stack a b next
  | .branch => Net.branch a b next
  | .bus => Net.bus E.S a b next
  | .binary o => Net.binary E.S o a b next

/-- `Reach E ok n net`: `net` has been built by calls that did not panic, in any order and also from clones of other
nets, at a time when the next node id is `n`; `ok` restricts the calls. -/
inductive Reach [DecidableEq α] (E : Env U α) (ok : Net U α → Edit U α → Prop) : NodeId → Net U α → Prop
  | new (n : NodeId) (sr : α) (i o : Nat) : Reach E ok n (Net.new sr i o)
  | wrap {n sr u net} (h : Net.wrap E.S sr n u = some net) : Reach E ok (n + 1) net
  | scalar {n sr k x net} (h : Net.scalar E.S sr n k x = some net) : Reach E ok (n + 1) net
  | later {n m net} (h : Reach E ok n net) (hm : n ≤ m) : Reach E ok m net
  | edit {n m net net'} (h : Reach E ok n net) (e : Edit U α) (he : ok net e) (ha : e.apply E n net = some (net', m)) :
      Reach E ok m net'
  | op {n m a b c} (ha : Reach E ok n a) (hb : Reach E ok n b) (o : Op2) (h : o.apply E a b n = some (c, m)) :
      Reach E ok m c
  | neg {n m a c sr} (ha : Reach E ok n a) (h : Net.neg E.S sr a n = some (c, m)) : Reach E ok m c

/-! ## Specification -/

/-- `Net::contains`, `Net::inputs_in`, `Net::outputs_in`, `Net::node` (`net.rs:807-827`). -/
def contains (net : Net U α) (id : NodeId) : Bool := (net.nodeIndex.get id).isSome
def unitOf (net : Net U α) (id : NodeId) : Option U :=
  (net.nodeIndex.get id).bind (fun i => (net.vertex[i]?).map (fun v => v.eng.unit))
def outputsIn (net : Net U α) (id : NodeId) : Option Nat :=
  (net.nodeIndex.get id).bind (fun i => (net.vertex[i]?).map (fun v => v.outs))
def inputsIn (net : Net U α) (id : NodeId) : Option Nat :=
  (net.nodeIndex.get id).bind (fun i => (net.vertex[i]?).map (fun v => v.ins))
/-- `Net::size`, `net.rs:759-761`; `Net::ids`. -/
def size (net : Net U α) : Nat := net.vertex.length
def ids (net : Net U α) : List NodeId := net.nodeIndex.map Prod.fst

/-- A reported source exists. -/
def SourceExists (net : Net U α) : Source → Prop
  | .zero => True
  | .glob g => g < net.inputs
  | .loc id p => ∃ o, outputsIn net id = some o ∧ p < o

/-- What a user relies on, in terms of the query functions of `Net` only: ids are distinct, one per node, and every
node has a unit whose arity is the number of its channels; every node input and every net output has an existing
source. -/
structure Wired (S : Units U α) (net : Net U α) : Prop where
  ids_nodup : (ids net).Nodup
  ids_size : (ids net).length = size net
  unit : ∀ id, contains net id = true → ∃ u, unitOf net id = some u ∧ inputsIn net id = some (S.ins u) ∧
    outputsIn net id = some (S.outs u)
  inputs : ∀ id i c, inputsIn net id = some i → c < i → ∃ s, source net id c = some s ∧ SourceExists net s
  outputs : ∀ c, c < net.outputs → ∃ s, outputSource net c = some s ∧ SourceExists net s

theorem contains_iff (net : Net U α) (id : NodeId) : contains net id = true ↔ id ∈ ids net := by
  simp only [contains, ids]
  rw [Option.isSome_iff_ne_none, ne_eq, IdMap.get_eq_none, Classical.not_not]

theorem report_exists {S : Units U α} {net : Net U α} (h : Valid S net) {p : Port} (hp : PortOK net p) :
    ∃ s, reportSource net p = some s ∧ SourceExists net s := by
  cases p with
  | zero => exact ⟨_, rfl, trivial⟩
  | glob g => exact ⟨_, rfl, hp⟩
  | loc j q =>
    obtain ⟨v, hv, hq⟩ := hp
    refine ⟨.loc v.id q, by simp [reportSource, hv], v.outs, ?_, hq⟩
    simp [outputsIn, (h.map v.id j).2 ⟨v, hv, rfl⟩, hv]

theorem Valid.wired {S : Units U α} {net : Net U α} (h : Valid S net) : Wired S net where
  ids_nodup := h.keys
  ids_size := by simp only [ids, List.length_map]; exact h.mapLen
  unit := by
    intro id hid
    simp only [contains, Option.isSome_iff_exists] at hid
    obtain ⟨i, hi⟩ := hid
    obtain ⟨v, hv, _⟩ := (h.map _ _).1 hi
    have := h.arity i v hv
    exact ⟨v.eng.unit, by simp [unitOf, hi, hv], by simp [inputsIn, hi, hv, this.2.1], by simp [outputsIn, hi, hv, this.2.2]⟩
  inputs := by
    intro id i c hi hc
    simp only [inputsIn, Option.bind_eq_some_iff, Option.map_eq_some_iff] at hi
    obtain ⟨k, hk, v, hv, rfl⟩ := hi
    have hl := (h.arity k v hv).1
    have hc' : c < v.source.length := by omega
    have he := List.getElem?_eq_getElem hc'
    obtain ⟨s, hs, hx⟩ := report_exists h (h.edge k v c _ hv he).2
    refine ⟨s, ?_, hx⟩
    simp [source, hk, hv, hc, he, hs]
  outputs := by
    intro c hc
    have hc' : c < net.outputEdge.length := by rw [h.oeLen]; exact hc
    have he := List.getElem?_eq_getElem hc'
    obtain ⟨s, hs, hx⟩ := report_exists h (h.oe c _ he).2
    refine ⟨s, ?_, hx⟩
    simp [outputSource, hc, he, hs]

/-! ## C01 -/

/-- The restriction needed: source ports and global inputs passed to `connect`, `connect_output`, `connect_input`
and `pass_through` exist (the code does not check them), and `remove_link` is not used on a node that forms a
two-node loop with one of its readers. -/
def InRange (net : Net U α) : Edit U α → Prop
  | .connect s sp _ _ => ∀ o, outputsIn net s = some o → sp < o
  | .connectOutput s sp _ => ∀ o, outputsIn net s = some o → sp < o
  | .connectInput i _ _ => i < net.inputs
  | .passThrough i _ => i < net.inputs
  | .removeLink n => ∀ i v, net.nodeIndex.get n = some i → net.vertex[i]? = some v → NoTwoCycle net i v
  | _ => True

theorem inRange_port {net : Net U α} {s : NodeId} {sp : Nat} (h : ∀ o, outputsIn net s = some o → sp < o) (i : Nat) (v : Vertex U α)
    (hi : net.nodeIndex.get s = some i) (hv : net.vertex[i]? = some v) : sp < v.outs :=
  h v.outs (by simp [outputsIn, hi, hv])

theorem wf_edit [DecidableEq α] {E : Env U α} (hS : E.S.Lawful) {n m : NodeId} {net net' : Net U α} (h : WF E.S n net)
    (e : Edit U α) (hr : InRange net e) (he : e.apply E n net = some (net', m)) : WF E.S m net' ∧ n ≤ m := by
  cases e <;> simp only [Edit.apply, Option.map_eq_some_iff, Prod.mk.injEq, Option.some.injEq] at he
  case push u => obtain ⟨rfl, rfl⟩ := he; exact ⟨wf_push h u, Nat.le_succ _⟩
  case fadeIn => obtain ⟨x, hx, rfl, rfl⟩ := he; exact ⟨wf_fadeIn hS h hx, Nat.le_succ _⟩
  case chain => obtain ⟨x, hx, rfl, rfl⟩ := he; exact ⟨wf_chain h hx, Nat.le_succ _⟩
  case setSource => obtain ⟨x, hx, rfl, rfl⟩ := he; exact ⟨wf_setSource h hx, Nat.le_refl _⟩
  case setOutputSource => obtain ⟨x, hx, rfl, rfl⟩ := he; exact ⟨wf_setOutputSource h hx, Nat.le_refl _⟩
  case remove => obtain ⟨x, hx, rfl, rfl⟩ := he; exact ⟨wf_remove h hx, Nat.le_refl _⟩
  case removeLink => obtain ⟨x, hx, rfl, rfl⟩ := he; exact ⟨wf_removeLink h hr hx, Nat.le_refl _⟩
  case replace => obtain ⟨x, hx, rfl, rfl⟩ := he; exact ⟨wf_replace hS h hx, Nat.le_refl _⟩
  case crossfade => obtain ⟨x, hx, rfl, rfl⟩ := he; exact ⟨wf_crossfade hS h hx, Nat.le_refl _⟩
  case connect => obtain ⟨x, hx, rfl, rfl⟩ := he; exact ⟨wf_connect h (inRange_port hr) hx, Nat.le_refl _⟩
  case disconnect => obtain ⟨x, hx, rfl, rfl⟩ := he; exact ⟨wf_disconnect h hx, Nat.le_refl _⟩
  case connectInput => obtain ⟨x, hx, rfl, rfl⟩ := he; exact ⟨wf_connectInput h hr hx, Nat.le_refl _⟩
  case pipeInput => obtain ⟨x, hx, rfl, rfl⟩ := he; exact ⟨wf_pipeInput h hx, Nat.le_refl _⟩
  case connectOutput => obtain ⟨x, hx, rfl, rfl⟩ := he; exact ⟨wf_connectOutput h (inRange_port hr) hx, Nat.le_refl _⟩
  case disconnectOutput => obtain ⟨x, hx, rfl, rfl⟩ := he; exact ⟨wf_disconnectOutput h hx, Nat.le_refl _⟩
  case pipeOutput => obtain ⟨x, hx, rfl, rfl⟩ := he; exact ⟨wf_pipeOutput h hx, Nat.le_refl _⟩
  case passThrough => obtain ⟨x, hx, rfl, rfl⟩ := he; exact ⟨wf_passThrough h hr hx, Nat.le_refl _⟩
  case pipeAll => obtain ⟨x, hx, rfl, rfl⟩ := he; exact ⟨wf_pipeAll h hx, Nat.le_refl _⟩
  case thru => obtain ⟨rfl, rfl⟩ := he; exact ⟨wf_thru h, Nat.le_refl _⟩
  case error =>
    obtain ⟨rfl, rfl⟩ := he
    refine ⟨?_, Nat.le_refl _⟩
    split
    · exact h
    · exact wf_determineOrder hS _ _ h
  case tick x => obtain ⟨rfl, rfl⟩ := he; exact ⟨wf_tick hS _ _ h x, Nat.le_refl _⟩
  case reset => obtain ⟨rfl, rfl⟩ := he; exact ⟨wf_reset hS _ _ h, Nat.le_refl _⟩
  case setSampleRate r => obtain ⟨rfl, rfl⟩ := he; exact ⟨wf_setSampleRate hS _ _ h r, Nat.le_refl _⟩

theorem wf_op2 {E : Env U α} (hS : E.S.Lawful) {n m : NodeId} {a b c : Net U α} (ha : WF E.S n a) (hb : WF E.S n b)
    (o : Op2) (he : o.apply E a b n = some (c, m)) : WF E.S m c ∧ n ≤ m := by
  cases o
  · exact wf_pipe ha hb he
  · exact wf_stack ha hb he
  · exact wf_branch ha hb he
  · exact wf_bus hS ha hb he
  · exact wf_binary hS ha hb he

theorem Reach.wf [DecidableEq α] {E : Env U α} (hS : E.S.Lawful) {n : NodeId} {net : Net U α}
    (h : Reach E InRange n net) : WF E.S n net := by
  induction h with
  | new n sr i o => exact wf_new n sr i o
  | wrap h => exact wf_wrap h
  | scalar h => exact wf_scalar hS h
  | later _ hm ih => exact ih.mono hm
  | edit _ e he ha ih => exact (wf_edit hS ih e he ha).1
  | op _ _ o h iha ihb => exact (wf_op2 hS iha ihb o h).1
  | neg _ h ih => exact (wf_neg hS ih h).1

/-- **C01** (partial): every net built by any history of calls whose source ports and global inputs exist is wired
correctly. The full statement drops `InRange`; it is false of the code, see `C01_violation_*`. -/
theorem C01_wiring_partial [DecidableEq α] (E : Env U α) (hS : E.S.Lawful) {n : NodeId} {net : Net U α}
    (h : Reach E InRange n net) : Wired E.S net := (h.wf hS).valid.wired

/-- The source vertex computed for a vertex really supplies all of its inputs. -/
theorem srcVertex_spec {v : Vertex U α} {n p : Nat} (h : v.updateSourceVertex.srcVertex = some (n, p)) :
    0 < (v.source.take v.ins).length ∧ ∀ (i : Nat) (e : Edge), (v.source.take v.ins)[i]? = some e → e.source = .loc n (p + i) := by
  simp only [Vertex.updateSourceVertex] at h
  cases hs : v.source.take v.ins with
  | nil => simp [hs] at h
  | cons e es =>
    simp only [hs] at h
    refine ⟨by simp, ?_⟩
    cases he : e.source with
    | zero => simp [he] at h
    | glob g => simp [he] at h
    | loc node port =>
      rw [he] at h
      simp only at h
      split at h
      · rename_i hall
        cases h
        intro i x hx
        rw [List.all_eq_true] at hall
        have := hall (x.source == .loc n (p + i)) (by
          apply List.mem_of_getElem? (i := i)
          rw [List.getElem?_mapIdx, hx]; rfl)
        simpa using this
      · cases h

theorem portOk_of {net : Net U α} {p : Port} (h : PortOK net p) : portOk net p = true := by
  cases p with
  | zero => rfl
  | glob g => simpa [portOk, PortOK] using h
  | loc j q =>
    obtain ⟨v, hv, hq⟩ := h
    simp [portOk, hv, hq]

/-- `check()` passes on a well-formed net whose evaluation order has just been determined. -/
theorem check_determineOrder {S : Units U α} (hS : S.Lawful) (seed : Nat → Nat) (h0 : Nat) {n : NodeId} {net : Net U α}
    (h : WF S n net) : check (determineOrder S seed h0 net) = true := by
  have hw := wf_determineOrder hS seed h0 h
  obtain ⟨hs, hk⟩ := determineOrder_spec hS seed h0 net
  generalize hd : determineOrder S seed h0 net = net' at *
  simp only [check, Bool.and_eq_true, List.all_eq_true, List.mem_range, beq_iff_eq]
  refine ⟨⟨⟨hw.valid.oeLen, hw.valid.mapLen⟩, ?_⟩, ?_⟩
  · intro c hc
    have he := List.getElem?_eq_getElem (show c < net'.outputEdge.length by rw [hw.valid.oeLen]; exact hc)
    have := hw.valid.oe c _ he
    rw [he]
    simp [this.1, portOk_of this.2]
  · intro i hi
    have hv := List.getElem?_eq_getElem hi
    generalize hvv : net'.vertex[i] = v at hv
    rw [hv]
    simp only [checkVertex, Bool.and_eq_true, beq_iff_eq, List.all_eq_true, List.mem_range]
    refine ⟨⟨⟨(hw.valid.map _ _).2 ⟨v, hv, rfl⟩, (hw.valid.arity i v hv).1⟩, ?_⟩, ?_⟩
    · intro c hc
      have he := List.getElem?_eq_getElem (show c < v.source.length by rw [(hw.valid.arity i v hv).1]; exact hc)
      generalize v.source[c]'_ = e at he
      have h1 := hw.valid.edge i v c e hv he
      have h2 := hw.noSelf i v c e
      rw [he]
      simp only [h1.1, beq_self_eq_true, portOk_of h1.2, Bool.true_and]
      cases hsrc : e.source with
      | loc j q =>
        simp only [bne_iff_ne, ne_eq]
        rintro rfl
        exact h2 q hv he hsrc
      | _ => rfl
    · cases hsv : v.srcVertex with
      | none => rfl
      | some np =>
        obtain ⟨sn, sp⟩ := np
        obtain ⟨v0, hv0⟩ := hs.find hv
        have hnode := hs.node i v0 v hv0 hv
        have hsrc := (hk i v0 v hv0 hv).2.2.2.2.2.2
        rw [hsv] at hsrc
        have hspec := srcVertex_spec hsrc.symm
        rw [← hnode.2.2.2, ← hnode.2.1] at hspec
        have htake : v.source.take v.ins = v.source := by
          rw [← (hw.valid.arity i v hv).1, List.take_length]
        rw [htake] at hspec
        have hl := (hw.valid.arity i v hv).1
        have hlast := List.getElem?_eq_getElem (show v.ins - 1 < v.source.length by omega)
        have h1 := hspec.2 _ _ hlast
        have h2 := hw.valid.edge i v _ _ hv hlast
        have h3 := hw.noSelf i v _ _ (sp + (v.ins - 1)) hv hlast
        rw [h1] at h2
        obtain ⟨w, hwv, hq⟩ := h2.2
        simp only [Bool.and_eq_true, bne_iff_ne, ne_eq]
        refine ⟨?_, ?_⟩
        · rintro rfl; exact h3 h1
        · rw [hwv]; simp; omega

/-- **C01** (partial): `check()` does not fail once the evaluation order has been determined after the last edit. The
code's `check` can fail between an edit and the next order determination, see `C01_violation_check`. -/
theorem C01_check_partial [DecidableEq α] (E : Env U α) (hS : E.S.Lawful) {n : NodeId} {net : Net U α}
    (h : Reach E InRange n net) : check (determineOrder E.S E.seed E.hash0 net) = true :=
  check_determineOrder hS _ _ (h.wf hS)

/-! ### Counterexamples to the unrestricted statement, and non-vacuity -/

/-- Runs a list of calls. -/
def runEdits [DecidableEq α] (E : Env U α) : NodeId → Net U α → List (Edit U α) → Option (Net U α × NodeId)
  | n, net, [] => some (net, n)
  | n, net, e :: es => (e.apply E n net).bind (fun r => runEdits E r.2 r.1 es)

theorem Reach.runEdits [DecidableEq α] {E : Env U α} {n m : NodeId} {net net' : Net U α} (es : List (Edit U α))
    (h : Reach E (fun _ _ => True) n net) (he : Net.runEdits E n net es = some (net', m)) :
    Reach E (fun _ _ => True) m net' := by
  induction es generalizing n net with
  | nil => simp [Net.runEdits] at he; obtain ⟨rfl, rfl⟩ := he; exact h
  | cons e es ih =>
    simp only [Net.runEdits, Option.bind_eq_some_iff] at he
    obtain ⟨⟨x, k⟩, hx, he⟩ := he
    exact ih (h.edit e trivial hx) he

def demoEnv : Env DU Int := ⟨demo, fun x => x, 0⟩

/-- Two one-output generators and one filter; the filter reads a port that does not exist. -/
def badPort : List (Edit DU Int) := [.push gen1, .push fil1, .connect 0 7 1 0, .pipeOutput 1]

/-- **C01** is violated by the code: `connect` accepts a source port that does not exist. -/
theorem C01_violation_connect : ∃ n net, Reach demoEnv (fun _ _ => True) n net ∧ ¬ Wired demo net := by
  have hr : ∃ net m, runEdits demoEnv 0 (new 44100 0 1) badPort = some (net, m) ∧ source net 1 0 = some (.loc 0 7) ∧
      inputsIn net 1 = some 1 ∧ outputsIn net 0 = some 1 := by
    refine ⟨_, _, rfl, rfl, rfl, rfl⟩
  obtain ⟨net, m, h1, h2, h3, h4⟩ := hr
  refine ⟨m, net, (Reach.new 0 _ 0 1).runEdits _ h1, ?_⟩
  intro hw
  obtain ⟨s, hs, hx⟩ := hw.inputs 1 1 0 h3 (by omega)
  rw [h2] at hs; cases hs
  obtain ⟨o, ho, hp⟩ := hx
  rw [h4] at ho; cases ho
  omega

/-- **C01** is violated by the code: with correct ports only, `check()` fails after push, push, connect, tick, remove
(the cached source vertex of the moved node is stale and points at the node itself). -/
theorem C01_violation_check : ∃ net m, runEdits demoEnv 0 (new 44100 0 1)
    [.push gen1, .push fil1, .connect 0 0 1 0, .tick [], .remove 0] = some (net, m) ∧ check net = false := by
  refine ⟨_, _, rfl, rfl⟩

/-- `remove_link` on one node of a two-node loop leaves the other node connected to itself, although
self-connections are prohibited; `check()` fails even after the order has been determined. -/
theorem C01_violation_removeLink : ∃ net m, runEdits demoEnv 0 (new 44100 0 1)
    [.push fil1, .push fil1, .connect 0 0 1 0, .connect 1 0 0 0, .removeLink 0, .error] = some (net, m) ∧
    source net 1 0 = some (.loc 1 0) ∧ check net = false := by
  refine ⟨_, _, rfl, rfl, rfl⟩

/-- A non-trivial history satisfying `InRange`. -/
example : ∃ net m, Reach demoEnv InRange m net ∧ size net = 2 ∧ source net 2 0 = some (.loc 0 0) := by
  have h0 : Reach demoEnv InRange 0 (new 44100 1 1 : Net DU Int) := .new 0 _ 1 1
  have h1 := h0.edit (.push gen1) trivial rfl
  have h2 := h1.edit (.push fil1) trivial rfl
  have h3 := h2.edit (.push fil1) trivial rfl
  have h4 := h3.edit (.pipeAll 0 1) trivial rfl
  have h5 := h4.edit (.connect 1 0 2 0) (by intro o ho; cases ho; decide) rfl
  have h6 := h5.edit (.removeLink 1) (by
    intro i v hi hv j w c e p e' q hw he hs he' hq
    cases hi
    have : j = 0 ∨ j = 1 ∨ j = 2 := by
      have := (List.getElem?_eq_some_iff.1 hw).1
      change j < 3 at this; omega
    rcases this with rfl | rfl | rfl
    · cases hw; cases he
    · cases hw; cases hv
      cases c with
      | zero => cases he; cases hs
      | succ c => cases he
    · cases hv
      cases p with
      | zero => cases he'; cases hq
      | succ p => cases he') rfl
  exact ⟨_, _, h6, rfl, rfl⟩

end Fundsp.Net
