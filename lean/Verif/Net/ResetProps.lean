import Verif.Net.BlockProps

/-! # Resetting a net (C19) -/

namespace Fundsp.Net
variable {U α : Type}

/-- `u'` is what can become of the unit `u` by playing and resetting it. -/
inductive Played (S : Units U α) (P : Proc U α) (u : U) : U → Prop
  | start : Played S P u u
  | tick {v} (h : Played S P u v) (x : List α) : Played S P u (S.utick v x).1
  | block {v} (h : Played S P u v) (size : Nat) (x old : CBuf α) : Played S P u (P v size x old).1
  | reset {v} (h : Played S P u v) : Played S P u (S.reset v)

theorem Played.trans {S : Units U α} {P : Proc U α} {a b c : U} (h : Played S P a b) (h' : Played S P b c) : Played S P a c := by
  induction h' with
  | start => exact h
  | tick _ x ih => exact .tick ih x
  | block _ s x o ih => exact .block ih s x o
  | reset _ ih => exact .reset ih

/-- `w` is `v` after playing, no crossfade being in progress. -/
structure PlayedVertex (S : Units U α) (P : Proc U α) (v w : Vertex U α) : Prop where
  id : w.id = v.id
  ins : w.ins = v.ins
  outs : w.outs = v.outs
  source : w.source = v.source
  src : w.srcVertex = v.srcVertex
  phase : w.eng.phase = v.eng.phase
  next : w.eng.next = v.eng.next
  latest : w.eng.latest = v.eng.latest
  unit : Played S P v.eng.unit w.eng.unit

theorem PlayedVertex.refl (S : Units U α) (P : Proc U α) (v : Vertex U α) : PlayedVertex S P v v :=
  ⟨rfl, rfl, rfl, rfl, rfl, rfl, rfl, rfl, .start⟩

theorem PlayedVertex.trans {S : Units U α} {P : Proc U α} {a b c : Vertex U α} (h : PlayedVertex S P a b) (h' : PlayedVertex S P b c) :
    PlayedVertex S P a c :=
  ⟨h'.id.trans h.id, h'.ins.trans h.ins, h'.outs.trans h.outs, h'.source.trans h.source, h'.src.trans h.src, h'.phase.trans h.phase,
    h'.next.trans h.next, h'.latest.trans h.latest, h.unit.trans h'.unit⟩

def PlayedList (S : Units U α) (P : Proc U α) (a b : List (Vertex U α)) : Prop :=
  b.length = a.length ∧ ∀ (i : Nat) (v w : Vertex U α), a[i]? = some v → b[i]? = some w → PlayedVertex S P v w

theorem PlayedList.trans {S : Units U α} {P : Proc U α} {a b c : List (Vertex U α)} (h : PlayedList S P a b) (h' : PlayedList S P b c) :
    PlayedList S P a c := by
  refine ⟨h'.1.trans h.1, fun i v w hv hw => ?_⟩
  have hi := (List.getElem?_eq_some_iff.1 hv).1
  have hb := List.getElem?_eq_getElem (show i < b.length by rw [h.1]; exact hi)
  exact (h.2 i v _ hv hb).trans (h'.2 i _ w hb hw)

theorem PlayedList.refl (S : Units U α) (P : Proc U α) (a : List (Vertex U α)) : PlayedList S P a a :=
  ⟨rfl, fun i v w hv hw => by rw [hv] at hw; cases hw; exact .refl S P v⟩

theorem PlayedList.modify {S : Units U α} {P : Proc U α} (a : List (Vertex U α)) (k : Nat) (f : Vertex U α → Vertex U α)
    (h : ∀ v, a[k]? = some v → PlayedVertex S P v (f v)) : PlayedList S P a (a.modify k f) := by
  refine ⟨List.length_modify _ _ _, fun i v w hv hw => ?_⟩
  rw [List.getElem?_modify, hv] at hw
  by_cases hki : k = i
  · subst hki
    simp only [if_true] at hw
    cases hw; exact h v hv
  · simp only [hki, if_false] at hw
    cases hw; exact .refl S P v

/-- No crossfade is in progress. -/
def Still (vs : List (Vertex U α)) : Prop := ∀ v ∈ vs, v.eng.next.unit = none

theorem PlayedList.still {S : Units U α} {P : Proc U α} {a b : List (Vertex U α)} (h : PlayedList S P a b) (hs : Still a) : Still b := by
  intro w hw
  obtain ⟨i, hi⟩ := List.getElem?_of_mem hw
  have ha := List.getElem?_eq_getElem (show i < a.length by rw [← h.1]; exact (List.getElem?_eq_some_iff.1 hi).1)
  rw [(h.2 i _ w ha hi).next]
  exact hs _ (List.mem_of_getElem? ha)

theorem played_foldl {S : Units U α} {P : Proc U α} (f : List (Vertex U α) → Nat → List (Vertex U α))
    (hf : ∀ vs k, Still vs → PlayedList S P vs (f vs k)) (is : List Nat) : ∀ vs, Still vs → PlayedList S P vs (is.foldl f vs) := by
  induction is with
  | nil => intro vs _; exact .refl S P vs
  | cons i is ih =>
    intro vs hs
    have h1 := hf vs i hs
    exact h1.trans (ih _ (h1.still hs))

theorem played_tickNode {S : Units U α} {P : Proc U α} (sr : α) (x : List α) (vs : List (Vertex U α)) (k : Nat) (hs : Still vs) :
    PlayedList S P vs (tickNode S sr x vs k) := by
  refine .modify _ _ _ (fun v hv => ?_)
  have hn := hs v (List.mem_of_getElem? hv)
  simp only [Eng.tick_plain _ _ _ hn]
  exact ⟨rfl, rfl, rfl, rfl, rfl, rfl, rfl, rfl, .tick .start _⟩

theorem played_procNode {S : Units U α} {P : Proc U α} (sr : α) (x : CBuf α) (size : Nat) (tmp : Nat → CBuf α) (vs : List (Vertex U α)) (k : Nat)
    (hs : Still vs) : PlayedList S P vs (procNode S P sr x size tmp vs k) := by
  refine .modify _ _ _ (fun v hv => ?_)
  have hn := hs v (List.mem_of_getElem? hv)
  simp only [Eng.process, hn]
  split <;> exact ⟨rfl, rfl, rfl, rfl, rfl, rfl, rfl, rfl, .block .start _ _ _⟩

/-- Playing a net that has its evaluation order. -/
theorem played_run {E : Env U α} {P : Proc U α} (cs : List (NCall α)) : ∀ net : Net U α, net.order.isSome = true → Still net.vertex →
    ∃ r, (run E P net cs).1 = { net with vertex := (run E P net cs).1.vertex, revision := r } ∧ PlayedList E.S P net.vertex (run E P net cs).1.vertex := by
  induction cs with
  | nil => intro net _ _; exact ⟨_, rfl, .refl _ _ _⟩
  | cons c cs ih =>
    intro net ho hs
    cases c with
    | tick x =>
      have e : tick E.S E.seed E.hash0 net x = tickOrdered E.S net x := by simp [tick, ho]
      have h1 : PlayedList E.S P net.vertex (tickOrdered E.S net x).1.vertex :=
        played_foldl _ (fun vs k hs => played_tickNode net.sampleRate x vs k hs) _ _ hs
      obtain ⟨r, h2, h3⟩ := ih (tickOrdered E.S net x).1 ho (h1.still hs)
      simp only [run, e]
      exact ⟨r, h2, h1.trans h3⟩
    | block size x old tmp =>
      have e : process E.S P E.seed E.hash0 net size x old tmp = processOrdered E.S P net size x old tmp := by simp [process, ready, ho]
      have h1 : PlayedList E.S P net.vertex (processOrdered E.S P net size x old tmp).1.vertex :=
        played_foldl _ (fun vs k hs => played_procNode net.sampleRate x size tmp vs k hs) _ _ hs
      obtain ⟨r, h2, h3⟩ := ih (processOrdered E.S P net size x old tmp).1 ho (h1.still hs)
      simp only [run, e]
      exact ⟨r, h2, h1.trans h3⟩
    | reset =>
      have e : reset E.S E.seed E.hash0 net = { net with vertex := net.vertex.map (fun v =>
          { v with eng := { v.eng with unit := E.S.reset v.eng.unit }, changed := net.revision }) } := by simp [reset, ho]
      have h1 : PlayedList E.S P net.vertex (net.vertex.map (fun v =>
          { v with eng := { v.eng with unit := E.S.reset v.eng.unit }, changed := net.revision })) := by
        refine ⟨List.length_map _, fun i v w hv hw => ?_⟩
        rw [List.getElem?_map, hv] at hw
        cases hw
        exact ⟨rfl, rfl, rfl, rfl, rfl, rfl, rfl, rfl, .reset .start⟩
      obtain ⟨r, h2, h3⟩ := ih { net with vertex := net.vertex.map (fun v =>
          { v with eng := { v.eng with unit := E.S.reset v.eng.unit }, changed := net.revision }) } ho (h1.still hs)
      simp only [run, e]
      exact ⟨r, h2, h1.trans h3⟩

/-- The units of a node are fresh: however they are played, resetting them makes them indistinguishable from what they are now. -/
def FreshUnits (E : Env U α) (P : Proc U α) (R : U → U → Prop) (net : Net U α) : Prop :=
  ∀ v ∈ net.vertex, ∀ u, Played E.S P v.eng.unit u → R (E.S.reset u) v.eng.unit

/-- **C19** for nets: if resetting returns the units of a net to the state they are in when the net is first played, then resetting the net does so for
the net: after any history of ticks, blocks and resets, a reset makes it play the same as from the start, in ticks and in blocks.

Missing: nets in which a node is being crossfaded (`C19_violation_net_fade`). -/
theorem C19_net_partial [DecidableEq α] (E : Env U α) (hS : E.S.Lawful) {P : Proc U α} {R : U → U → Prop} (L : BlockLaw E.S P R)
    {n : NodeId} {net : Net U α} (h : Reach E InRange n net) (hR : ∀ v ∈ (ready E.S E.seed E.hash0 net).vertex, v.eng.Obeys R)
    (hF : FreshUnits E P R (ready E.S E.seed E.hash0 net)) (hc : ¬ Cyclic net) (hf : ∀ id, fading net id = false)
    (cs ds : List (NCall α)) (hs : SizesOK ds) :
    (run E P (ready E.S E.seed E.hash0 net) (cs ++ .reset :: ds)).2 =
      (run E P (ready E.S E.seed E.hash0 net) cs).2 ++ (run E P (ready E.S E.seed E.hash0 net) ds).2 := by
  obtain ⟨o, hr⟩ := h.runs hS hc
  have hnext : ∀ (i : Nat) (u : Vertex U α), (ready E.S E.seed E.hash0 net).vertex[i]? = some u → u.eng.next.unit = none := by
    intro i u hu
    obtain ⟨v, hv, h1, _⟩ := ready_fade hS E.seed E.hash0 net i u hu
    rw [h1]; exact not_fading (h.wf hS).valid hf i v hv
  generalize ready E.S E.seed E.hash0 net = m at *
  have hstill : Still m.vertex := by
    intro v hv
    obtain ⟨i, hi⟩ := List.getElem?_of_mem hv
    exact hnext i v hi
  obtain ⟨r, h1, h2⟩ := played_run (E := E) (P := P) cs m (by rw [hr.order]; rfl) hstill
  rw [run_append]
  refine congrArg₂ (· ++ ·) rfl ?_
  simp only [run]
  generalize (run E P m cs).1 = p at h1 h2 ⊢
  have hord : p.order = some o := by rw [h1]; exact hr.order
  have ep : reset E.S E.seed E.hash0 p = { p with vertex := p.vertex.map (fun v =>
      { v with eng := { v.eng with unit := E.S.reset v.eng.unit }, changed := p.revision }) } := by simp [reset, hord]
  have hrel : NetRel R (reset E.S E.seed E.hash0 p) m := by
    rw [ep]
    refine ⟨by rw [h1], by rw [h1], by rw [h1], by rw [h1], by rw [h1], by rw [h1], by simp [h2.1], ?_⟩
    intro i v u hv hu
    simp only [List.getElem?_map, Option.map_eq_some_iff] at hv
    obtain ⟨w, hw, rfl⟩ := hv
    have hk := h2.2 i u w hu hw
    have hobey := engRel_refl (hR u (List.mem_of_getElem? hu))
    refine ⟨⟨hF u (List.mem_of_getElem? hu) _ hk.unit, hk.phase, ?_, ?_⟩, hk.source, hk.ins, hk.outs, hk.src, hk.id⟩
    · show EditRel R w.eng.next u.eng.next
      rw [hk.next]; exact hobey.next
    · show EditRel R w.eng.latest u.eng.latest
      rw [hk.latest]; exact hobey.latest
  have a := (run_rel hS L (engBlock_plain L m.sampleRate) ds rfl hr (netRel_refl m hR) hrel hnext hs).1
  have b := (run_rel hS L (engBlock_plain L m.sampleRate) ds rfl hr (netRel_refl m hR) (netRel_refl m hR) hnext hs).1
  rw [a, b]

/-! ## A crossfade in progress is not reset -/

/-- Rational numbers, with the smooth fade of `sequencer.rs:51-56` and `math.rs:417-419`; the other fade is not used below. -/
def ratArith : Arith ℚ where
  zero := 0
  one := 1
  add := (· + ·)
  sub := (· - ·)
  mul := (· * ·)
  div := (· / ·)
  ge := fun a b => decide (b ≤ a)
  ofNat := fun n => n
  toNat := fun x => ⌊x⌋₊
  fadeAt := fun _ x => ((x * 6 - 15) * x + 10) * x * x * x

/-- Generators that count up by `step`; `reset` sets the count to zero. -/
structure Cnt where
  k : ℚ
  step : ℚ

def counters : Units Cnt ℚ where
  toArith := ratArith
  ins := fun _ => 0
  outs := fun _ => 1
  setSR := fun _ u => u
  reset := fun u => { u with k := 0 }
  ping := fun _ h u => (u, h)
  utick := fun u _ => ({ u with k := u.k + u.step }, [u.k])
  binop := fun _ => ⟨0, 0⟩
  const := fun _ => ⟨0, 0⟩
  dummy := fun _ _ => ⟨0, 0⟩

def cntEnv : Env Cnt ℚ := ⟨counters, fun x => x, 0⟩

/-- A constant zero that is being crossfaded to a counter, within four samples. -/
def cntNet : Option (Net Cnt ℚ × NodeId) := runEdits cntEnv 0 (new 1 0 1) [.push ⟨0, 0⟩, .pipeOutput 0, .crossfade 0 .smooth 4 ⟨0, 1⟩]

/-- **C19** is violated by the code for nets with a crossfade in progress: `reset` resets neither the incoming unit nor the fade. Played for two samples
and then reset, the net is in the middle of the fade, and what is heard after the fade is two samples ahead. -/
theorem C19_violation_net_fade : ∃ net m, cntNet = some (net, m) ∧
    (run cntEnv (procOf counters) net (List.replicate 6 (.tick []))).2.drop 4 = [[4], [5]] ∧
    (run cntEnv (procOf counters) net ([.tick [], .tick [], .reset] ++ List.replicate 6 (.tick []))).2.drop 2 ≠
      (run cntEnv (procOf counters) net (List.replicate 6 (.tick []))).2 ∧
    (run cntEnv (procOf counters) net ([.tick [], .tick [], .reset] ++ List.replicate 6 (.tick []))).2.drop 6 = [[6], [7]] := by
  refine ⟨_, _, rfl, ?_, ?_, ?_⟩
  · decide +kernel
  · decide +kernel
  · decide +kernel

/-! ## A case that meets the hypotheses -/

/-- A counter that starts from zero. -/
def gen0 : DU := ⟨0, 1, 0, 1, none⟩

theorem played_gen (v : DU) (hv : v = gen0 ∨ v = fil1) : ∀ u, Played demo (procOf demo) v u → demo.reset u = v := by
  have hst : ∀ (u : DU) X k, (uSt demo u X k).ins = u.ins ∧ (uSt demo u X k).outs = u.outs ∧ (uSt demo u X k).step = u.step ∧ (uSt demo u X k).op = u.op ∧
      (u.step = 0 → (uSt demo u X k).k = u.k) := by
    intro u X k
    induction k with
    | zero => exact ⟨rfl, rfl, rfl, rfl, fun _ => rfl⟩
    | succ k ih =>
      simp only [uSt, demo]
      split
      · obtain ⟨a, b, c, d, e⟩ := ih
        exact ⟨a, b, c, d, fun h => by show (uSt demo u X k).k + (uSt demo u X k).step = u.k; rw [c, e h, h]; simp⟩
      · exact ih
  have key : ∀ u, Played demo (procOf demo) v u → u.ins = v.ins ∧ u.outs = v.outs ∧ u.step = v.step ∧ u.op = v.op ∧ (v.step = 0 → u.k = v.k) := by
    intro u h
    induction h with
    | start => exact ⟨rfl, rfl, rfl, rfl, fun _ => rfl⟩
    | @tick w _ x ih =>
      obtain ⟨a, b, c, d, e⟩ := hst w (fun _ => x) 1
      obtain ⟨a', b', c', d', e'⟩ := ih
      exact ⟨a.trans a', b.trans b', c.trans c', d.trans d', fun h => (e (c'.trans h)).trans (e' h)⟩
    | @block w _ size x old ih =>
      obtain ⟨a, b, c, d, e⟩ := hst w (frames (demo.ins w) x) size
      obtain ⟨a', b', c', d', e'⟩ := ih
      exact ⟨a.trans a', b.trans b', c.trans c', d.trans d', fun h => (e (c'.trans h)).trans (e' h)⟩
    | @reset w _ ih =>
      obtain ⟨a', b', c', d', e'⟩ := ih
      refine ⟨a', b', c', d', fun h => ?_⟩
      show (if w.step = 0 then w.k else 0) = v.k
      rw [if_pos (c'.trans h), e' h]
  intro u h
  obtain ⟨a, b, c, d, e⟩ := key u h
  obtain ⟨ui, uo, uk, us, uop⟩ := u
  simp only at a b c d e
  rcases hv with rfl | rfl
  · subst a b c d; rfl
  · have := e rfl
    subst a b c d this; rfl

def resetNet : Net DU Int := ((runEdits demoEnv 0 (new 44100 1 1) [.push gen0, .push fil1, .connect 0 0 1 0, .pipeOutput 1]).getD (new 44100 1 1, 0)).1

/-- A counter heard through a filter. -/
example : Reach demoEnv InRange 2 resetNet ∧ (∀ v ∈ (ready demo demoEnv.seed demoEnv.hash0 resetNet).vertex, v.eng.Obeys Eq) ∧
    FreshUnits demoEnv (procOf demo) Eq (ready demo demoEnv.seed demoEnv.hash0 resetNet) ∧ ¬ Cyclic resetNet ∧ (∀ id, fading resetNet id = false) ∧
    (run demoEnv (procOf demo) (ready demo demoEnv.seed demoEnv.hash0 resetNet) [.tick [7], .tick [7], .reset, .tick [7]]).2 = [[0], [1], [0]] := by
  have h0 : Reach demoEnv InRange 0 (new 44100 1 1 : Net DU Int) := .new 0 _ 1 1
  have h1 := h0.edit (.push gen0) trivial rfl
  have h2 := h1.edit (.push fil1) trivial rfl
  have h3 := h2.edit (.connect 0 0 1 0) (by intro o ho; cases ho; decide) rfl
  have h4 : Reach demoEnv InRange 2 resetNet := h3.edit (.pipeOutput 1) trivial rfl
  refine ⟨h4, fun _ _ _ _ => rfl, ?_, (C02_error demoEnv demo_lawful h4).not.1 (by decide), ?_, rfl⟩
  · intro v hv
    have : v.eng.unit = gen0 ∨ v.eng.unit = fil1 := by
      have : (ready demo demoEnv.seed demoEnv.hash0 resetNet).vertex.map (fun v => v.eng.unit) = [gen0, fil1] := rfl
      have hm : v.eng.unit ∈ (ready demo demoEnv.seed demoEnv.hash0 resetNet).vertex.map (fun v => v.eng.unit) := List.mem_map_of_mem hv
      rw [this] at hm
      simpa using hm
    exact played_gen _ this
  · intro id
    have : ∀ v ∈ resetNet.vertex, v.eng.next.unit.isSome = false := by decide
    unfold fading
    cases resetNet.nodeIndex.get id with
    | none => rfl
    | some i =>
      cases hv : resetNet.vertex[i]? with
      | none => simp [hv]
      | some v => simp [hv, this v (List.mem_of_getElem? hv)]

end Fundsp.Net
