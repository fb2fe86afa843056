import Verif.Seq.Backend

/-!
# C88: the sample rate of a sequencer

`Sequencer::set_sample_rate` (`/repo/src/sequencer.rs:609-629`) and what it does to the events: every unit gets the rate, and the windows of the
events stay where they are in time.
-/
namespace Fundsp.Seq
variable {K : Type} [Field K] [LinearOrder K] [IsStrictOrderedRing K] [FloorRing K] {n : Nat} {U : Type}

/-- `set_sample_rate`: `sequencer.rs:609-629`. All events, also those that are over, move to the heap. -/
def Sq.setSampleRate (setRate : K → U → U) (s : Sq K U) (r : K) : Sq K U :=
  if s.sr = r then s
  else
    { s with
      sr := r, sd := 1 / r
      active := [], past := [], amap := fun _ => none, thr := none
      ready := (s.active ++ s.ready ++ s.past).map fun e => { e with unit := setRate r e.unit } }

/-- Calls on a sequencer, rate changes included. -/
inductive ROp (K U : Type) (n : Nat) where
  | op (o : Op K U n)
  | rate (r : K)

def Sq.rstep (X : Node K 0 n) (H : Heap K X.σ) (ease : Fade → K → K) (setRate : K → X.σ → X.σ) (s : Sq K X.σ) :
    ROp K X.σ n → Sq K X.σ × List (Frame K n)
  | .op o => s.step X H ease setRate o
  | .rate r => (s.setSampleRate setRate r, [])

def Sq.rrun (X : Node K 0 n) (H : Heap K X.σ) (ease : Fade → K → K) (setRate : K → X.σ → X.σ) :
    List (ROp K X.σ n) → Sq K X.σ → Sq K X.σ × List (Frame K n)
  | [], s => (s, [])
  | o :: os, s =>
    let r := s.rstep X H ease setRate o
    let q := Sq.rrun X H ease setRate os r.1
    (q.1, r.2 ++ q.2)

/-! ## Specification -/

/-- A new rate for all events: their times stay. -/
def Sp.setRate (setRate : K → U → U) (p : Sp K U) (r : K) : Sp K U :=
  if p.sr = r then p
  else { p with sr := r, sd := 1 / r, evs := p.evs.map fun e => { e with unit := setRate r e.unit } }

noncomputable def Sp.rstep (tick : U → U × Frame K n) (reset : U → U) (ease : Fade → K → K) (setRate : K → U → U) (p : Sp K U) :
    ROp K U n → Sp K U × List (Frame K n)
  | .op o => p.step tick reset ease setRate o
  | .rate r => (p.setRate setRate r, [])

noncomputable def Sp.rrun (tick : U → U × Frame K n) (reset : U → U) (ease : Fade → K → K) (setRate : K → U → U) :
    List (ROp K U n) → Sp K U → Sp K U × List (Frame K n)
  | [], p => (p, [])
  | o :: os, p =>
    let r := p.rstep tick reset ease setRate o
    let q := Sp.rrun tick reset ease setRate os r.1
    (q.1, r.2 ++ q.2)

/-- Requirements on a call: as before; a rate is positive, and is changed while events can be played again or while nothing has been played
since the start or the last reset. -/
def ROk (p : Sp K U) : ROp K U n → Prop
  | .op o => Ok p o ∧ o.isBlock = false
  | .rate r => 0 < r ∧ (p.replay = true ∨ p.time = 0)

def ROks (tick : U → U × Frame K n) (reset : U → U) (ease : Fade → K → K) (setRate : K → U → U) : List (ROp K U n) → Sp K U → Prop
  | [], _ => True
  | o :: os, p => ROk p o ∧ ROks tick reset ease setRate os (p.rstep tick reset ease setRate o).1

/-! ## Refinement -/

/-- The relation of `Seq/Refine.lean`; nothing is over at time zero. -/
def Rel0 (s : Sq K U) (p : Sp K U) : Prop :=
  ∃ gone, Rel (id : U → U) s p gone ∧ 0 ≤ s.time ∧ (s.time = 0 → gone = [] ∧ s.past = [])

theorem Rel.rate {s : Sq K U} {p : Sp K U} {gone} (h : Rel (id : U → U) s p gone) (setRate : K → U → U) (r : K) (hr : 0 < r) (hne : s.sr ≠ r)
    (hg : gone.Perm s.past) :
    Rel (id : U → U) (s.setSampleRate setRate r) (p.setRate setRate r) [] := by
  unfold Sq.setSampleRate Sp.setRate
  rw [if_neg hne, if_neg (h.sr ▸ hne)]
  have hids : ∀ l : List (Ev K U), ids (l.map fun e => { e with unit := setRate r e.unit }) = ids l := by
    intro l; simp [ids, Function.comp_def]
  have hpp : (ids (s.active ++ s.ready ++ s.past)).Perm (ids (s.active ++ s.ready ++ gone)) :=
    (List.Perm.append_left _ hg.symm).map _
  refine ⟨h.time, rfl, rfl, h.replay, one_div_pos.2 hr, ?_, .inl rfl, by simp, by simp, ?_, ?_, ?_, h.eused, by simp, by simp, by simp, by simp, ?_⟩
  · show r * (1 / r) = 1
    rw [mul_one_div, div_self hr.ne']
  · intro id i; simp
  · simp only [List.nil_append, List.append_nil]
    rw [hids]; exact hpp.nodup_iff.2 h.nodup
  · intro id hm
    simp only [List.nil_append, List.append_nil] at hm
    rw [hids] at hm
    exact h.used id (hpp.mem_iff.1 hm)
  · simp only [List.nil_append, List.append_nil]
    refine (h.perm.map _).trans ?_
    rw [List.map_map, List.map_map, List.map_map]
    have e1 : ((fun e : Ev K U => { e with unit := setRate r e.unit }) ∘ Ev.map id) =
        (Ev.map id ∘ fun e : Ev K U => { e with unit := setRate r e.unit }) := by
      funext e; simp [Ev.map]
    have e2 : ((Ev.map (id : U → U) ∘ applyEdit s.edits) ∘ fun e : Ev K U => { e with unit := setRate r e.unit }) =
        ((Ev.map id ∘ fun e : Ev K U => { e with unit := setRate r e.unit }) ∘ applyEdit s.edits) := by
      funext e
      simp only [Function.comp, applyEdit]
      cases s.edits e.id <;> rfl
    rw [e1, e2, ← List.map_map (g := Ev.map id ∘ _) (f := applyEdit s.edits)]
    refine List.Perm.map _ ?_
    simp only [List.map_append]
    have ea : s.active.map (applyEdit s.edits) = s.active := by
      conv_rhs => rw [← List.map_id s.active]
      exact List.map_congr_left fun e he => applyEdit_none (h.eact e he)
    have eg : gone.map (applyEdit s.edits) = gone := by
      conv_rhs => rw [← List.map_id gone]
      exact List.map_congr_left fun e he => applyEdit_none (h.egone e he)
    rw [ea]
    refine List.Perm.append_left _ ?_
    rw [← eg]
    exact hg.map _

theorem pushEvent_same (s : Sq K U) (e : Ev K U) : (s.pushEvent e).time = s.time ∧ (s.pushEvent e).past = s.past := by
  unfold Sq.pushEvent; split <;> exact ⟨rfl, rfl⟩

theorem edit_same (s : Sq K U) (id : Nat) (stop : Option K) (fo : K) : (s.edit id stop fo).time = s.time ∧ (s.edit id stop fo).past = s.past := by
  unfold Sq.edit
  split
  · exact ⟨rfl, rfl⟩
  · split <;> exact ⟨rfl, rfl⟩

theorem Rel0.step {X : Node K 0 n} (H : Heap K X.σ) (ease : Fade → K → K) (setRate : K → X.σ → X.σ) {s : Sq K X.σ} {p : Sp K X.σ}
    (h : Rel0 s p) (o : ROp K X.σ n) (hok : ROk p o) :
    Rel0 (s.rstep X H ease setRate o).1 (p.rstep (ut X) X.reset ease setRate o).1 ∧
    (s.rstep X H ease setRate o).2 = (p.rstep (ut X) X.reset ease setRate o).2 := by
  obtain ⟨gone, h, h0, hz⟩ := h
  cases o with
  | op o =>
    obtain ⟨hok, hnb⟩ := hok
    have hstep := h.step (behaves_id X) H ease setRate o (fun hb => by rw [hnb] at hb; cases hb) hok
    refine ⟨?_, hstep.2⟩
    cases o with
    | push e =>
      have h1 := h.push (e.rated setRate s.sr) hok
      refine ⟨gone, ?_, ?_, ?_⟩
      · simp only [Sq.rstep, Sp.rstep, Sq.step, Sp.step, Sq.push]
        rw [h.sr]; exact h1
      · exact (pushEvent_same s _).1 ▸ h0
      · intro ht
        have ht : s.time = 0 := (pushEvent_same s (e.rated setRate s.sr)).1 ▸ ht
        exact ⟨(hz ht).1, ((pushEvent_same s _).2).trans (hz ht).2⟩
    | pushRel e =>
      have h1 := h.push ((e.rated setRate s.sr).shift s.time) (by have : (e.shift s.time).id = e.id := rfl; exact hok)
      refine ⟨gone, ?_, ?_, ?_⟩
      · simp only [Sq.rstep, Sp.rstep, Sq.step, Sp.step, pushRelative_eq]
        rw [h.sr, h.time]; exact h1
      · simp only [Sq.rstep, Sq.step, pushRelative_eq]
        rw [(pushEvent_same s _).1]; exact h0
      · simp only [Sq.rstep, Sq.step, pushRelative_eq]
        intro ht
        rw [(pushEvent_same s _).1] at ht
        exact ⟨(hz ht).1, ((pushEvent_same s _).2).trans (hz ht).2⟩
    | edit id stop fo =>
      refine ⟨gone, h.edit id stop fo hok, ?_, ?_⟩
      · simp only [Sq.rstep, Sq.step]
        exact (edit_same s id stop fo).1 ▸ h0
      · simp only [Sq.rstep, Sq.step]
        intro ht
        rw [(edit_same s id stop fo).1] at ht
        exact ⟨(hz ht).1, ((edit_same s id stop fo).2).trans (hz ht).2⟩
    | editRel id stop fo =>
      have h1 := h.edit id (stop.map (p.time + ·)) fo hok
      refine ⟨gone, ?_, ?_, ?_⟩
      · simp only [Sq.rstep, Sp.rstep, Sq.step, Sp.step, editRelative_eq]
        rw [← h.time]; exact h1
      · simp only [Sq.rstep, Sq.step, editRelative_eq]
        rw [(edit_same s _ _ _).1]; exact h0
      · simp only [Sq.rstep, Sq.step, editRelative_eq]
        intro ht
        rw [(edit_same s _ _ _).1] at ht
        exact ⟨(hz ht).1, ((edit_same s _ _ _).2).trans (hz ht).2⟩
    | reset =>
      refine ⟨[], h.reset X.reset X.reset (fun _ => rfl), ?_, ?_⟩
      · simp only [Sq.rstep, Sq.step, Sq.reset]; split <;> exact le_refl _
      · intro _
        refine ⟨rfl, ?_⟩
        simp only [Sq.rstep, Sq.step, Sq.reset]; split <;> rfl
    | tick =>
      obtain ⟨⟨g', hg'⟩, _⟩ := h.tick (behaves_id X) H ease
      have ht : (s.tick X H ease).1.time = s.time + s.sd := by
        unfold Sq.tick
        by_cases hre : s.replay = true
        · simp only [hre, if_true]
        · simp only [hre]; rfl
      have hpos : 0 < s.time + s.sd := add_pos_of_nonneg_of_pos h0 h.sd_pos
      refine ⟨g', hg', ?_, ?_⟩
      · show 0 ≤ (s.tick X H ease).1.time
        rw [ht]; exact hpos.le
      · intro hc
        have hc : (s.tick X H ease).1.time = 0 := hc
        rw [ht] at hc
        exact absurd hc hpos.ne'
    | block size out buf g inp => cases hnb
  | rate r =>
    refine ⟨?_, rfl⟩
    obtain ⟨hr, hc⟩ := hok
    by_cases hne : s.sr = r
    · have e1 : s.setSampleRate setRate r = s := by unfold Sq.setSampleRate; rw [if_pos hne]
      have e2 : p.setRate setRate r = p := by unfold Sp.setRate; rw [if_pos (h.sr.trans hne)]
      simp only [Sq.rstep, Sp.rstep, e1, e2]
      exact ⟨gone, h, h0, hz⟩
    · have hg : gone.Perm s.past := by
        rcases hc with hc | hc
        · exact h.past.1 (h.replay ▸ hc)
        · obtain ⟨a, b⟩ := hz (h.time ▸ hc)
          rw [a, b]
      refine ⟨[], h.rate setRate r hr hne hg, ?_, ?_⟩
      · simp only [Sq.rstep, Sq.setSampleRate, if_neg hne]; exact h0
      · intro _
        refine ⟨rfl, ?_⟩
        simp only [Sq.rstep, Sq.setSampleRate, if_neg hne]

theorem Rel0.run {X : Node K 0 n} (H : Heap K X.σ) (ease : Fade → K → K) (setRate : K → X.σ → X.σ) (os : List (ROp K X.σ n)) :
    ∀ {s : Sq K X.σ} {p : Sp K X.σ}, Rel0 s p → ROks (ut X) X.reset ease setRate os p →
    (Sq.rrun X H ease setRate os s).2 = (Sp.rrun (ut X) X.reset ease setRate os p).2 := by
  induction os with
  | nil => intro s p _ _; rfl
  | cons o os ih =>
    intro s p h hok
    obtain ⟨h1, h2⟩ := h.step H ease setRate o hok.1
    simp only [Sq.rrun, Sp.rrun]
    rw [h2, ih h1 hok.2]

/-! ## Rates of the units -/

/-- `rate` tells the rate of a unit: only `set_sample_rate` changes it. -/
structure Tells (X : Node K 0 n) (setRate : K → X.σ → X.σ) (rate : X.σ → K) : Prop where
  set : ∀ r u, rate (setRate r u) = r
  reset : ∀ u, rate (X.reset u) = rate u
  tick : ∀ u x, rate (X.tick u x).1 = rate u
  process : ∀ g u size inp out, rate (X.process g u size inp out).1 = rate u

/-- All units the sequencer holds are at its rate. -/
def AtRate {U : Type} (rate : U → K) (s : Sq K U) : Prop := ∀ e, e ∈ s.active ∨ e ∈ s.ready ∨ e ∈ s.past → rate e.unit = s.sr

theorem applyEdit_unit' {edits : Nat → Option (Option K × K)} (e : Ev K U) : (applyEdit edits e).unit = e.unit := applyEdit_unit edits e

theorem at_readyLoop (rate : U → K) (H : Heap K U) (θ : K) : ∀ (f : Nat) (s : Sq K U), AtRate rate s →
    AtRate rate (readyLoop H θ f s) ∧ (readyLoop H θ f s).sr = s.sr ∧ (readyLoop H θ f s).past = s.past := by
  intro f
  induction f with
  | zero => intro s h; exact ⟨h, rfl, rfl⟩
  | succ f ih =>
    intro s h
    simp only [readyLoop]
    cases hp : H.pop s.ready with
    | none => exact ⟨h, rfl, rfl⟩
    | some x =>
      obtain ⟨e, r⟩ := x
      simp only
      split
      · have hperm := H.pop_perm _ _ _ hp
        refine ih _ ?_
        intro d hd
        rcases hd with hd | hd | hd
        · rcases List.mem_append.1 hd with hd | hd
          · exact h d (Or.inl hd)
          · rw [List.mem_singleton] at hd
            rw [hd, applyEdit_unit']
            exact h e (Or.inr (Or.inl (hperm.mem_iff.2 (List.mem_cons_self ..))))
        · exact h d (Or.inr (Or.inl (hperm.mem_iff.2 (List.mem_cons_of_mem _ hd))))
        · exact h d (Or.inr (Or.inr hd))
      · exact ⟨h, rfl, rfl⟩

theorem mem_swapRemove {β : Type} {l : List β} {i : Nat} {x : β} (h : x ∈ swapRemove l i) : x ∈ l := by
  unfold swapRemove at h
  split at h
  · rename_i y hy
    rcases List.mem_or_eq_of_mem_set (List.mem_of_mem_dropLast h) with h | rfl
    · exact h
    · exact List.mem_of_getLast? hy
  · exact h

theorem at_evLoop {A : Type} (rate : U → K) (r x : K) (play : Ev K U → A → Ev K U × A)
    (hplay : ∀ e a, rate (play e a).1.unit = rate e.unit) : ∀ (f i : Nat) (l : Lp K U A),
    (∀ e, e ∈ l.active ∨ e ∈ l.past → rate e.unit = r) →
    ∀ e, e ∈ (evLoop x play f i l).active ∨ e ∈ (evLoop x play f i l).past → rate e.unit = r := by
  intro f
  induction f with
  | zero => intro i l h; exact h
  | succ f ih =>
    intro i l h
    simp only [evLoop]
    cases hi : l.active[i]? with
    | none => exact h
    | some e =>
      have he := h e (Or.inl (List.mem_of_getElem? hi))
      simp only
      split
      · refine ih _ _ ?_
        intro d hd
        rcases hd with hd | hd
        · exact h d (Or.inl (mem_swapRemove hd))
        · rcases List.mem_append.1 hd with hd | hd
          · exact h d (Or.inr hd)
          · rw [List.mem_singleton] at hd; rw [hd]; exact he
      · refine ih _ _ ?_
        intro d hd
        rcases hd with hd | hd
        · rcases List.mem_or_eq_of_mem_set hd with hd | rfl
          · exact h d (Or.inl hd)
          · exact (hplay e _).trans he
        · exact h d (Or.inr hd)

theorem at_forget {rate : U → K} {s : Sq K U} (h : AtRate rate s) : AtRate rate (if s.replay then s else { s with past := [] }) ∧
    (if s.replay then s else { s with past := [] }).sr = s.sr := by
  split
  · exact ⟨h, rfl⟩
  · refine ⟨?_, rfl⟩
    intro e he
    rcases he with he | he | he
    · exact h e (Or.inl he)
    · exact h e (Or.inr (Or.inl he))
    · cases he

theorem at_pushEvent {rate : U → K} {s : Sq K U} (h : AtRate rate s) (e : Ev K U) (he : rate e.unit = s.sr) :
    AtRate rate (s.pushEvent e) ∧ (s.pushEvent e).sr = s.sr := by
  unfold Sq.pushEvent
  split
  · refine ⟨?_, rfl⟩
    intro d hd
    rcases hd with hd | hd | hd
    · rcases List.mem_append.1 hd with hd | hd
      · exact h d (Or.inl hd)
      · rw [List.mem_singleton] at hd; rw [hd]; exact he
    · exact h d (Or.inr (Or.inl hd))
    · exact h d (Or.inr (Or.inr hd))
  · refine ⟨?_, rfl⟩
    intro d hd
    rcases hd with hd | hd | hd
    · exact h d (Or.inl hd)
    · rcases List.mem_append.1 hd with hd | hd
      · exact h d (Or.inr (Or.inl hd))
      · rw [List.mem_singleton] at hd; rw [hd]; exact he
    · exact h d (Or.inr (Or.inr hd))

theorem at_edit {rate : U → K} {s : Sq K U} (h : AtRate rate s) (id : Nat) (stop : Option K) (fo : K) :
    AtRate rate (s.edit id stop fo) ∧ (s.edit id stop fo).sr = s.sr := by
  unfold Sq.edit
  split
  · refine ⟨?_, rfl⟩
    intro d hd
    rcases hd with hd | hd | hd
    · obtain ⟨k, hk, rfl⟩ := List.mem_iff_getElem.1 hd
      rw [List.getElem_modify]
      split
      · have := h (s.active[k]'(by simpa using hk)) (Or.inl (List.getElem_mem _))
        exact this
      · exact h _ (Or.inl (List.getElem_mem _))
    · exact h d (Or.inr (Or.inl hd))
    · exact h d (Or.inr (Or.inr hd))
  · split
    · exact ⟨h, rfl⟩
    · exact ⟨h, rfl⟩

theorem at_step {X : Node K 0 n} {setRate : K → X.σ → X.σ} {rate : X.σ → K} (hT : Tells X setRate rate) (H : Heap K X.σ) (ease : Fade → K → K)
    {s : Sq K X.σ} (h : AtRate rate s) (o : ROp K X.σ n) : AtRate rate (s.rstep X H ease setRate o).1 ∧
      (s.rstep X H ease setRate o).1.sr = (match o with | .op _ => s.sr | .rate r => r) := by
  cases o with
  | op o =>
    cases o with
    | push e => exact at_pushEvent h _ (hT.set _ _)
    | pushRel e =>
      simp only [Sq.rstep, Sq.step, pushRelative_eq]
      exact at_pushEvent h _ (hT.set _ _)
    | edit id stop fo => exact at_edit h id stop fo
    | editRel id stop fo =>
      simp only [Sq.rstep, Sq.step, editRelative_eq]
      exact at_edit h id _ fo
    | reset =>
      simp only [Sq.rstep, Sq.step, Sq.reset]
      split
      · refine ⟨?_, rfl⟩
        intro d hd
        rcases hd with hd | hd | hd
        · cases hd
        · obtain ⟨e, he, rfl⟩ := List.mem_map.1 hd
          simp only [List.mem_append] at he
          refine (hT.reset _).trans (h e ?_)
          tauto
        · cases hd
      · refine ⟨?_, rfl⟩
        intro d hd
        rcases hd with hd | hd | hd <;> cases hd
    | tick =>
      simp only [Sq.rstep, Sq.step, Sq.tick, Sq.readyToActive]
      generalize hf : (if s.replay = true then s else { s with past := [] }) = s'
      obtain ⟨h1, h2⟩ : AtRate rate s' ∧ s'.sr = s.sr := by
        rw [← hf]; exact at_forget h
      obtain ⟨k1, k2, k3⟩ := at_readyLoop rate H (s'.time + s'.sd - s'.sd * (1 / 2)) s'.ready.length
        { s' with thr := some (s'.time + s'.sd - s'.sd * (1 / 2)) } h1
      generalize readyLoop H (s'.time + s'.sd - s'.sd * (1 / 2)) s'.ready.length
        { s' with thr := some (s'.time + s'.sd - s'.sd * (1 / 2)) } = t at k1 k2 k3 ⊢
      refine ⟨?_, k2.trans h2⟩
      have key := at_evLoop rate t.sr (t.time + 1 / 2 * t.sd) (tickPlay X ease t.time) (fun e a => hT.tick _ _) t.active.length 0
        ⟨t.active, t.amap, t.past, fun _ => 0⟩ (fun e he => k1 e (by rcases he with he | he; exact Or.inl he; exact Or.inr (Or.inr he)))
      intro e he
      rcases he with he | he | he
      · exact key e (Or.inl he)
      · exact k1 e (Or.inr (Or.inl he))
      · exact key e (Or.inr he)
    | block size out buf g inp =>
      simp only [Sq.rstep, Sq.step, Sq.process, Sq.readyToActive]
      generalize hf : (if s.replay = true then s else { s with past := [] }) = s'
      obtain ⟨h1, h2⟩ : AtRate rate s' ∧ s'.sr = s.sr := by
        rw [← hf]; exact at_forget h
      obtain ⟨k1, k2, k3⟩ := at_readyLoop rate H (s'.time + s'.sd * size - s'.sd * (1 / 2)) s'.ready.length
        { s' with thr := some (s'.time + s'.sd * size - s'.sd * (1 / 2)) } h1
      generalize readyLoop H (s'.time + s'.sd * size - s'.sd * (1 / 2)) s'.ready.length
        { s' with thr := some (s'.time + s'.sd * size - s'.sd * (1 / 2)) } = t at k1 k2 k3 ⊢
      refine ⟨?_, k2.trans h2⟩
      have key := at_evLoop rate t.sr (t.time + 1 / 2 * t.sd) (blockPlay X ease g inp t.sr t.sd t.time (s'.time + s'.sd * size) size)
        (fun e a => by unfold blockPlay; simp only; split; exact hT.process _ _ _ _ _; rfl) t.active.length 0
        ⟨t.active, t.amap, t.past, (setItems size (fun _ _ => 0) out, buf)⟩
        (fun e he => k1 e (by rcases he with he | he; exact Or.inl he; exact Or.inr (Or.inr he)))
      intro e he
      rcases he with he | he | he
      · exact key e (Or.inl he)
      · exact k1 e (Or.inr (Or.inl he))
      · exact key e (Or.inr he)
  | rate r =>
    simp only [Sq.rstep, Sq.setSampleRate]
    split
    · rename_i hr; exact ⟨h, hr⟩
    · refine ⟨?_, rfl⟩
      intro d hd
      rcases hd with hd | hd | hd
      · cases hd
      · obtain ⟨e, _, rfl⟩ := List.mem_map.1 hd
        exact hT.set _ _
      · cases hd

/-! ## Theorems -/

/-- The last rate set by a list of calls, `r` if there is none. -/
def lastRate (r : K) : List (ROp K U n) → K
  | [] => r
  | .rate r' :: os => lastRate r' os
  | .op _ :: os => lastRate r os

/-- **C88** (sequencer): after any calls — pushes, edits, resets, ticks, blocks and rate changes in any order — the rate of the sequencer is the
last one that was set, and every unit it holds, waiting, playing or over, is at that rate. -/
theorem C88_seq_rates {X : Node K 0 n} {setRate : K → X.σ → X.σ} {rate : X.σ → K} (hT : Tells X setRate rate) (H : Heap K X.σ)
    (ease : Fade → K → K) (replay : Bool) (sr : K) (os : List (ROp K X.σ n)) :
    (Sq.rrun X H ease setRate os (Sq.new replay sr)).1.sr = lastRate sr os ∧
    ∀ e, e ∈ (Sq.rrun X H ease setRate os (Sq.new replay sr)).1.active ∨ e ∈ (Sq.rrun X H ease setRate os (Sq.new replay sr)).1.ready ∨
      e ∈ (Sq.rrun X H ease setRate os (Sq.new replay sr)).1.past → rate e.unit = lastRate sr os := by
  have key : ∀ (os : List (ROp K X.σ n)) (s : Sq K X.σ), AtRate rate s →
      AtRate rate (Sq.rrun X H ease setRate os s).1 ∧ (Sq.rrun X H ease setRate os s).1.sr = lastRate s.sr os := by
    intro os
    induction os with
    | nil => intro s h; exact ⟨h, rfl⟩
    | cons o os ih =>
      intro s h
      obtain ⟨h1, h2⟩ := at_step hT H ease h o
      obtain ⟨h3, h4⟩ := ih _ h1
      refine ⟨h3, h4.trans ?_⟩
      rw [h2]
      cases o <;> rfl
  obtain ⟨h1, h2⟩ := key os (Sq.new replay sr) (fun e he => by rcases he with he | he | he <;> cases he)
  exact ⟨h2, fun e he => (h1 e he).trans h2⟩

/-- **C88** (sequencer): a rate change tells the rate to every event and leaves the times of the events alone: any run with rate changes plays what
the plain list of events plays. Events that have been played are replayable or nothing has been played yet when the rate changes; samples are
taken one by one. -/
theorem C88_seq_refines (X : Node K 0 n) (H : Heap K X.σ) (ease : Fade → K → K) (setRate : K → X.σ → X.σ) (replay : Bool) (sr : K) (hsr : 0 < sr)
    (ops : List (ROp K X.σ n)) (hok : ROks (ut X) X.reset ease setRate ops (Sp.new replay sr)) :
    (Sq.rrun X H ease setRate ops (Sq.new replay sr)).2 = (Sp.rrun (ut X) X.reset ease setRate ops (Sp.new replay sr)).2 :=
  Rel0.run H ease setRate ops ⟨[], Rel.init replay sr hsr, le_refl _, fun _ => ⟨rfl, rfl⟩⟩ hok

theorem Sp.rrun_append (tick : U → U × Frame K n) (reset : U → U) (ease : Fade → K → K) (setRate : K → U → U) (os os' : List (ROp K U n)) :
    ∀ p : Sp K U, Sp.rrun tick reset ease setRate (os ++ os') p =
      ((Sp.rrun tick reset ease setRate os' (Sp.rrun tick reset ease setRate os p).1).1,
       (Sp.rrun tick reset ease setRate os p).2 ++ (Sp.rrun tick reset ease setRate os' (Sp.rrun tick reset ease setRate os p).1).2) := by
  induction os with
  | nil => intro p; simp [Sp.rrun]
  | cons o os ih =>
    intro p
    simp only [List.cons_append, Sp.rrun]
    rw [ih]; simp

theorem Sp.rrun_op (tick : U → U × Frame K n) (reset : U → U) (ease : Fade → K → K) (setRate : K → U → U) (os : List (Op K U n)) :
    ∀ p : Sp K U, Sp.rrun tick reset ease setRate (os.map .op) p = Sp.run tick reset ease setRate os p := by
  induction os with
  | nil => intro p; rfl
  | cons o os ih =>
    intro p
    simp only [List.map_cons, Sp.rrun, Sp.run, ih]
    rfl

theorem ROks_append (tick : U → U × Frame K n) (reset : U → U) (ease : Fade → K → K) (setRate : K → U → U) (os os' : List (ROp K U n)) :
    ∀ p : Sp K U, ROks tick reset ease setRate os p → ROks tick reset ease setRate os' (Sp.rrun tick reset ease setRate os p).1 →
      ROks tick reset ease setRate (os ++ os') p := by
  induction os with
  | nil => intro p _ h; exact h
  | cons o os ih => intro p h h'; exact ⟨h.1, ih _ h.2 h'⟩

theorem ROks_op (tick : U → U × Frame K n) (reset : U → U) (ease : Fade → K → K) (setRate : K → U → U) (os : List (Op K U n))
    (hb : ∀ o ∈ os, o.isBlock = false) : ∀ p : Sp K U, Oks tick reset ease setRate os p → ROks tick reset ease setRate (os.map .op) p := by
  induction os with
  | nil => intro p _; trivial
  | cons o os ih =>
    intro p h
    exact ⟨⟨h.1, hb o (List.mem_cons_self ..)⟩, ih (fun o ho => hb o (List.mem_cons_of_mem _ ho)) _ h.2⟩

/-- **C88** (sequencer): events are pushed into a sequencer at one rate, the rate is then set, and the sequencer is played: every event sounds in its
window in time at the new rate, and its unit has been told the new rate. -/
theorem C88_seq_windows (X : Node K 0 n) (H : Heap K X.σ) (ease : Fade → K → K) (setRate : K → X.σ → X.σ) (replay : Bool) (sr r : K)
    (hsr : 0 < sr) (hr : 0 < r) (hne : sr ≠ r) (es : List (Ev K X.σ)) (hn : (es.map (·.id)).Nodup) (m : ℕ) :
    (Sq.rrun X H ease setRate (es.map (fun e => .op (.push e)) ++ .rate r :: List.replicate m (.op .tick)) (Sq.new replay sr)).2 =
      (List.range m).map (mixture X ease (fun r' u => setRate r' (setRate sr u)) r es) := by
  have e1 : (es.map (fun e => .op (.push e)) ++ .rate r :: List.replicate m (.op .tick) : List (ROp K X.σ n)) =
      (es.map (Op.push : Ev K X.σ → Op K X.σ n)).map .op ++ (.rate r :: (List.replicate m (Op.tick : Op K X.σ n)).map .op) := by
    simp [List.map_map, Function.comp_def]
  rw [e1, C88_seq_refines X H ease setRate replay sr hsr]
  · rw [Sp.rrun_append, Sp.rrun_op, Sp.run_pushes]
    simp only [Sp.rrun, Sp.rstep, Sp.rrun_op, Sp.run_ticks, List.nil_append]
    have h := C22_windows X H ease (fun r' u => setRate r' (setRate sr u)) replay r hr es hn m
    rw [C22_refines X H ease _ replay r hr _ (playOps_noBlock es m) (playOps_ok _ _ _ _ _ _ es hn m), playOps_run] at h
    rw [← h]
    congr 2
    unfold Sp.setRate
    simp only [Sp.new, if_neg hne, Sp.loaded, List.nil_append, List.append_nil, List.map_map]
    rfl
  · refine ROks_append _ _ _ _ _ _ _ ?_ ?_
    · refine ROks_op _ _ _ _ _ ?_ _ (Oks_pushes _ _ _ _ es _ hn (by simp [Sp.new]))
      intro o ho
      obtain ⟨e, _, rfl⟩ := List.mem_map.1 ho; rfl
    · refine ⟨⟨hr, Or.inr ?_⟩, ROks_op _ _ _ _ _ ?_ _ (Oks_ticks ..)⟩
      · rw [Sp.rrun_op, Sp.run_pushes]; rfl
      · intro o ho
        rw [(List.mem_replicate.1 ho).2]; rfl

/-! ## The backend -/

/-- `SequencerBackend::set_sample_rate`: `realseq.rs:118-121`. -/
def Be.setSampleRate (reset : U → U) (setRate : K → U → U) (b : Be K U) (r : K) : Be K U :=
  { queue := [], seq := (handle reset b.queue b.seq).setSampleRate setRate r }

/-- **C88** is violated: the rate of the backend is set, and then an event is pushed at the frontend, which still has its own rate. The unit of the
event runs in the backend at the rate of the frontend. -/
theorem C88_violation_sequencer {X : Node K 0 n} {setRate : K → X.σ → X.σ} {rate : X.σ → K} (hT : Tells X setRate rate) (H : Heap K X.σ)
    (ease : Fade → K → K) (cap : Nat) (hcap : 0 < cap) (replay : Bool) (sr r : K) (hne : sr ≠ r) (e : Ev K X.σ) :
    let b := (Be.setSampleRate X.reset setRate (⟨[], Sq.new replay sr⟩ : Be K X.σ) r)
    let b' := (Be.run X H ease setRate cap sr [.front (.push e)] b).1
    (handle X.reset b'.queue b'.seq).sr = r ∧ ∃ d ∈ (handle X.reset b'.queue b'.seq).ready, rate d.unit = sr ∧ sr ≠ r := by
  intro b b'
  have hb : b' = ⟨[.push (e.rated setRate sr)], b.seq⟩ := by
    simp only [b', Be.run, Be.step, b, Be.setSampleRate, List.length_nil, if_pos hcap, List.nil_append, FrontCall.msg]
  have hs : b.seq = { Sq.new replay sr with sr := r, sd := 1 / r } := by
    simp only [b, Be.setSampleRate, handle, Sq.setSampleRate, Sq.new, if_neg hne, List.append_nil, List.map_nil]
  rw [hb]
  simp only [handle, hs, Sq.pushEvent, Sq.new, below, Bool.false_eq_true, if_false, List.nil_append, List.mem_singleton, true_and]
  exact ⟨_, rfl, hT.set _ _, hne⟩

/-! ## Examples -/

/-- A unit that plays its own sample rate. -/
def rateUnit : Node ℝ 0 1 := ⟨ℝ, id, fun s _ => (s, fun _ => s), fun _ s _ _ _ => (s, fun _ _ => s)⟩

theorem rateUnit_tells : Tells rateUnit (fun r _ => r) id := ⟨fun _ _ => rfl, fun _ => rfl, fun _ _ => rfl, fun _ _ _ _ _ => rfl⟩

example (H : Heap ℝ rateUnit.σ) (ease : Fade → ℝ → ℝ) :
    let e : Ev ℝ rateUnit.σ := ⟨(0 : ℝ), 1 / 2, some 2, .smooth, 0, 0, 7⟩
    (Sq.rrun rateUnit H ease (fun r _ => r) [.op (.push e), .rate 2, .op .tick, .op .tick, .op .tick, .op .tick, .op .tick] (Sq.new false 1)).2 =
      (List.range 5).map (mixture rateUnit ease (fun r' _ => r') 2 [e]) := by
  intro e
  exact C88_seq_windows rateUnit H ease (fun r _ => r) false 1 2 one_pos two_pos (by norm_num) [e] (by simp) 5

end Fundsp.Seq
