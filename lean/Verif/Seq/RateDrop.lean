import Verif.Seq.Rate

/-!
# Rate changes while playing: sequencers that forget events

`C88_seq_refines` allows rate changes while events can be played again. A sequencer without replay forgets events that are over, but `set_sample_rate` puts those that
ended in the last sample back among the events to be played (`sequencer.rs:609-629`). They are over all the same: here it is shown that nothing is heard of them.
-/
namespace Fundsp.Seq
variable {K : Type} [Field K] [LinearOrder K] [IsStrictOrderedRing K] [FloorRing K] {n : Nat} {U : Type}

/-! ## Requirements -/

/-- The event that an edit addresses, if it exists, is not over at the present time. -/
def Alive (p : Sp K U) : Op K U n → Prop
  | .edit id _ _ => ∀ e ∈ p.evs, e.id = id → ∀ s, e.stop = some s → p.time < s
  | .editRel id _ _ => ∀ e ∈ p.evs, e.id = id → ∀ s, e.stop = some s → p.time < s
  | _ => True

/-- Requirements on a call: as for runs without rate changes, except that edits are of events that are not over at the present time. Rates are positive and can be changed
at any time. -/
def DOk (p : Sp K U) : ROp K U n → Prop
  | .op o => Ok p o ∧ o.isBlock = false ∧ Alive p o
  | .rate r => 0 < r

def DOks (tick : U → U × Frame K n) (reset : U → U) (ease : Fade → K → K) (setRate : K → U → U) : List (ROp K U n) → Sp K U → Prop
  | [], _ => True
  | o :: os, p => DOk p o ∧ DOks tick reset ease setRate os (p.rstep tick reset ease setRate o).1

/-! ## Forgetting events -/

/-- Events that have been forgotten can be left out of the relation. -/
theorem Rel.shrink {s : Sq K U} {p : Sp K U} {gone} (h : Rel (id : U → U) s p gone) :
    ∃ dropped : List (Ev K U), (∀ e ∈ dropped, e.endsBy s.time = true) ∧ p.evs.Perm ((s.active ++ s.ready.map (applyEdit s.edits) ++ s.past) ++ dropped) ∧
      Rel (id : U → U) s { p with evs := s.active ++ s.ready.map (applyEdit s.edits) ++ s.past } s.past := by
  obtain ⟨dropped, hd⟩ := h.past.2
  have hm : ∀ l : List (Ev K U), l.map (Ev.map (id : U → U)) = l := fun l => by
    conv_rhs => rw [← List.map_id l]
    exact List.map_congr_left fun e _ => rfl
  have hsub : (s.active ++ s.ready ++ s.past).Subperm (s.active ++ s.ready ++ gone) := by
    have : (s.active ++ s.ready ++ (s.past ++ dropped)).Perm (s.active ++ s.ready ++ gone) :=
      List.Perm.append_left _ (List.perm_append_comm.trans hd.symm)
    refine List.Subperm.trans (List.Sublist.subperm ?_) this.subperm
    rw [← List.append_assoc]
    exact List.sublist_append_left _ _
  have hmem : ∀ e ∈ s.past, e ∈ gone := fun e he => hd.mem_iff.2 (List.mem_append_right _ he)
  refine ⟨dropped, ?_, ?_, ⟨h.time, h.sr, h.sd, h.replay, h.sd_pos, h.sr_sd, h.thr, h.act, h.rdy, h.am, ?_, ?_, h.eused, h.eact, ?_, ?_, ?_, ?_⟩⟩
  · intro e he
    have := h.sd_pos
    exact endsBy_mono (h.over e (hd.mem_iff.2 (List.mem_append_left _ he))) (by linarith)
  · have := h.perm
    rw [hm] at this
    refine this.trans ?_
    rw [List.append_assoc (s.active ++ _)]
    exact List.Perm.append_left _ (hd.trans List.perm_append_comm)
  · obtain ⟨l, hl1, hl2⟩ := hsub
    exact (hl1.map (fun e : Ev K U => e.id)).nodup_iff.1 (h.nodup.sublist (hl2.map _))
  · intro i hi
    obtain ⟨e, he, rfl⟩ := mem_ids.1 hi
    exact h.used _ (mem_ids.2 ⟨e, hsub.subset he, rfl⟩)
  · exact fun e he => h.egone e (hmem e he)
  · exact fun e he => h.over e (hmem e he)
  · exact ⟨fun _ => List.Perm.refl _, [], List.Perm.refl _⟩
  · rw [hm]

/-- The sequencer plays a list of events from which some that are over are missing. -/
def RelD (s : Sq K U) (p : Sp K U) : Prop :=
  ∃ (evs dead : List (Ev K U)) (gone : List (Ev K U)), Rel (id : U → U) s { p with evs := evs } gone ∧ p.replay = false ∧ p.evs.Perm (evs ++ dead) ∧
    ∀ e ∈ dead, e.endsBy p.time = true

omit [FloorRing K] in
theorem not_sounds_over {e : Ev K U} {t sd : K} (hsd : 0 < sd) (h : e.endsBy t = true) : ¬ e.sounds (t + sd / 2) := by
  rintro ⟨-, h2⟩
  unfold Ev.endsBy at h
  cases hs : e.stop with
  | none => rw [hs] at h; simp at h
  | some s =>
    rw [hs] at h
    have := h2 s hs
    have := of_decide_eq_true h
    linarith

theorem sum_dead {l : List (Ev K U)} {f : Ev K U → K} (h : ∀ e ∈ l, f e = 0) : (l.map f).sum = 0 := by
  induction l with
  | nil => rfl
  | cons e l ih =>
    rw [List.map_cons, List.sum_cons, h e (List.mem_cons_self ..), ih (fun x hx => h x (List.mem_cons_of_mem _ hx)), zero_add]

theorem RelD.step {X : Node K 0 n} (H : Heap K X.σ) (ease : Fade → K → K) (setRate : K → X.σ → X.σ) {s : Sq K X.σ} {p : Sp K X.σ}
    (h : RelD s p) (o : ROp K X.σ n) (hok : DOk p o) :
    RelD (s.rstep X H ease setRate o).1 (p.rstep (ut X) X.reset ease setRate o).1 ∧
    (s.rstep X H ease setRate o).2 = (p.rstep (ut X) X.reset ease setRate o).2 := by
  obtain ⟨evs, dead, gone, h, hre, hp, hd⟩ := h
  have hmem : ∀ e ∈ evs, e ∈ p.evs := fun e he => hp.mem_iff.2 (List.mem_append_left _ he)
  have hmemd : ∀ e ∈ dead, e ∈ p.evs := fun e he => hp.mem_iff.2 (List.mem_append_right _ he)
  cases o with
  | op o =>
    obtain ⟨hok, hnb, hal⟩ := hok
    have hok' : Ok { p with evs := evs } o := by
      cases o with
      | push e => exact hok
      | pushRel e => exact hok
      | edit id stop fo => exact fun x hx => hok x (hmem x hx)
      | editRel id stop fo => exact fun x hx => hok x (hmem x hx)
      | reset => trivial
      | tick => trivial
      | block size out buf g inp => cases hnb
    have hedit : ∀ (id : Nat) (stop : Option K) (fo : K), (∀ e ∈ p.evs, e.id = id → ∀ s, e.stop = some s → p.time < s) →
        (dead.map fun e => if e.id = id then { e with stop := stop, fadeOut := fo } else e) = dead := by
      intro id stop fo ha
      conv_rhs => rw [← List.map_id dead]
      refine List.map_congr_left fun e he => ?_
      rw [if_neg]
      · rfl
      · intro hid
        have h1 := hd e he
        unfold Ev.endsBy at h1
        cases hs : e.stop with
        | none => rw [hs] at h1; simp at h1
        | some s =>
          rw [hs] at h1
          exact absurd (ha e (hmemd e he) hid s hs) (not_lt.2 (of_decide_eq_true h1))
    obtain ⟨⟨g', h1⟩, h2⟩ := h.step (behaves_id X) H ease setRate o (fun hb => by rw [hnb] at hb; cases hb) hok'
    cases o with
    | push e => exact ⟨⟨_, dead, g', h1, hre, (hp.append_right _).trans (by simp only [List.append_assoc]; exact List.Perm.append_left _ List.perm_append_comm), hd⟩, h2⟩
    | pushRel e => exact ⟨⟨_, dead, g', h1, hre, (hp.append_right _).trans (by simp only [List.append_assoc]; exact List.Perm.append_left _ List.perm_append_comm), hd⟩, h2⟩
    | edit id stop fo =>
      refine ⟨⟨_, dead, g', h1, hre, ?_, hd⟩, h2⟩
      refine (hp.map _).trans ?_
      rw [List.map_append, hedit id stop fo hal]
    | editRel id stop fo =>
      refine ⟨⟨_, dead, g', h1, hre, ?_, hd⟩, h2⟩
      refine (hp.map _).trans ?_
      rw [List.map_append, hedit id _ fo hal]
    | reset =>
      have e1 : ({ p with evs := evs } : Sp K X.σ).reset X.reset = { p.reset X.reset with evs := [] } := by
        unfold Sp.reset
        simp [hre]
      refine ⟨⟨[], [], g', ?_, hre, ?_, by simp⟩, h2⟩
      · have h1 : Rel (id : X.σ → X.σ) (s.step X H ease setRate .reset).1 (({ p with evs := evs } : Sp K X.σ).reset X.reset) g' := h1
        rw [e1] at h1
        exact h1
      · show (if p.replay = true then _ else []).Perm _
        rw [hre]; exact List.Perm.refl _
    | tick =>
      have hsd : 0 < p.sd := by
        have := h.sd_pos
        rw [← h.sd] at this
        exact this
      have hns : ∀ e ∈ dead, ¬ e.sounds (p.time + p.sd / 2) := fun e he => not_sounds_over hsd (hd e he)
      refine ⟨⟨_, dead, g', h1, hre, ?_, ?_⟩, h2.trans ?_⟩
      · refine (hp.map _).trans ?_
        rw [List.map_append]
        have : dead.map (Ev.adv (ut X) p.sd p.time) = dead := by
          conv_rhs => rw [← List.map_id dead]
          exact List.map_congr_left fun e he => if_neg (hns e he)
        rw [this]
      · intro e he
        exact endsBy_mono (hd e he) (by show p.time ≤ p.time + p.sd; linarith)
      · show [_] = [_]
        congr 1
        funext c
        show (evs.map fun e => e.out (ut X) ease p.sd p.time c).sum = (p.evs.map fun e => e.out (ut X) ease p.sd p.time c).sum
        rw [(hp.map _).sum_eq, List.map_append, List.sum_append, sum_dead (l := dead) (f := fun e => e.out (ut X) ease p.sd p.time c) (fun e he => if_neg (hns e he)), add_zero]
    | block size out buf g inp => cases hnb
  | rate r =>
    refine ⟨?_, rfl⟩
    by_cases hne : s.sr = r
    · have e1 : s.setSampleRate setRate r = s := by unfold Sq.setSampleRate; rw [if_pos hne]
      have e2 : p.setRate setRate r = p := by unfold Sp.setRate; rw [if_pos (h.sr.trans hne)]
      simp only [Sq.rstep, Sp.rstep, e1, e2]
      exact ⟨evs, dead, gone, h, hre, hp, hd⟩
    · obtain ⟨dropped, d1, d2, d3⟩ := h.shrink
      have hr := d3.rate setRate r hok hne (List.Perm.refl _)
      have hps : p.sr ≠ r := fun hc => hne (h.sr.symm.trans hc)
      have e2 : p.setRate setRate r = { p with sr := r, sd := 1 / r, evs := p.evs.map fun e => { e with unit := setRate r e.unit } } := by
        unfold Sp.setRate; rw [if_neg hps]
      have e3 : ∀ l, ({ p with evs := l } : Sp K X.σ).setRate setRate r = { p with sr := r, sd := 1 / r, evs := l.map fun e => { e with unit := setRate r e.unit } } := by
        intro l
        unfold Sp.setRate; rw [if_neg hps]
      simp only [Sq.rstep, Sp.rstep, e2]
      rw [e3] at hr
      refine ⟨_, (dropped ++ dead).map fun e => { e with unit := setRate r e.unit }, [], hr, hre, ?_, ?_⟩
      · show (p.evs.map _).Perm _
        rw [← List.map_append]
        refine List.Perm.map _ (hp.trans ?_)
        rw [← List.append_assoc]
        exact d2.append_right _
      · intro e he
        obtain ⟨x, hx, rfl⟩ := List.mem_map.1 he
        show x.endsBy p.time = true
        rcases List.mem_append.1 hx with hx | hx
        · have ht : p.time = s.time := h.time
          rw [ht]; exact d1 x hx
        · exact hd x hx

theorem RelD.run {X : Node K 0 n} (H : Heap K X.σ) (ease : Fade → K → K) (setRate : K → X.σ → X.σ) (os : List (ROp K X.σ n)) :
    ∀ {s : Sq K X.σ} {p : Sp K X.σ}, RelD s p → DOks (ut X) X.reset ease setRate os p →
    (Sq.rrun X H ease setRate os s).2 = (Sp.rrun (ut X) X.reset ease setRate os p).2 := by
  induction os with
  | nil => intro s p _ _; rfl
  | cons o os ih =>
    intro s p h hok
    obtain ⟨h1, h2⟩ := h.step H ease setRate o hok.1
    simp only [Sq.rrun, Sp.rrun]
    rw [h2, ih h1 hok.2]

/-! ## Theorem -/

/-- **C88** (sequencer): a rate change tells the rate to every event and leaves the times of the events alone, also in a sequencer that forgets events that are over: any
run with rate changes at any times plays what the plain list of events plays. Samples are taken one by one. -/
theorem C88_seq_refines_forgetful (X : Node K 0 n) (H : Heap K X.σ) (ease : Fade → K → K) (setRate : K → X.σ → X.σ) (sr : K) (hsr : 0 < sr)
    (ops : List (ROp K X.σ n)) (hok : DOks (ut X) X.reset ease setRate ops (Sp.new false sr)) :
    (Sq.rrun X H ease setRate ops (Sq.new false sr)).2 = (Sp.rrun (ut X) X.reset ease setRate ops (Sp.new false sr)).2 :=
  RelD.run H ease setRate ops ⟨[], [], [], Rel.init false sr hsr, rfl, List.Perm.refl _, by simp⟩ hok

theorem adv_id (tick : U → U × Frame K n) (sd t : K) (e : Ev K U) : (e.adv tick sd t).id = e.id := by unfold Ev.adv; split <;> rfl
theorem adv_stop (tick : U → U × Frame K n) (sd t : K) (e : Ev K U) : (e.adv tick sd t).stop = e.stop := by unfold Ev.adv; split <;> rfl

/-- An event of half a second at a rate of 4, heard twice; then the rate becomes 8, then another event is shortened while it plays. -/
example (H : Heap ℝ rateUnit.σ) (ease : Fade → ℝ → ℝ) :
    let ops : List (ROp ℝ rateUnit.σ 1) := [.op (.push ⟨(0 : ℝ), 0, some (1 / 2), .smooth, 0, 0, 7⟩), .op (.push ⟨(0 : ℝ), 0, some 2, .smooth, 0, 0, 8⟩), .op .tick, .op .tick,
      .rate 8, .op .tick, .op (.edit 8 (some 1) 0), .op .tick]
    (Sq.rrun rateUnit H ease (fun r _ => r) ops (Sq.new false 4)).2 = (Sp.rrun (ut rateUnit) rateUnit.reset ease (fun r _ => r) ops (Sp.new false 4)).2 := by
  intro ops
  refine C88_seq_refines_forgetful rateUnit H ease _ 4 (by norm_num) ops ?_
  refine ⟨⟨?_, rfl, trivial⟩, ⟨?_, rfl, trivial⟩, ⟨trivial, rfl, trivial⟩, ⟨trivial, rfl, trivial⟩, ?_, ⟨trivial, rfl, trivial⟩, ⟨?_, rfl, ?_⟩, ⟨trivial, rfl, trivial⟩, trivial⟩
  · simp [Ok, Sp.new]
  · simp [Ok, Sp.new, Sp.rstep, Sp.step, Sp.push]
  · exact (by norm_num : (0 : ℝ) < 8)
  · intro x hx hid
    norm_num [Sp.rstep, Sp.step, Sp.push, Sp.new, Sp.tick, Sp.ticks, Sp.setRate] at hx ⊢
    rcases hx with rfl | rfl
    · rw [adv_id, adv_id, adv_id] at hid; cases hid
    · unfold Ev.endsBy
      rw [adv_stop, adv_stop, adv_stop]
      exact decide_eq_false (by norm_num)
  · intro x hx hid s hs
    norm_num [Sp.rstep, Sp.step, Sp.push, Sp.new, Sp.tick, Sp.ticks, Sp.setRate] at hx ⊢
    rcases hx with rfl | rfl
    · rw [adv_id, adv_id, adv_id] at hid; cases hid
    · rw [adv_stop, adv_stop, adv_stop] at hs
      have : (2 : ℝ) = s := Option.some.inj hs
      rw [← this]
      norm_num

end Fundsp.Seq
