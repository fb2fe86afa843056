import Verif.Seq.Play
import Verif.Core.Simd

/-! Whole runs of the sequencer against the specification; observable behaviours of units. -/

namespace Fundsp.Seq
variable {K : Type} [Field K] [LinearOrder K] [IsStrictOrderedRing K] [FloorRing K] {n : Nat} {B U V : Type}

/-- Ticking a unit without inputs. -/
def ut (X : Node K 0 n) (s : X.σ) : X.σ × Frame K n := X.tick s Fin.elim0

def Op.isBlock : Op K U n → Bool
  | .block .. => true
  | _ => false

theorem Rel.init {beh : U → B} (replay : Bool) (sr : K) (hsr : 0 < sr) : Rel beh (Sq.new replay sr) (Sp.new replay sr) [] := by
  refine ⟨rfl, rfl, rfl, rfl, ?_, ?_, .inl rfl, ?_, ?_, ?_, ?_, ?_, ?_, ?_, ?_, ?_, ?_, ?_⟩
  · exact one_div_pos.2 hsr
  · show sr * (1 / sr) = 1
    rw [mul_one_div, div_self hsr.ne']
  all_goals first | (simp [Sq.new, Sp.new, ids]; done) | skip
  · intro id i
    simp [Sq.new]

/-- One call refines the specification. -/
theorem Rel.step {X : Node K 0 n} {tick : B → B × Frame K n} {reset : B → B} {beh : X.σ → B} (hX : Behaves X tick reset beh)
    (H : Heap K X.σ) (ease : Fade → K → K) (setRate : K → X.σ → X.σ) {s : Sq K X.σ} {p : Sp K B} {gone} (h : Rel beh s p gone)
    (o : Op K X.σ n) (hb : o.isBlock = true → BehavesBlock X tick beh ∧ ∀ f, ease f 1 = 1) (hok : Ok p o) :
    (∃ gone', Rel beh (s.step X H ease setRate o).1 (p.step tick reset ease (fun r u => beh (setRate r u)) o).1 gone') ∧
    (s.step X H ease setRate o).2 = (p.step tick reset ease (fun r u => beh (setRate r u)) o).2 := by
  cases o with
  | push e =>
    refine ⟨⟨gone, ?_⟩, rfl⟩
    have := h.push (e.rated setRate s.sr) hok
    rw [← h.sr] at this
    simp only [Sq.step, Sp.step, Sq.push]
    rw [← h.sr]; exact this
  | pushRel e =>
    refine ⟨⟨gone, ?_⟩, rfl⟩
    have := h.push ((e.rated setRate s.sr).shift s.time) hok
    simp only [Sq.step, Sp.step, pushRelative_eq]
    rw [h.sr, h.time]; exact this
  | edit id stop fo => exact ⟨⟨gone, h.edit id stop fo hok⟩, rfl⟩
  | editRel id stop fo =>
    refine ⟨⟨gone, ?_⟩, rfl⟩
    have := h.edit id (stop.map (p.time + ·)) fo hok
    simp only [Sq.step, Sp.step, editRelative_eq]
    rw [← h.time]; exact this
  | reset => exact ⟨⟨[], h.reset X.reset reset hX.reset⟩, rfl⟩
  | tick =>
    obtain ⟨h1, h2⟩ := h.tick hX H ease
    exact ⟨h1, h2.symm⟩
  | block size out buf g inp =>
    obtain ⟨b1, b2⟩ := hb rfl
    obtain ⟨o1, o2, o3⟩ := hok
    obtain ⟨h1, h2⟩ := h.block b1 H ease b2 size o1 o2 o3 g inp buf out
    exact ⟨h1, h2.symm⟩

/-- Any number of calls. -/
theorem Rel.run {X : Node K 0 n} {tick : B → B × Frame K n} {reset : B → B} {beh : X.σ → B} (hX : Behaves X tick reset beh)
    (H : Heap K X.σ) (ease : Fade → K → K) (setRate : K → X.σ → X.σ) :
    ∀ (os : List (Op K X.σ n)) {s : Sq K X.σ} {p : Sp K B} {gone}, Rel beh s p gone →
    (∀ o ∈ os, o.isBlock = true → BehavesBlock X tick beh ∧ ∀ f, ease f 1 = 1) →
    Oks tick reset ease (fun r u => beh (setRate r u)) os p →
    (∃ gone', Rel beh (Sq.run X H ease setRate os s).1 (Sp.run tick reset ease (fun r u => beh (setRate r u)) os p).1 gone') ∧
    (Sq.run X H ease setRate os s).2 = (Sp.run tick reset ease (fun r u => beh (setRate r u)) os p).2
  | [], s, p, gone, h, _, _ => ⟨⟨gone, h⟩, rfl⟩
  | o :: os, s, p, gone, h, hb, hok => by
    obtain ⟨⟨g1, h1⟩, h2⟩ := h.step hX H ease setRate o (hb o (List.mem_cons_self ..)) hok.1
    obtain ⟨h3, h4⟩ := Rel.run hX H ease setRate os h1 (fun o' ho' => hb o' (List.mem_cons_of_mem _ ho')) hok.2
    refine ⟨h3, ?_⟩
    simp only [Sq.run, Sp.run]
    rw [h2, h4]

/-! ### Behaviours of units -/

/-- Ticks (`true`) and resets (`false`) of a unit. -/
def act (X : Node K 0 n) (s : X.σ) : List Bool → X.σ
  | [] => s
  | true :: l => act X (ut X s).1 l
  | false :: l => act X (X.reset s) l

/-- Everything that can be observed of a unit by ticks and resets. -/
def behave (X : Node K 0 n) (s : X.σ) (l : List Bool) : Frame K n := (ut X (act X s l)).2

def behTick (b : List Bool → Frame K n) : (List Bool → Frame K n) × Frame K n := (fun l => b (true :: l), b [])
def behReset (b : List Bool → Frame K n) : List Bool → Frame K n := fun l => b (false :: l)

theorem ut_eq (X : Node K 0 n) (s : X.σ) (x : Frame K 0) : X.tick s x = ut X s := by
  unfold ut; congr 1; funext i; exact i.elim0

theorem behaves_behave (X : Node K 0 n) : Behaves X behTick behReset (behave X) :=
  ⟨fun s x => by rw [ut_eq]; rfl, fun _ => rfl⟩

theorem behaves_id (X : Node K 0 n) : Behaves X (ut X) X.reset id :=
  ⟨fun s x => by rw [ut_eq]; rfl, fun _ => rfl⟩

theorem st_eq (X : Node K 0 n) (s : X.σ) (w : Nat → Frame K 0) (k : Nat) : X.ticks.st s w k = bst (ut X) s k := by
  induction k with
  | zero => rfl
  | succ k ih =>
    simp only [Mealy.st, bst]
    rw [ih, ut_eq]

theorem out_eq (X : Node K 0 n) (s : X.σ) (w : Nat → Frame K 0) (k : Nat) : X.ticks.out s w k = bout (ut X) s k := by
  simp only [Mealy.out, bout]
  rw [st_eq, ut_eq]

theorem bst_beh {X : Node K 0 n} {tick : B → B × Frame K n} {reset : B → B} {beh : X.σ → B} (hX : Behaves X tick reset beh) (s : X.σ) (k : Nat) :
    bst tick (beh s) k = beh (bst (ut X) s k) ∧ bout tick (beh s) k = bout (ut X) s k := by
  have h1 : ∀ k, bst tick (beh s) k = beh (bst (ut X) s k) := by
    intro k
    induction k with
    | zero => rfl
    | succ k ih =>
      simp only [bst]
      rw [ih, hX.tick _ Fin.elim0]; rfl
  refine ⟨h1 k, ?_⟩
  unfold bout
  rw [h1, hX.tick _ Fin.elim0]; rfl

theorem behavesBlock_behave {X : Node K 0 n} (hX : TickBlock X) : BehavesBlock X behTick (behave X) := by
  obtain ⟨R, hrefl, hreset, hI⟩ := hX
  have hbeh : ∀ s t, R s t → behave X s = behave X t := by
    intro s t h
    funext l
    induction l generalizing s t with
    | nil =>
      have := (hI.tick s t Fin.elim0 h).2
      simpa [behave, act, ut] using this
    | cons b l ih =>
      cases b with
      | true => exact ih _ _ (hI.tick s t Fin.elim0 h).1
      | false => exact ih _ _ (hreset _ _ h)
  intro g s size inp out hs
  obtain ⟨h1, h2⟩ := hI.process g s s size inp out hs (hrefl s)
  refine ⟨?_, ?_⟩
  · rw [hbeh _ _ h1, st_eq, (bst_beh (behaves_behave X) s size).1]
  · intro k hk
    rw [h2 k hk, out_eq, (bst_beh (behaves_behave X) s k).2]

/-! ### The specification does not depend on the representation of units -/

def Sp.map (f : U → B) (p : Sp K U) : Sp K B :=
  { evs := p.evs.map (Ev.map f), used := p.used, time := p.time, sr := p.sr, sd := p.sd, replay := p.replay }

section Functor
variable {X : Node K 0 n} {tick : B → B × Frame K n} {reset : B → B} {beh : X.σ → B}

theorem adv_map (hX : Behaves X tick reset beh) (sd t : K) (e : Ev K X.σ) : Ev.adv tick sd t (e.map beh) = (Ev.adv (ut X) sd t e).map beh := by
  unfold Ev.adv
  have hs : (e.map beh).sounds (t + sd / 2) ↔ e.sounds (t + sd / 2) := Iff.rfl
  by_cases h : e.sounds (t + sd / 2)
  · rw [if_pos h, if_pos (hs.2 h)]
    have := hX.tick e.unit Fin.elim0
    simp only [Ev.map, this]; rfl
  · rw [if_neg h, if_neg (fun h' => h (hs.1 h'))]

theorem out_map (hX : Behaves X tick reset beh) (ease : Fade → K → K) (sd t : K) (e : Ev K X.σ) (c : Fin n) :
    Ev.out tick ease sd t (e.map beh) c = Ev.out (ut X) ease sd t e c := by
  unfold Ev.out
  have hs : (e.map beh).sounds (t + sd / 2) ↔ e.sounds (t + sd / 2) := Iff.rfl
  by_cases h : e.sounds (t + sd / 2)
  · rw [if_pos h, if_pos (hs.2 h), gain_map]
    have := hX.tick e.unit Fin.elim0
    simp only [Ev.map, this]; rfl
  · rw [if_neg h, if_neg (fun h' => h (hs.1 h'))]

theorem Sp.tick_map (hX : Behaves X tick reset beh) (ease : Fade → K → K) (p : Sp K X.σ) :
    (p.map beh).tick tick ease = ((p.tick (ut X) ease).1.map beh, (p.tick (ut X) ease).2) := by
  unfold Sp.tick Sp.map
  simp only [List.map_map]
  congr 1
  · congr 1
    apply List.map_congr_left
    intro e _; exact adv_map hX _ _ e
  · funext c
    congr 1
    apply List.map_congr_left
    intro e _; exact out_map hX _ _ _ e c

theorem Sp.ticks_map (hX : Behaves X tick reset beh) (ease : Fade → K → K) (k : Nat) : ∀ (p : Sp K X.σ),
    (p.map beh).ticks tick ease k = ((p.ticks (ut X) ease k).1.map beh, (p.ticks (ut X) ease k).2) := by
  induction k with
  | zero => intro p; rfl
  | succ k ih =>
    intro p
    simp only [Sp.ticks]
    rw [Sp.tick_map hX]
    simp only [ih]

theorem Sp.step_map (hX : Behaves X tick reset beh) (ease : Fade → K → K) (setRate : K → V → X.σ) (p : Sp K X.σ) (o : Op K V n) :
    (p.map beh).step tick reset ease (fun r u => beh (setRate r u)) o =
      ((p.step (ut X) X.reset ease setRate o).1.map beh, (p.step (ut X) X.reset ease setRate o).2) := by
  cases o with
  | push e => simp [Sp.step, Sp.push, Sp.map, Ev.rated, Ev.map]
  | pushRel e => simp [Sp.step, Sp.push, Sp.map, Ev.rated, Ev.map, Ev.shift]
  | edit id stop fo =>
    simp only [Sp.step, Sp.edit, Sp.map, List.map_map]
    congr 2
    apply List.map_congr_left
    intro e _
    simp only [Function.comp]
    by_cases h : e.id = id
    · rw [if_pos h, if_pos (show (e.map beh).id = id from h)]; rfl
    · rw [if_neg h, if_neg (show ¬ (e.map beh).id = id from h)]
  | editRel id stop fo =>
    simp only [Sp.step, Sp.edit, Sp.map, List.map_map]
    congr 2
    apply List.map_congr_left
    intro e _
    simp only [Function.comp]
    by_cases h : e.id = id
    · rw [if_pos h, if_pos (show (e.map beh).id = id from h)]; rfl
    · rw [if_neg h, if_neg (show ¬ (e.map beh).id = id from h)]
  | reset =>
    obtain ⟨evs, used, time, sr, sd, replay⟩ := p
    cases replay with
    | false => rfl
    | true =>
      simp only [Sp.step, Sp.reset, Sp.map]
      congr 2
      simp only [if_true, List.map_map]
      apply List.map_congr_left
      intro e _
      simp only [Function.comp, Ev.map, hX.reset]
  | tick => exact Sp.ticks_map hX ease 1 p
  | block size out buf g inp => exact Sp.ticks_map hX ease size p

theorem Ok_map (p : Sp K X.σ) (o : Op K V n) (h : Ok p o) : Ok (p.map beh) o := by
  cases o with
  | push e => exact h
  | pushRel e => exact h
  | edit id stop fo =>
    intro x hx hid
    obtain ⟨y, hy, rfl⟩ := List.mem_map.1 hx
    exact h y hy hid
  | editRel id stop fo =>
    intro x hx hid
    obtain ⟨y, hy, rfl⟩ := List.mem_map.1 hx
    exact h y hy hid
  | reset => trivial
  | tick => trivial
  | block size out buf g inp =>
    obtain ⟨h1, h2, h3⟩ := h
    refine ⟨h1, h2, ?_⟩
    intro x hx
    obtain ⟨y, hy, rfl⟩ := List.mem_map.1 hx
    have := h3 y hy
    exact ⟨this.half, this.fadeIn, this.fadeOut⟩

theorem Oks_map (hX : Behaves X tick reset beh) (ease : Fade → K → K) (setRate : K → V → X.σ) : ∀ (os : List (Op K V n)) (p : Sp K X.σ),
    Oks (ut X) X.reset ease setRate os p → Oks tick reset ease (fun r u => beh (setRate r u)) os (p.map beh)
  | [], _, _ => trivial
  | o :: os, p, h => by
    refine ⟨Ok_map p o h.1, ?_⟩
    rw [Sp.step_map hX]
    exact Oks_map hX ease setRate os _ h.2

theorem Sp.run_map (hX : Behaves X tick reset beh) (ease : Fade → K → K) (setRate : K → V → X.σ) : ∀ (os : List (Op K V n)) (p : Sp K X.σ),
    Sp.run tick reset ease (fun r u => beh (setRate r u)) os (p.map beh) =
      ((Sp.run (ut X) X.reset ease setRate os p).1.map beh, (Sp.run (ut X) X.reset ease setRate os p).2)
  | [], _ => rfl
  | o :: os, p => by
    simp only [Sp.run]
    rw [Sp.step_map hX]
    simp only [Sp.run_map hX ease setRate os]

end Functor

/-- Runs of the specification can be split. -/
theorem Sp.run_append (tick : B → B × Frame K n) (reset : B → B) (ease : Fade → K → K) (setRate : K → V → B) :
    ∀ (os os' : List (Op K V n)) (p : Sp K B), Sp.run tick reset ease setRate (os ++ os') p =
      ((Sp.run tick reset ease setRate os' (Sp.run tick reset ease setRate os p).1).1,
       (Sp.run tick reset ease setRate os p).2 ++ (Sp.run tick reset ease setRate os' (Sp.run tick reset ease setRate os p).1).2)
  | [], _, _ => by simp [Sp.run]
  | o :: os, os', p => by
    simp only [List.cons_append, Sp.run]
    rw [Sp.run_append tick reset ease setRate os os']
    simp [List.append_assoc]

theorem Oks_append (tick : B → B × Frame K n) (reset : B → B) (ease : Fade → K → K) (setRate : K → V → B) :
    ∀ (os os' : List (Op K V n)) (p : Sp K B), Oks tick reset ease setRate (os ++ os') p ↔
      Oks tick reset ease setRate os p ∧ Oks tick reset ease setRate os' (Sp.run tick reset ease setRate os p).1
  | [], _, _ => by simp [Oks, Sp.run]
  | o :: os, os', p => by
    simp only [List.cons_append, Oks, Sp.run]
    rw [Oks_append tick reset ease setRate os os', and_assoc]

theorem Sp.run_ticks (tick : B → B × Frame K n) (reset : B → B) (ease : Fade → K → K) (setRate : K → V → B) (k : Nat) :
    ∀ p : Sp K B, Sp.run tick reset ease setRate (List.replicate k (Op.tick : Op K V n)) p = p.ticks tick ease k := by
  induction k with
  | zero => intro p; rfl
  | succ k ih =>
    intro p
    simp only [List.replicate_succ, Sp.run, Sp.step]
    rw [ih]; rfl

theorem Oks_ticks (tick : B → B × Frame K n) (reset : B → B) (ease : Fade → K → K) (setRate : K → V → B) (k : Nat) :
    ∀ p : Sp K B, Oks tick reset ease setRate (List.replicate k (Op.tick : Op K V n)) p := by
  induction k with
  | zero => intro p; trivial
  | succ k ih => intro p; exact ⟨trivial, ih _⟩

theorem Sp.run_pushes (tick : B → B × Frame K n) (reset : B → B) (ease : Fade → K → K) (setRate : K → V → B) :
    ∀ (es : List (Ev K V)) (p : Sp K B), Sp.run tick reset ease setRate (es.map (Op.push : Ev K V → Op K V n)) p =
      ({ p with evs := p.evs ++ es.map (Ev.rated setRate p.sr), used := (es.map (·.id)).reverse ++ p.used }, [])
  | [], p => by simp [Sp.run]
  | e :: es, p => by
    simp only [List.map_cons, Sp.run, Sp.step, Sp.push]
    rw [Sp.run_pushes tick reset ease setRate es]
    simp [Ev.rated, Ev.map]

theorem Oks_pushes (tick : B → B × Frame K n) (reset : B → B) (ease : Fade → K → K) (setRate : K → V → B) :
    ∀ (es : List (Ev K V)) (p : Sp K B), (es.map (·.id)).Nodup → (∀ e ∈ es, e.id ∉ p.used) →
      Oks tick reset ease setRate (es.map (Op.push : Ev K V → Op K V n)) p
  | [], _, _, _ => trivial
  | e :: es, p, hn, hu => by
    simp only [List.map_cons, List.nodup_cons] at hn
    refine ⟨hu e (List.mem_cons_self ..), Oks_pushes tick reset ease setRate es _ hn.2 ?_⟩
    intro e' he' hm
    simp only [Sp.step, Sp.push, List.mem_cons] at hm
    rcases hm with hm | hm
    · exact hn.1 (by rw [← show e'.id = e.id from hm]; exact List.mem_map_of_mem he')
    · exact hu e' (List.mem_cons_of_mem _ he') hm

end Fundsp.Seq
